import Verif.Props.Order
import Verif.ScalarLemmas
/-!
# Decoding what was encoded: specification and lemmas

`Reads f c b v`: the decoder `f` gets `v` back out of the bytes `b`, whatever follows them if `c` holds,
and when nothing follows otherwise (`T[..]` reads to the end of its stream).
-/
namespace Verif.RT
open Verif Verif.Enc Verif.Props

def Reads {α} (f : Bytes → Res (α × Bytes)) (c : Bool) (b : Bytes) (v : α) : Prop :=
  ∀ tail, (c = true ∨ tail = []) → f (b ++ tail) = .ok (v, tail)

/-! ## Which values -/

/-- Values of the Rust type of a primitive. -/
def HasPrim : Prim → Val → Prop
  | .bool, v => ∃ b, v = .bool b
  | .f32, v => ∃ n, v = .flt false n ∧ n < 2 ^ 32
  | .f64, v => ∃ n, v = .flt true n ∧ n < 2 ^ 64
  | .scalar s, v => ∃ x, v = .int ⟨s.scalar, x⟩ ∧ s.scalar.InRange x

/-- Values of a generated enum or bitfield that its `from_repr` gives back. -/
def HasRepr : ReprTy → Val → Prop
  | .enum n d, v => ∃ e x, v = .enm n e ⟨d.rep.scalar, x⟩ ∧ d.toRepr e = some x ∧ d.fromRepr x = some e ∧
      d.rep.scalar.InRange x
  | .bitfield n d, v => ∃ x, v = .bits n ⟨d.rep.scalar, x⟩ ∧ d.fromRepr x = some x ∧ d.rep.scalar.InRange x

/-- What round trips are known of: values of declared types (`decl`) and of foreign types (`ext`). -/
structure Goods where
  decl : String → List Val → Val → Prop
  ext : String → List Val → Val → Prop

/-- Values of a non-container type. `σ` has the values of the fields that expressions refer to. -/
def FitsLeaf (X : Ext) (G : Goods) (σ : Env) : LTy → Val → Prop
  | .prim p, v => HasPrim p v
  | .ref t foreign _ args, v => ∀ vs, args.mapM (ev X σ) = .ok vs → if foreign then G.ext t vs v else G.decl t vs v
  | .array elem len, v => ∃ vs, v = .arr vs ∧
    match len with
    | .fixed e =>
      match elem.resolved with
      | .prim p => (∀ x ∈ vs, HasPrim p x) ∧ vs.length * p.size < 2 ^ 63
      | .repr t => (∀ x ∈ vs, HasRepr t x) ∧ vs.length * t.rep.scalar.size < 2 ^ 63
      | .other => (∀ x ∈ vs, FitsLeaf X G σ elem x) ∧ vs.length < 2 ^ 63 ∧
          ∀ l, ev X σ e = .ok l → ∃ k, l = .int ⟨k, vs.length⟩
    | .unbounded =>
      match elem.resolved with
      | .prim p => ∀ x ∈ vs, HasPrim p x
      | .repr t => ∀ x ∈ vs, HasRepr t x
      | .other => ∀ x ∈ vs, FitsLeaf X G σ elem x ∧ encLeaf X σ elem x ≠ .ok []
    | .term e =>
      (∀ x ∈ vs, FitsLeaf X G σ elem x ∧ encLeaf X σ elem x ≠ .ok []) ∧
      -- the terminator does not come up in front of an element
      ∀ t tb, ev X σ e = .ok t → t.toBytes = some tb → ∀ pre post bs, vs = pre ++ post → post ≠ [] →
        concatM (encLeaf X σ elem) post = .ok bs → ¬ tb <+: bs ++ tb

/-- The declared length of a container covers its content; it is exact unless the content can be told
from what follows it (`closed`). -/
def FitsLen (X : Ext) (σ : Env) (len : Option Expr) (closed : Bool) (content : Bytes) : Prop :=
  ∀ e, len = some e → ∃ l n, ev X σ e = .ok l ∧ asUsize l = .ok n ∧
    (content.length = n ∨ (closed = true ∧ content.length ≤ n))

/-! ## Which declarations -/

/-- What may be followed by other bytes: declared types, foreign types, transforms. -/
structure Closed where
  decl : String → Bool
  ext : String → Bool
  xform : String → Bool

def closedL (C : Closed) : LTy → Bool
  | .prim _ => true
  | .ref t foreign _ _ => if foreign then C.ext t else C.decl t
  | .array elem len =>
    match len with
    | .unbounded => false
    | _ => closedL C elem

def closedX (C : Closed) : List XformUse → Bool → Bool
  | [], c => c
  | x :: _, c => C.xform x.name && (x.cond.isNone || c)

/-- Whether the items may be followed by other bytes. -/
def closedF (C : Closed) : Fields → Bool
  | .nil => true
  | .pad _ _ rest => closedF C rest
  | .leaf a ty rest => closedX C a.xfs (closedL C ty) && closedF C rest
  | .cont a len items rest => closedX C a.xfs (len.isSome || closedF C items) && closedF C rest

/-- Elements of arrays can be told from what follows them. -/
def wfL (C : Closed) : LTy → Bool
  | .prim _ => true
  | .ref _ _ _ _ => true
  | .array elem _ => closedL C elem && wfL C elem

/-- At most one transform per item (chains do not round trip: `chained_transforms_do_not_round_trip`); only
the last item may read to the end of the stream; no calculated field is conditional or inside a
conditional container, no condition inside a conditional container. -/
def wfF (C : Closed) : Fields → Bool
  | .nil => true
  | .pad _ _ rest => wfF C rest
  | .leaf a ty rest =>
    wfL C ty && decide (a.xfs.length ≤ 1) && (a.cond.isNone || a.auto.isNone) &&
      (closedX C a.xfs (closedL C ty) || decide (rest = .nil)) && wfF C rest
  | .cont a len items rest =>
    wfF C items && decide (a.xfs.length ≤ 1) && (a.cond.isNone || decide (plainNames items = items.names)) &&
      (closedX C a.xfs (len.isSome || closedF C items) || decide (rest = .nil)) && wfF C rest

/-- Values of the items of a container. A conditional field is present or absent according to its
condition. -/
def Fits (X : Ext) (G : Goods) (C : Closed) : Fields → Env → Prop
  | .nil, _ => True
  | .pad _ _ rest, σ => Fits X G C rest σ
  | .leaf a ty rest, σ =>
    (∀ v, σ a.name = some v →
      match a.cond with
      | none => FitsLeaf X G σ ty v
      | some e =>
        (ev X σ e = .ok (.bool true) → ∃ w, v = .opt (some w) ∧ FitsLeaf X G σ ty w) ∧
        (ev X σ e = .ok (.bool false) → v = .opt none)) ∧
    Fits X G C rest σ
  | .cont a len items rest, σ =>
    ((∀ e, a.cond = some e → ev X σ e = .ok (.bool true)) →
      Fits X G C items (inside a items σ) ∧
      ∀ l content, wire X items (inside a items σ) = .ok (l, content) → FitsLen X σ len (closedF C items) content) ∧
    (∀ e, a.cond = some e → ev X σ e = .ok (.bool false) → ∀ n ∈ items.names, σ n = some (.opt none)) ∧
    Fits X G C rest σ

/-! ## Single items -/

/-- What encoder and decoder share, and what is known of the code they call. -/
structure Paired (XE : Ext) (XD : Dec.Ext) (G : Goods) (C : Closed) : Prop where
  oc : XE.oc = XD.oc
  input : XE.input = XD.input
  call : ∀ n args v b, G.decl n args v → XE.call n args v = .ok b → Reads (XD.call n args) (C.decl n) b v
  foreign : ∀ n args v b, G.ext n args v → XE.foreign n args v = .ok b → Reads (XD.foreign n args) (C.ext n) b v
  xform : ∀ n args d b, XE.xform n args d = .ok b → Reads (XD.xform n args) (C.xform n) b d

theorem Reads.mono {α} {f : Bytes → Res (α × Bytes)} {c c' : Bool} {b : Bytes} {v : α} (h : Reads f c b v)
    (hc : c' = true → c = true) : Reads f c' b v := fun tail ht => h tail (ht.imp hc id)

theorem Reads.exact {α} {f : Bytes → Res (α × Bytes)} {c : Bool} {b : Bytes} {v : α} (h : Reads f c b v) :
    f b = .ok (v, []) := by simpa using h [] (.inr rfl)

theorem intBytes_len (t : EScalar) (v : Int) : (intBytes t v).length = t.scalar.size := by
  unfold intBytes
  cases t.endian <;> simp

theorem prim_bytes {p : Prim} {v : Val} {b : Bytes} (hv : HasPrim p v) (h : encPrim p v = .ok b) :
    b.length = p.size ∧ primOfBytes p b = v := by
  cases p with
  | bool =>
    obtain ⟨x, rfl⟩ := hv
    simp only [encPrim] at h
    cases h
    cases x <;> exact ⟨rfl, rfl⟩
  | f32 =>
    obtain ⟨n, rfl, hn⟩ := hv
    simp only [encPrim, numBytes] at h
    cases h
    refine ⟨by simp [Prim.size], ?_⟩
    simp only [primOfBytes, List.reverse_reverse, Bool.false_eq_true, if_false, leNat_leBytes]
    rw [Nat.mod_eq_of_lt (by simpa using hn)]
  | f64 =>
    obtain ⟨n, rfl, hn⟩ := hv
    simp only [encPrim, numBytes] at h
    cases h
    refine ⟨by simp [Prim.size], ?_⟩
    simp only [primOfBytes, List.reverse_reverse, if_true, leNat_leBytes]
    rw [Nat.mod_eq_of_lt (by simpa using hn)]
  | scalar s =>
    obtain ⟨x, rfl, hx⟩ := hv
    simp only [encPrim, numBytes] at h
    cases h
    refine ⟨intBytes_len _ _, ?_⟩
    simp only [primOfBytes]
    rw [bytesInt_intBytes ⟨s.scalar, s.endian⟩ x hx]

theorem reads_readExact {b : Bytes} {n : Nat} (h : b.length = n) : Reads (readExact n) true b b := by
  intro tail _
  rw [readExact_long (by simp; omega), List.take_left' h, List.drop_left' h]

theorem reads_prim {p : Prim} {v : Val} {b : Bytes} (hv : HasPrim p v) (h : encPrim p v = .ok b) :
    Reads (decPrim p) true b v := by
  obtain ⟨h1, h2⟩ := prim_bytes hv h
  intro tail ht
  simp only [decPrim, reads_readExact h1 tail ht, ok_bind, h2]

theorem repr_bytes {t : ReprTy} {v : Val} {b : Bytes} (hv : HasRepr t v) (h : encRepr t v = .ok b) :
    b.length = t.rep.scalar.size ∧ ofRepr t (bytesInt t.rep b) = .ok v := by
  cases t with
  | enum n d =>
    obtain ⟨e, x, rfl, h1, h2, h3⟩ := hv
    simp only [encRepr, reprOf, h1, ok_bind, if_true] at h
    cases h
    refine ⟨intBytes_len _ _, ?_⟩
    simp only [ReprTy.rep, ofRepr]
    rw [bytesInt_intBytes d.rep x h3]
    simp only [h2]
  | bitfield n d =>
    obtain ⟨x, rfl, h2, h3⟩ := hv
    simp only [encRepr, reprOf, ok_bind, if_true] at h
    cases h
    refine ⟨intBytes_len _ _, ?_⟩
    simp only [ReprTy.rep, ofRepr]
    rw [bytesInt_intBytes d.rep x h3]
    simp only [h2]

theorem reads_repr {t : ReprTy} {v : Val} {b : Bytes} (hv : HasRepr t v) (h : encRepr t v = .ok b) :
    Reads (decRepr t) true b v := by
  obtain ⟨h1, h2⟩ := repr_bytes hv h
  intro tail ht
  simp only [decRepr, reads_readExact h1 tail ht, ok_bind, h2]

/-! ## Arrays -/

/-- Elements of equal size written one after the other come apart again. -/
theorem chunks_concat {f : Val → Res Bytes} {g : Bytes → Res Val} {size : Nat} : ∀ {vs : List Val} {b : Bytes},
    (∀ x ∈ vs, ∀ b, f x = .ok b → b.length = size ∧ g b = .ok x) → concatM f vs = .ok b →
    b.length = vs.length * size ∧ (chunksN size vs.length b).mapM g = .ok vs
  | [], b, _, h => by cases h; exact ⟨by simp, rfl⟩
  | v :: vs, b, hv, h => by
    simp only [concatM] at h
    obtain ⟨b1, h1, h⟩ := ok_of_bind h
    obtain ⟨b2, h2, h⟩ := ok_of_bind h
    cases h
    obtain ⟨k1, k2⟩ := hv v (by simp) b1 h1
    obtain ⟨k3, k4⟩ := chunks_concat (fun x hx => hv x (by simp [hx])) h2
    refine ⟨by simp only [List.length_append, List.length_cons, k1, k3, Nat.add_mul]; omega, ?_⟩
    simp only [List.length_cons, chunksN, List.mapM_cons, List.take_left' k1, List.drop_left' k1, k2, k4, ok_bind]
    rfl

theorem mapM_pure {α β} (f : α → β) : ∀ l : List α, (l.mapM fun x => (.ok (f x) : Res β)) = .ok (l.map f)
  | [] => rfl
  | a :: l => by simp only [List.mapM_cons, ok_bind, mapM_pure f l, List.map_cons]; rfl

theorem primArray_bytes {p : Prim} {vs : List Val} {n : Option Nat} {b : Bytes} (hv : ∀ x ∈ vs, HasPrim p x)
    (h : encPrimArray p n (.arr vs) = .ok b) :
    p ≠ .bool ∧ (∀ k, n = some k → k = vs.length) ∧ concatM (encPrim p) vs = .ok b := by
  have hcount : ∀ {u}, checkCount n vs = .ok u → ∀ k, n = some k → k = vs.length := by
    intro u hu k hk
    subst hk
    simp only [checkCount] at hu
    split at hu
    · assumption
    · cases hu
  unfold encPrimArray at h
  split at h
  · cases h
  · rename_i en
    simp only [elems, ok_bind] at h
    obtain ⟨u, hu, h⟩ := ok_of_bind h
    rw [optRes_ok] at h
    refine ⟨by simp, hcount hu, ?_⟩
    have hb : ∀ v ∈ vs, ∃ m : Nat, m < 256 ∧ v = .int ⟨.u8, m⟩ := by
      intro v hv'
      obtain ⟨x, rfl, hx⟩ := hv v hv'
      have hx' : (0 : Int) ≤ x ∧ x ≤ 255 := by
        have := hx; simp only [Scalar.InRange] at this
        have h1 : Scalar.min .u8 = 0 := by decide
        have h2 : Scalar.max .u8 = 255 := by decide
        rw [h1, h2] at this; exact this
      exact ⟨x.toNat, by omega, by simp; omega⟩
    have key := concatM_u8 vs b h hb
    have hsame : ∀ l : List Val, (∀ v ∈ l, ∃ m : Nat, m < 256 ∧ v = .int ⟨.u8, m⟩) →
        concatM (encPrim (.scalar ⟨.u8, en⟩)) l = concatM (encPrim (.scalar ⟨.u8, .big⟩)) l := by
      intro l
      induction l with
      | nil => intro _; rfl
      | cons v l ih =>
        intro hl
        obtain ⟨m, hm, rfl⟩ := hl v (by simp)
        simp only [concatM, ih fun v hv => hl v (by simp [hv])]
        have : encPrim (.scalar ⟨.u8, en⟩) (.int ⟨.u8, m⟩) = encPrim (.scalar ⟨.u8, .big⟩) (.int ⟨.u8, m⟩) := by
          simp only [encPrim, numBytes, intBytes_u8 m hm]
          have : intBytes ⟨.u8, en⟩ m = intBytes ⟨.u8, .big⟩ m := by
            unfold intBytes
            cases en with
            | big => rfl
            | little => simp [leBytes, Scalar.size]
          rw [this, intBytes_u8 m hm]
        rw [this]
    rw [hsame vs hb, key]
  · rename_i hnb _
    simp only [elems, ok_bind] at h
    obtain ⟨u, hu, h⟩ := ok_of_bind h
    exact ⟨fun h => hnb h, hcount hu, h⟩

theorem chunksExact_of {size k : Nat} {b : Bytes} (hs : 0 < size) (h : b.length = k * size) :
    chunksExact size b = chunksN size k b := by
  unfold chunksExact
  rw [h, Nat.mul_div_cancel _ hs]

theorem reads_primArray_fixed {oc : Bool} {p : Prim} {vs : List Val} {n : Nat} {b : Bytes} (hv : ∀ x ∈ vs, HasPrim p x)
    (hsz : vs.length * p.size < 2 ^ 63) (h : encPrimArray p (some n) (.arr vs) = .ok b) :
    Reads (decPrimArray oc p (some n)) true b (.arr vs) := by
  obtain ⟨hb, hn, hc⟩ := primArray_bytes hv h
  have hn := hn n rfl
  subst hn
  obtain ⟨h1, h2⟩ := chunks_concat (g := fun b => .ok (primOfBytes p b)) (size := p.size)
    (fun x hx b hb => by obtain ⟨h1, h2⟩ := prim_bytes (hv x hx) hb; exact ⟨h1, by rw [h2]⟩) hc
  rw [mapM_pure] at h2
  intro tail ht
  unfold decPrimArray
  rw [if_neg hb]
  rw [readItems_small _ hsz, reads_readExact h1 tail ht]
  simp only [ok_bind, chunksExact_of (prim_size_pos p) h1, Except.ok.inj h2]

theorem reads_primArray_all {oc : Bool} {p : Prim} {vs : List Val} {b : Bytes} (hv : ∀ x ∈ vs, HasPrim p x)
    (h : encPrimArray p none (.arr vs) = .ok b) : Reads (decPrimArray oc p none) false b (.arr vs) := by
  obtain ⟨hb, _, hc⟩ := primArray_bytes hv h
  obtain ⟨h1, h2⟩ := chunks_concat (g := fun b => .ok (primOfBytes p b)) (size := p.size)
    (fun x hx b hb => by obtain ⟨h1, h2⟩ := prim_bytes (hv x hx) hb; exact ⟨h1, by rw [h2]⟩) hc
  rw [mapM_pure] at h2
  rintro tail (ht | rfl)
  · cases ht
  unfold decPrimArray
  rw [if_neg hb]
  simp only [readItems, ok_bind, List.append_nil, chunksExact_of (prim_size_pos p) h1, Except.ok.inj h2]

theorem reprArray_bytes {t : ReprTy} {vs : List Val} {n : Option Nat} {b : Bytes}
    (h : encReprArray t n (.arr vs) = .ok b) :
    (∀ k, n = some k → k = vs.length) ∧ concatM (encRepr t) vs = .ok b := by
  unfold encReprArray at h
  simp only [elems, ok_bind] at h
  obtain ⟨u, hu, h⟩ := ok_of_bind h
  refine ⟨fun k hk => ?_, h⟩
  subst hk
  simp only [checkCount] at hu
  split at hu
  · assumption
  · cases hu

theorem reads_reprArray_fixed {oc : Bool} {t : ReprTy} {vs : List Val} {n : Nat} {b : Bytes} (hv : ∀ x ∈ vs, HasRepr t x)
    (hsz : vs.length * t.rep.scalar.size < 2 ^ 63) (h : encReprArray t (some n) (.arr vs) = .ok b) :
    Reads (decReprArray oc t (some n)) true b (.arr vs) := by
  obtain ⟨hn, hc⟩ := reprArray_bytes h
  have hn := hn n rfl
  subst hn
  obtain ⟨h1, h2⟩ := chunks_concat (g := fun b => ofRepr t (bytesInt t.rep b)) (size := t.rep.scalar.size)
    (fun x hx b hb => repr_bytes (hv x hx) hb) hc
  intro tail ht
  unfold decReprArray
  rw [readItems_small _ hsz, reads_readExact h1 tail ht]
  simp only [ok_bind, chunksExact_of (scalar_size_pos t.rep.scalar) h1, h2]

theorem reads_reprArray_all {oc : Bool} {t : ReprTy} {vs : List Val} {b : Bytes} (hv : ∀ x ∈ vs, HasRepr t x)
    (h : encReprArray t none (.arr vs) = .ok b) : Reads (decReprArray oc t none) false b (.arr vs) := by
  obtain ⟨_, hc⟩ := reprArray_bytes h
  obtain ⟨h1, h2⟩ := chunks_concat (g := fun b => ofRepr t (bytesInt t.rep b)) (size := t.rep.scalar.size)
    (fun x hx b hb => repr_bytes (hv x hx) hb) hc
  rintro tail (ht | rfl)
  · cases ht
  unfold decReprArray
  simp only [readItems, ok_bind, List.append_nil, chunksExact_of (scalar_size_pos t.rep.scalar) h1, h2]

theorem reads_decN {f : Val → Res Bytes} {g : Bytes → Res (Val × Bytes)} : ∀ {vs : List Val} {b : Bytes},
    (∀ x ∈ vs, ∀ b, f x = .ok b → Reads g true b x) → concatM f vs = .ok b → Reads (Dec.decN g vs.length) true b vs
  | [], b, _, h => by cases h; intro tail _; rfl
  | v :: vs, b, hv, h => by
    simp only [concatM] at h
    obtain ⟨b1, h1, h⟩ := ok_of_bind h
    obtain ⟨b2, h2, h⟩ := ok_of_bind h
    cases h
    have ih := reads_decN (fun x hx => hv x (by simp [hx])) h2
    intro tail ht
    simp only [List.length_cons, Dec.decN, List.append_assoc, hv v (by simp) b1 h1 _ (.inl rfl), ok_bind,
      ih tail (.inl rfl)]

theorem reads_decAll {f : Val → Res Bytes} {g : Bytes → Res (Val × Bytes)} : ∀ {vs : List Val} {b : Bytes} (fuel : Nat),
    b.length ≤ fuel →
    (∀ x ∈ vs, ∀ b, f x = .ok b → Reads g true b x) → (∀ x ∈ vs, f x ≠ .ok []) → concatM f vs = .ok b →
    Dec.decAll g fuel b = .ok (vs, [])
  | [], b, fuel, _, _, _, h => by cases h; unfold Dec.decAll; rfl
  | v :: vs, b, fuel, hf, hv, hne, h => by
    simp only [concatM] at h
    obtain ⟨b1, h1, h⟩ := ok_of_bind h
    obtain ⟨b2, h2, h⟩ := ok_of_bind h
    cases h
    have hb1 : b1 ≠ [] := fun he => hne v (by simp) (by rw [h1, he])
    have hl1 : 0 < b1.length := List.length_pos_iff.2 hb1
    simp only [List.length_append] at hf
    cases fuel with
    | zero => omega
    | succ fuel =>
      have ih := reads_decAll fuel (by omega) (fun x hx => hv x (by simp [hx])) (fun x hx => hne x (by simp [hx])) h2
      unfold Dec.decAll
      rw [if_neg (by simp [hb1])]
      simp only [hv v (by simp) b1 h1 b2 (.inl rfl), ok_bind, List.length_append]
      rw [if_pos (by omega)]
      simp only [ih, ok_bind]

theorem reads_decUntil {f : Val → Res Bytes} {g : Bytes → Res (Val × Bytes)} {tb tail : Bytes} :
    ∀ {vs : List Val} {b : Bytes} (fuel : Nat), b.length + tb.length + tail.length ≤ fuel →
    (∀ x ∈ vs, ∀ b, f x = .ok b → Reads g true b x) → (∀ x ∈ vs, f x ≠ .ok []) →
    (∀ pre post bs, vs = pre ++ post → post ≠ [] → concatM f post = .ok bs → ¬ tb <+: bs ++ tb) →
    concatM f vs = .ok b →
    Dec.decUntil g tb fuel (b ++ (tb ++ tail)) = .ok (vs, tail)
  | [], b, fuel, hf, _, _, _, h => by
    cases h
    unfold Dec.decUntil
    simp only [List.nil_append]
    by_cases he : tb ++ tail = []
    · simp only [List.append_eq_nil_iff] at he
      obtain ⟨rfl, rfl⟩ := he
      simp
    · rw [if_neg he, if_neg (by simp), List.take_left' rfl, if_pos rfl, List.drop_left' rfl]
  | v :: vs, b, fuel, hf, hv, hne, hno, h => by
    have hno0 := hno [] (v :: vs) b rfl (by simp) h
    simp only [concatM] at h
    obtain ⟨b1, h1, h⟩ := ok_of_bind h
    obtain ⟨b2, h2, h⟩ := ok_of_bind h
    cases h
    have hb1 : b1 ≠ [] := fun he => hne v (by simp) (by rw [h1, he])
    have hl1 : 0 < b1.length := List.length_pos_iff.2 hb1
    simp only [List.length_append] at hf
    cases fuel with
    | zero => omega
    | succ fuel =>
      have ih := reads_decUntil (tb := tb) (tail := tail) fuel (by omega) (fun x hx => hv x (by simp [hx]))
        (fun x hx => hne x (by simp [hx]))
        (fun pre post bs hp hpo hc => hno (v :: pre) post bs (by simp [hp]) hpo hc) h2
      unfold Dec.decUntil
      rw [if_neg (by simp [hb1]), if_neg (by simp; omega), if_neg]
      · simp only [List.append_assoc, hv v (by simp) b1 h1 _ (.inl rfl), ok_bind, List.length_append]
        rw [if_pos (by omega)]
        simp only [ih, ok_bind]
      · intro he
        apply hno0
        have hl : tb.length ≤ (b1 ++ b2 ++ tb).length := by simp; omega
        have : (b1 ++ b2 ++ tb).take tb.length = tb := by
          rw [← List.take_append_of_le_length (l₂ := tail) hl]
          simpa only [List.append_assoc] using he
        rw [← this]
        conv => rhs; rw [this]
        exact List.take_prefix _ _

/-! ## Non-container types -/

section
variable {XE : Ext} {XD : Dec.Ext} {G : Goods} {C : Closed}

theorem ev_back (hp : Paired XE XD G C) {S : String → Prop} {σ : Env} {env : Dec.Env}
    (hs : ∀ n, S n → ∀ v, σ n = some v → env n = some v) {e : Expr} (he : ∀ n ∈ e.refs, S n) :
    OkLe (ev XE σ e) (Dec.ev XD env e) := by
  unfold ev Dec.ev runE
  rw [hp.oc, hp.input]
  exact evalE_mono_on (lk := ⟨σ, XD.input⟩) (lk' := ⟨env, XD.input⟩) e
    (fun n hn v hv => hs n (he n hn) v hv) (fun _ _ h => h)

theorem args_back (hp : Paired XE XD G C) {S : String → Prop} {σ : Env} {env : Dec.Env}
    (hs : ∀ n, S n → ∀ v, σ n = some v → env n = some v) {es : List Expr} (he : In S es) :
    OkLe (es.mapM (ev XE σ)) (es.mapM (Dec.ev XD env)) :=
  OkLe.mapM es fun e h => ev_back hp hs (he e h)

theorem leaf_back (hp : Paired XE XD G C) {S : String → Prop} {σ : Env} {env : Dec.Env}
    (hs : ∀ n, S n → ∀ v, σ n = some v → env n = some v) : ∀ (ty : LTy) {v : Val} {b : Bytes},
    wfL C ty = true → In S (LTy.exprs ty) → FitsLeaf XE G σ ty v → encLeaf XE σ ty v = .ok b →
    Reads (Dec.decLeaf XD env ty) (closedL C ty) b v
  | .prim p, v, b, _, _, hv, h => by
    simp only [encLeaf] at h
    exact reads_prim hv h
  | .ref t foreign res args, v, b, _, hin, hv, h => by
    simp only [encLeaf] at h
    obtain ⟨vs, hvs, h⟩ := ok_of_bind h
    have hd := args_back hp hs (es := args) hin vs hvs
    have hg := hv vs hvs
    intro tail ht
    cases foreign with
    | true =>
      simp only [if_true] at h hg
      simp only [Dec.decLeaf, if_true]
      rw [hd, ok_bind]
      exact hp.foreign t vs v b hg h tail (by simpa [closedL] using ht)
    | false =>
      simp only [Bool.false_eq_true, if_false] at h hg
      simp only [Dec.decLeaf, Bool.false_eq_true, if_false]
      rw [hd, ok_bind]
      exact hp.call t vs v b hg h tail (by simpa [closedL] using ht)
  | .array elem len, v, b, hwf, hin, hv, h => by
    obtain ⟨vs, rfl, hv⟩ := hv
    simp only [wfL, Bool.and_eq_true] at hwf
    have hel : ∀ x, FitsLeaf XE G σ elem x → ∀ b, encLeaf XE σ elem x = .ok b →
        Reads (Dec.decLeaf XD env elem) true b x := fun x hx b hb => by
      have := leaf_back hp hs elem hwf.2 (fun e he => hin e (by simp [LTy.exprs, he])) hx hb
      rw [hwf.1] at this
      exact this
    cases len with
    | fixed e =>
      simp only [encLeaf] at h
      obtain ⟨l, hl, h⟩ := ok_of_bind h
      have hd := ev_back hp hs (hin e (by simp [LTy.exprs])) l hl
      simp only [closedL, hwf.1]
      intro tail ht
      simp only [Dec.decLeaf, hd, ok_bind]
      cases hr : elem.resolved with
      | prim p =>
        simp only [hr] at h hv ⊢
        obtain ⟨n, hn, h⟩ := ok_of_bind h
        simp only [hn, ok_bind]
        exact reads_primArray_fixed hv.1 hv.2 h tail ht
      | repr t =>
        simp only [hr] at h hv ⊢
        obtain ⟨n, hn, h⟩ := ok_of_bind h
        simp only [hn, ok_bind]
        exact reads_reprArray_fixed hv.1 hv.2 h tail ht
      | other =>
        simp only [hr] at h hv ⊢
        obtain ⟨k, rfl⟩ := hv.2.2 l hl
        have hsz := hv.2.1
        simp only [rangeCount, Val.toInt, ok_bind, Int.toNat_natCast] at h
        obtain ⟨_, h2⟩ := encN_take _ _ _ h (Nat.zero_le _)
        simp only [List.drop_zero, List.take_length] at h2
        have := reads_decN (fun x hx b hb => hel x (hv.1 x hx) b hb) h2 tail (.inl rfl)
        simp only [loopCount, Val.toInt, ok_bind, Int.toNat_natCast]
        rw [if_neg (by omega)]
        simp only [ok_bind, this]
    | unbounded =>
      simp only [encLeaf] at h
      simp only [closedL]
      cases hr : elem.resolved with
      | prim p =>
        simp only [hr] at h hv
        intro tail ht
        simp only [Dec.decLeaf, hr]
        exact reads_primArray_all hv h tail ht
      | repr t =>
        simp only [hr] at h hv
        intro tail ht
        simp only [Dec.decLeaf, hr]
        exact reads_reprArray_all hv h tail ht
      | other =>
        simp only [hr, rtLen, ok_bind] at h hv
        obtain ⟨_, h2⟩ := encN_take _ _ _ h (Nat.zero_le _)
        simp only [List.drop_zero, List.take_length] at h2
        rintro tail (ht | rfl)
        · cases ht
        simp only [Dec.decLeaf, hr, List.append_nil]
        rw [reads_decAll b.length (Nat.le_refl _) (fun x hx b hb => hel x (hv x hx).1 b hb)
          (fun x hx => (hv x hx).2) h2]
        rfl
    | term e =>
      simp only [encLeaf] at h
      obtain ⟨t, ht, h⟩ := ok_of_bind h
      simp only [rtLen, ok_bind] at h
      obtain ⟨bs, hbs, h⟩ := ok_of_bind h
      obtain ⟨tb, htb, h⟩ := ok_of_bind h
      cases h
      have hd := ev_back hp hs (hin e (by simp [LTy.exprs])) t ht
      obtain ⟨_, h2⟩ := encN_take _ _ _ hbs (Nat.zero_le _)
      simp only [List.drop_zero, List.take_length] at h2
      have htb' : t.toBytes = some tb := by
        simp only [encPrimArray] at htb
        obtain ⟨es, hes, htb⟩ := ok_of_bind htb
        obtain ⟨_, _, htb⟩ := ok_of_bind htb
        rwa [optRes_ok] at htb
      intro tail _
      simp only [Dec.decLeaf, hd, ok_bind, htb', optRes, List.append_assoc]
      rw [reads_decUntil _ (by simp; omega) (fun x hx b hb => hel x (hv.1 x hx).1 b hb)
          (fun x hx => (hv.1 x hx).2) (hv.2 t tb ht htb') h2]
      rfl

/-! ## Transforms, lengths -/

theorem xforms_back {α β} (hp : Paired XE XD G C) {S : String → Prop} {σ : Env} {env : Dec.Env}
    (hs : ∀ n, S n → ∀ v, σ n = some v → env n = some v) {xs : List XformUse} (hx : xs.length ≤ 1)
    (hin : In S (xs.flatMap XformUse.exprs)) {a : β} {content out : Bytes} {r : β × Bytes}
    (h : encXforms XE σ xs (.ok (a, content)) = .ok r) (hr : r.2 = out)
    {k : Bytes → Res (α × Bytes)} {c : Bool} {v : α} (hk : Reads k c content v) :
    Reads (fun bs => Dec.decXforms XD env xs.reverse bs k) (closedX C xs c) out v := by
  subst hr
  match xs, hx with
  | [], _ =>
    cases h
    intro tail ht
    exact hk tail ht
  | [x], _ =>
    have one : ∀ {cc : Bool}, (do
        let vs ← x.args.mapM (ev XE σ)
        let (a, bs) ← encXforms XE σ [] (.ok (a, content))
        let out ← XE.xform x.name vs bs
        .ok (a, out)) = .ok r → (cc = true → C.xform x.name = true) →
        ∀ tail, (cc = true ∨ tail = []) → (do
          let vs ← x.args.mapM (Dec.ev XD env)
          let (dec, rest) ← XD.xform x.name vs (r.2 ++ tail)
          let (a, _) ← Dec.decXforms XD env [] dec k
          .ok (a, rest)) = (.ok (v, tail) : Res (α × Bytes)) := by
      intro cc h hcc tail ht
      obtain ⟨vs, hvs, h⟩ := ok_of_bind h
      simp only [encXforms, ok_bind] at h
      obtain ⟨o, ho, h⟩ := ok_of_bind h
      cases h
      have hd := args_back hp hs (es := x.args) (fun e he => hin e (by simp [XformUse.exprs, he])) vs hvs
      simp only [hd, ok_bind, hp.xform x.name vs content o ho tail (ht.imp hcc id), Dec.decXforms, hk.exact]
    intro tail ht
    cases hc : x.cond with
    | none =>
      simp only [encXforms, hc] at h
      simp only [List.reverse_cons, List.reverse_nil, List.nil_append, Dec.decXforms, hc]
      exact one (cc := C.xform x.name) h id tail (by simpa [closedX, hc] using ht)
    | some e =>
      simp only [encXforms, hc] at h
      obtain ⟨cv, hcv, h1⟩ := ok_of_bind h
      obtain ⟨b, hb, h2⟩ := ok_of_bind h1
      have hd := ev_back hp hs (hin e (by simp [XformUse.exprs, hc])) cv hcv
      simp only [List.reverse_cons, List.reverse_nil, List.nil_append, Dec.decXforms, hc, hd, hb, ok_bind]
      have ht' : (C.xform x.name = true ∧ c = true) ∨ tail = [] := by simpa [closedX, hc] using ht
      cases b with
      | true =>
        exact one (cc := C.xform x.name) h2 id tail (ht'.imp (·.1) id)
      | false =>
        cases h2
        exact hk tail (ht'.imp (·.2) id)

theorem limited_back {α} (hp : Paired XE XD G C) {S : String → Prop} {σ : Env} {env : Dec.Env}
    (hs : ∀ n, S n → ∀ v, σ n = some v → env n = some v) {len : Option Expr} (hin : In S len.toList)
    {content : Bytes} {c : Bool} (hf : FitsLen XE σ len c content)
   {k : Bytes → Res (α × Bytes)} {v : α} (hk : Reads k c content v) :
    Reads (fun bs => Dec.decLimited XD env len bs k) (len.isSome || c) content v := by
  cases len with
  | none => exact hk
  | some e =>
    obtain ⟨l, n, h1, h2, h3⟩ := hf e rfl
    have hd := ev_back hp hs (hin e (by simp)) l h1
    intro tail _
    simp only [Dec.decLimited, hd, h2, ok_bind]
    rcases h3 with h | ⟨hc, h⟩
    · rw [List.take_left' h, List.drop_left' h, hk.exact]
      rfl
    · have e1 : (content ++ tail).take n = content ++ tail.take (n - content.length) := by
        rw [List.take_append, List.take_of_length_le h]
      have e2 : (content ++ tail).drop n = tail.drop (n - content.length) := by
        rw [List.drop_append, List.drop_of_length_le h, List.nil_append]
      rw [e1, e2, hk _ (.inl hc)]
      simp only [ok_bind, List.take_append_drop]

/-! ## Items -/

theorem bindAll_ne {vs : List (String × Val)} {n : String} (h : n ∉ vs.map (·.1)) (env : Dec.Env) :
    Dec.Env.bindAll env vs n = env n := by
  induction vs generalizing env with
  | nil => rfl
  | cons p vs ih =>
    simp only [List.map_cons, List.mem_cons, not_or] at h
    show Dec.Env.bindAll (upd env p.1 (some p.2)) vs n = env n
    rw [ih h.2, upd_ne _ _ h.1]

theorem bindAll_in {σ : Env} {vs : List (String × Val)} (hv : ∀ p ∈ vs, σ p.1 = some p.2) {n : String} (env : Dec.Env)
    (h : n ∈ vs.map (·.1) ∨ env n = σ n) : Dec.Env.bindAll env vs n = σ n := by
  induction vs generalizing env with
  | nil =>
    rcases h with h | h
    · cases h
    · exact h
  | cons p vs ih =>
    show Dec.Env.bindAll (upd env p.1 (some p.2)) vs n = σ n
    apply ih (fun q hq => hv q (by simp [hq]))
    by_cases hn : n = p.1
    · subst hn
      exact .inr (by rw [upd_same]; exact (hv p (by simp)).symm)
    · rcases h with h | h
      · simp only [List.map_cons, List.mem_cons] at h
        exact .inl (h.resolve_left hn)
      · exact .inr (by rw [upd_ne _ _ hn, h])

theorem visible_names {n : String} : ∀ {fs : Fields}, n ∈ visible anyField fs → n ∈ fs.names
  | .nil, h => h
  | .pad _ _ r, h => visible_names (fs := r) h
  | .leaf a _ r, h => by
    simp only [visible, if_true, List.mem_append, List.mem_singleton] at h
    simp only [Fields.names, Fields.leaves, List.map_cons, List.mem_cons]
    exact h.imp id visible_names
  | .cont a _ i r, h => by
    simp only [visible, List.mem_append] at h
    have : n ∈ i.names ++ r.names := by
      rw [List.mem_append]
      rcases h with h | h
      · split at h
        · cases h
        · exact .inl (visible_names h)
      · exact .inr (visible_names h)
    simpa [Fields.names, Fields.leaves] using this

theorem inside_out {a : FAttr} {items : Fields} (hpl : a.cond.isNone || decide (plainNames items = items.names))
    {σ : Env} {n : String} (hn : n ∉ items.names) : inside a items σ n = σ n := by
  unfold inside
  split
  · rename_i hc
    rw [Option.isNone_eq_false_iff.2 hc] at hpl
    simp only [Bool.false_or, decide_eq_true_eq] at hpl
    unfold unwrap
    rw [hpl, if_neg hn]
  · rfl

theorem items_back (hp : Paired XE XD G C) : ∀ (fs : Fields) {S : String → Prop} {σ : Env} {env : Dec.Env}
    {L : List (String × Nat)} {bs : Bytes},
    (∀ n, S n → ∀ v, σ n = some v → env n = some v) → (∀ n, S n → n ∉ fs.names) → fs.names.Nodup →
    Scoped anyField fs S → wfF C fs = true → Fits XE G C fs σ → wire XE fs σ = .ok (L, bs) →
    ∃ vs : List (String × Val), vs.map (·.1) = fs.names ∧ (∀ p ∈ vs, σ p.1 = some p.2) ∧
      Reads (Dec.decItems XD fs env) (closedF C fs) bs vs
  | .nil, S, σ, env, L, bs, _, _, _, _, _, _, h => by
    cases h
    exact ⟨[], rfl, fun _ h => (nomatch h), fun tail _ => rfl⟩
  | .pad _ e rest, S, σ, env, L, bs, hs, hS, hnd, hsc, hwf, hfit, h => by
    simp only [wire] at h
    obtain ⟨v, hv, h⟩ := ok_of_bind h
    obtain ⟨b, hb, h⟩ := ok_of_bind h
    obtain ⟨⟨ls, bs'⟩, hr, h⟩ := ok_of_bind h
    cases h
    obtain ⟨vs, k1, k2, k3⟩ := items_back hp rest hs hS hnd hsc.2 hwf hfit hr
    refine ⟨vs, k1, k2, fun tail ht => ?_⟩
    have hd := ev_back hp hs (hsc.1 e (by simp)) v hv
    simp only [padBytes] at hb
    obtain ⟨n, hn, hb⟩ := ok_of_bind hb
    split at hb
    · cases hb
    cases hb
    have ha : allocBytes n = .ok () := if_neg (by omega)
    simp only [Dec.decItems, hd, hn, ok_bind, skipBytes, ha, List.append_assoc,
      reads_readExact (b := List.replicate n 0) (n := n) (by simp) _ (.inl rfl)]
    exact k3 tail ht
  | .leaf a ty rest, S, σ, env, L, bs, hs, hS, hnd, hsc, hwf, hfit, h => by
    have hnm : Fields.names (.leaf a ty rest) = a.name :: rest.names := rfl
    rw [hnm] at hS hnd
    simp only [List.nodup_cons] at hnd
    simp only [wfF, Bool.and_eq_true] at hwf
    obtain ⟨⟨⟨⟨w1, w2⟩, w3⟩, w4⟩, w5⟩ := hwf
    simp only [decide_eq_true_eq] at w2
    obtain ⟨hf, hfit⟩ := hfit
    obtain ⟨s1, s2, s3, s4⟩ := hsc
    simp only [wire] at h
    obtain ⟨v, hv, h⟩ := ok_of_bind h
    rw [optRes_ok] at hv
    obtain ⟨b, hb, h⟩ := ok_of_bind h
    obtain ⟨⟨ls, bs'⟩, hr, h⟩ := ok_of_bind h
    cases h
    have hf := hf v hv
    have hxs : In S (a.xfs.flatMap XformUse.exprs) := fun e he => s1 e (by
      simp only [FAttr.exprs, List.mem_append]; exact .inr he)
    -- the value of the field itself
    have body : ∀ {w : Val} {out : Bytes}, FitsLeaf XE G σ ty w →
        (do
          let (_, bs) ← encXforms XE σ a.xfs do
            let bs ← encLeaf XE σ ty w
            (.ok ((), bs) : Res (Unit × Bytes))
          .ok bs) = .ok out →
        Reads (fun b => Dec.decXforms XD env a.xfs.reverse b fun b' => do
          let (v, r) ← Dec.decLeaf XD env ty b'
          .ok ([(a.name, v)], r)) (closedX C a.xfs (closedL C ty)) out [(a.name, w)] := by
      intro w out hw h
      obtain ⟨⟨u, o⟩, hx, h⟩ := ok_of_bind h
      cases h
      obtain ⟨content, hk⟩ := encXforms_inner hx
      rw [hk] at hx
      obtain ⟨ct, hct, hk⟩ := ok_of_bind hk
      cases hk
      have hl := leaf_back hp hs ty w1 s2 hw hct
      refine xforms_back hp hs w2 hxs hx rfl (fun tail ht => ?_)
      simp only [hl tail ht, ok_bind]
    -- with its condition
    have field : Reads (fun b => Dec.decCond XD env a.cond [a.name] b fun b =>
        Dec.decXforms XD env a.xfs.reverse b fun b' => do
          let (v, r) ← Dec.decLeaf XD env ty b'
          .ok ([(a.name, v)], r)) (closedX C a.xfs (closedL C ty)) b [(a.name, v)] := by
      cases hc : a.cond with
      | none =>
        simp only [hc] at hf
        simp only [encField, hc, Option.isSome_none, Bool.false_and, Bool.false_eq_true, if_false, ok_bind] at hb
        exact body hf hb
      | some e =>
        simp only [hc] at hf
        simp only [hc, Option.isNone_some, Bool.false_or] at w3
        simp only [encField, hc, w3, Option.isSome_some, Bool.true_and, if_true] at hb
        obtain ⟨cv, hcv, hb1⟩ := ok_of_bind hb
        obtain ⟨t, ht, hb2⟩ := ok_of_bind hb1
        have := toBool_ok ht
        subst this
        have hd := ev_back hp hs (s1 e (by simp [FAttr.exprs, hc])) _ hcv
        intro tail htail
        simp only [Dec.decCond, hd, ht, ok_bind]
        cases t with
        | true =>
          obtain ⟨w, rfl, hw⟩ := hf.1 hcv
          simp only [nullCheck, ok_bind, if_true] at hb2 ⊢
          have := body hw hb2 tail htail
          simp only [this, ok_bind]
          rfl
        | false =>
          have hv0 := hf.2 hcv
          subst hv0
          simp only [Bool.false_eq_true, if_false] at hb2 ⊢
          cases hb2
          rfl
    have henv : ∀ n, (S n ∨ (anyField a ty = true ∧ n = a.name)) → ∀ w, σ n = some w →
        Dec.Env.bindAll env [(a.name, v)] n = some w := by
      intro n hn w hw
      rw [bindAll_in (σ := σ) (by simpa using hv), hw]
      rcases hn with hn | hn
      · exact .inr (by rw [hs n hn w hw, hw])
      · exact .inl (by simp [hn.2])
    obtain ⟨vs, k1, k2, k3⟩ := items_back hp rest henv
      (fun n hn => by
        rcases hn with hn | hn
        · exact fun hm => hS n hn (by simp [hm])
        · rw [hn.2]; exact hnd.1) hnd.2 s4 w5 hfit hr
    refine ⟨(a.name, v) :: vs, by simp [k1, hnm], ?_, fun tail ht => ?_⟩
    · intro q hq
      rcases List.mem_cons.1 hq with rfl | hq
      · exact hv
      · exact k2 q hq
    · simp only [closedF, Bool.and_eq_true] at ht
      have hcl : closedX C a.xfs (closedL C ty) = true ∨ bs' ++ tail = [] := by
        rcases ht with ht | rfl
        · exact .inl ht.1
        · simp only [Bool.or_eq_true, decide_eq_true_eq] at w4
          refine w4.imp id fun w4 => ?_
          subst w4
          cases hr
          rfl
      have h1 := field (bs' ++ tail) hcl
      simp only at h1
      simp only [Dec.decItems, List.append_assoc, h1, ok_bind, k3 tail (ht.imp (·.2) id)]
      rfl
  | .cont a len items rest, S, σ, env, L, bs, hs, hS, hnd, hsc, hwf, hfit, h => by
    have hnm : Fields.names (.cont a len items rest) = items.names ++ rest.names := by
      simp [Fields.names, Fields.leaves]
    rw [hnm] at hS hnd
    rw [List.nodup_append] at hnd
    simp only [wfF, Bool.and_eq_true] at hwf
    obtain ⟨⟨⟨⟨w1, w2⟩, w3⟩, w4⟩, w5⟩ := hwf
    simp only [decide_eq_true_eq] at w2
    obtain ⟨hf, hfn, hfit⟩ := hfit
    obtain ⟨s1, s2, s3, s4⟩ := hsc
    simp only [wire] at h
    obtain ⟨⟨l, b⟩, hb, h⟩ := ok_of_bind h
    obtain ⟨⟨ls, bs'⟩, hr, h⟩ := ok_of_bind h
    cases h
    have hxs : In S (a.xfs.flatMap XformUse.exprs) := fun e he => s1 e (by
      simp only [FAttr.exprs, List.mem_append]; exact .inr he)
    have hSi : ∀ n, S n → n ∉ items.names := fun n hn hm => hS n hn (by simp [hm])
    -- the content
    have body : ∀ {out : Bytes} {l : List (String × Nat)},
        (∀ e, a.cond = some e → ev XE σ e = .ok (.bool true)) →
        (encXforms XE σ a.xfs do
          let (l, b) ← wire XE items (inside a items σ)
          .ok ((a.name, b.length) :: l, b)) = .ok (l, out) →
        ∃ vs : List (String × Val), vs.map (·.1) = items.names ∧ (∀ p ∈ vs, inside a items σ p.1 = some p.2) ∧
        Reads (fun b => Dec.decXforms XD env a.xfs.reverse b fun b' =>
          Dec.decLimited XD env len b' (Dec.decItems XD items env)) (closedX C a.xfs (len.isSome || closedF C items))
          out vs := by
      intro out l hcond h
      obtain ⟨content, hk⟩ := encXforms_inner h
      rw [hk] at h
      obtain ⟨⟨li, ct⟩, hct, hk⟩ := ok_of_bind hk
      cases hk
      obtain ⟨f1, f2⟩ := hf hcond
      obtain ⟨vs, k1, k2, k3⟩ := items_back hp items (σ := inside a items σ) (env := env)
        (fun n hn v hv => hs n hn v (by rwa [inside_out w3 (hSi n hn)] at hv)) hSi hnd.1 s3 w1 f1 hct
      exact ⟨vs, k1, k2, xforms_back hp hs w2 hxs h rfl (limited_back hp hs s2 (f2 _ _ hct) k3)⟩
    -- with its condition
    have cont : ∃ vs : List (String × Val), vs.map (·.1) = items.names ∧ (∀ p ∈ vs, σ p.1 = some p.2) ∧
        Reads (fun b => Dec.decCond XD env a.cond items.names b fun b => Dec.decXforms XD env a.xfs.reverse b fun b' =>
          Dec.decLimited XD env len b' (Dec.decItems XD items env)) (closedX C a.xfs (len.isSome || closedF C items))
          b vs := by
      cases hc : a.cond with
      | none =>
        rw [hc] at hb
        obtain ⟨vs, k1, k2, k3⟩ := body (by rw [hc]; exact fun _ h => nomatch h) hb
        refine ⟨vs, k1, ?_, k3⟩
        simpa [inside, hc] using k2
      | some e =>
        rw [hc] at hb
        simp only [whenHolds] at hb
        obtain ⟨cv, hcv, hb1⟩ := ok_of_bind hb
        obtain ⟨t, ht, hb2⟩ := ok_of_bind hb1
        have := toBool_ok ht
        subst this
        have hd := ev_back hp hs (s1 e (by simp [FAttr.exprs, hc])) _ hcv
        cases t with
        | true =>
          simp only [if_true] at hb2
          obtain ⟨vs, k1, k2, k3⟩ := body (by rw [hc]; rintro _ ⟨⟩; exact hcv) hb2
          refine ⟨vs.map fun p => (p.1, .opt (some p.2)), by rw [← k1]; simp, ?_, fun tail htail => ?_⟩
          · intro q' hq'
            obtain ⟨q, hq, rfl⟩ := List.mem_map.1 hq'
            have := k2 q hq
            simp only [inside, hc, Option.isSome_some, if_true, unwrap] at this
            simp only [hc, Option.isNone_some, Bool.false_or, decide_eq_true_eq] at w3
            rw [w3, if_pos (by rw [← k1]; exact List.mem_map.2 ⟨q, hq, rfl⟩)] at this
            split at this
            · rename_i w hw
              cases this
              exact hw
            · cases this
          · simp only [Dec.decCond, hd, ht, ok_bind, if_true]
            have := k3 tail htail
            simp only at this
            simp only [this, ok_bind]
        | false =>
          simp only [Bool.false_eq_true, if_false] at hb2
          cases hb2
          refine ⟨items.names.map fun n => (n, .opt none), by
            rw [List.map_map]; simp [Function.comp_def], ?_, fun tail htail => ?_⟩
          · intro q hq
            obtain ⟨n, hn, rfl⟩ := List.mem_map.1 hq
            exact hfn e hc hcv n hn
          · simp only [Dec.decCond, hd, ht, ok_bind, Bool.false_eq_true, if_false]
            rfl
    obtain ⟨ws, c1, c2, c3⟩ := cont
    have henv : ∀ n, (S n ∨ (a.cond = none ∧ n ∈ visible anyField items)) → ∀ w, σ n = some w →
        Dec.Env.bindAll env ws n = some w := by
      intro n hn w hw
      rw [bindAll_in (σ := σ) c2, hw]
      rcases hn with hn | hn
      · exact .inr (by rw [hs n hn w hw, hw])
      · exact .inl (by rw [c1]; exact visible_names hn.2)
    obtain ⟨vs, k1, k2, k3⟩ := items_back hp rest henv
      (fun n hn => by
        rcases hn with hn | hn
        · exact fun hm => hS n hn (by simp [hm])
        · exact fun hm => hnd.2.2 n (visible_names hn.2) n hm rfl) hnd.2.1 s4 w5 hfit hr
    refine ⟨ws ++ vs, by simp [k1, c1, hnm], ?_, fun tail ht => ?_⟩
    · intro q hq
      rcases List.mem_append.1 hq with hq | hq
      · exact c2 q hq
      · exact k2 q hq
    · simp only [closedF, Bool.and_eq_true] at ht
      have hcl : closedX C a.xfs (len.isSome || closedF C items) = true ∨ bs' ++ tail = [] := by
        rcases ht with ht | rfl
        · exact .inl ht.1
        · simp only [Bool.or_eq_true (closedX _ _ _), decide_eq_true_eq] at w4
          refine w4.imp id fun w4 => ?_
          subst w4
          cases hr
          rfl
      have h1 := c3 (bs' ++ tail) hcl
      simp only at h1
      simp only [Dec.decItems, List.append_assoc, h1, ok_bind, k3 tail (ht.imp (·.2) id)]

end

end Verif.RT
