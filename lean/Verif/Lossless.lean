import Verif.Props.Delimited
import Verif.Props.Repr
/-!
# Decoders that lose nothing

`lossless` is a check of a schema. `specDecode_keeps`: two inputs from which a decoder of a type that passes it gets the same value begin with the same
bytes, those it read.

This is an analysis of schemas that the theorems of `Props/Lossless` use as a hypothesis, not code of `/repo`.
-/
namespace Verif

mutual
/-- What a Rust program can see of a value: the number that the model keeps with a value of a generated enum is not stored in it. -/
def Val.rust : Val → Val
  | .arr vs => .arr (Val.rustAll vs)
  | .opt none => .opt none
  | .opt (some v) => .opt (some v.rust)
  | .enm n e r => .enm n e ⟨r.kind, 0⟩
  | .struct n fs => .struct n (Val.rustFields fs)
  | .newtype n v => .newtype n v.rust
  | .variant n d v => .variant n d v.rust
  | .variantS n d fs => .variantS n d (Val.rustFields fs)
  | .int i => .int i
  | .bool b => .bool b
  | .flt d p => .flt d p
  | .str s => .str s
  | .bits n i => .bits n i
def Val.rustAll : List Val → List Val
  | [] => []
  | v :: vs => v.rust :: Val.rustAll vs
def Val.rustFields : List (String × Val) → List (String × Val)
  | [] => []
  | (n, v) :: fs => (n, v.rust) :: Val.rustFields fs
end

theorem Val.rustAll_append : ∀ a b : List Val, Val.rustAll (a ++ b) = Val.rustAll a ++ Val.rustAll b
  | [], _ => rfl
  | v :: a, b => by simp only [List.cons_append, Val.rustAll, Val.rustAll_append a b]

theorem Val.rustFields_append : ∀ a b : List (String × Val), Val.rustFields (a ++ b) = Val.rustFields a ++ Val.rustFields b
  | [], _ => rfl
  | (n, v) :: a, b => by simp only [List.cons_append, Val.rustFields, Val.rustFields_append a b]

theorem Val.rustFields_length : ∀ a : List (String × Val), (Val.rustFields a).length = a.length
  | [] => rfl
  | (n, v) :: a => by simp only [Val.rustFields, List.length_cons, Val.rustFields_length a]

theorem Val.rustFields_somes : ∀ {a b : List (String × Val)},
    Val.rustFields (a.map fun p => (p.1, .opt (some p.2))) = Val.rustFields (b.map fun p => (p.1, .opt (some p.2))) →
    Val.rustFields a = Val.rustFields b
  | [], [], _ => rfl
  | [], _ :: _, h => by simp [Val.rustFields] at h
  | _ :: _, [], h => by simp [Val.rustFields] at h
  | (n, v) :: a, (m, w) :: b, h => by
    simp only [List.map_cons, Val.rustFields, Val.rust, List.cons.injEq, Prod.mk.injEq, Val.opt.injEq, Option.some.injEq] at h
    simp only [Val.rustFields, h.1.1, h.1.2, Val.rustFields_somes h.2]

namespace Dec

/-- Nothing is lost: `same` values come from the same bytes. If `t` holds, provided that other bytes follow. -/
structure Keeps {α} (t : Bool) (same : α → α → Prop) (f : Bytes → Res (α × Bytes)) : Prop where
  front : ∀ {bs a r}, f bs = .ok (a, r) → ∃ w, bs = w ++ r
  once : ∀ {b1 b2 a1 a2 r1 r2}, f b1 = .ok (a1, r1) → f b2 = .ok (a2, r2) → same a1 a2 → (t = true → r1 ≠ [] ∧ r2 ≠ []) →
    a1 = a2 ∧ ∃ w, b1 = w ++ r1 ∧ b2 = w ++ r2

/-- Values that look the same to a Rust program. -/
def Alike (v w : Val) : Prop := v.rust = w.rust
def AlikeAll (v w : List Val) : Prop := Val.rustAll v = Val.rustAll w
def AlikeFields (v w : List (String × Val)) : Prop := Val.rustFields v = Val.rustFields w

section
variable {α β γ : Type} {t : Bool} {R : α → α → Prop} {f : Bytes → Res (α × Bytes)}

theorem Keeps.more (h : Keeps false R f) : Keeps t R f :=
  ⟨h.front, fun h1 h2 hs _ => h.once h1 h2 hs (by intro h; cases h)⟩

/-- One after the other. `P`: what is known of the first result. -/
theorem Keeps.seq {s : Bool} (hf : Keeps s R f) {g : α → Bytes → Res (β × Bytes)} {S : α → β → β → Prop} (hg : ∀ a, Keeps t (S a) (g a))
    {T : γ → γ → Prop} {h : α → β → γ} {P : α → Prop} (hP : ∀ {bs a r}, f bs = .ok (a, r) → P a)
    (h1 : ∀ a1 a2 b1 b2, P a1 → P a2 → T (h a1 b1) (h a2 b2) → R a1 a2)
    (h2 : ∀ a b1 b2, P a → T (h a b1) (h a b2) → S a b1 b2)
    (hs : s = true → t = true ∨ ∀ a bs y, g a bs = .ok y → bs ≠ []) :
    Keeps t T fun bs => f bs >>= fun y => g y.1 y.2 >>= fun z => .ok (h y.1 z.1, z.2) := by
  constructor
  · intro bs c r hh
    obtain ⟨⟨a, r1⟩, k1, hh⟩ := res_bind_inv hh
    obtain ⟨⟨b, r2⟩, k2, hh⟩ := res_bind_inv hh
    cases hh
    obtain ⟨w1, rfl⟩ := hf.front k1
    obtain ⟨w2, h⟩ := (hg a).front k2
    simp only at h ⊢
    exact ⟨w1 ++ w2, by rw [h, List.append_assoc]⟩
  · intro b1 b2 c1 c2 r1 r2 e1 e2 hT ht
    obtain ⟨⟨a1, s1⟩, k1, e1⟩ := res_bind_inv e1
    obtain ⟨⟨d1, q1⟩, m1, e1⟩ := res_bind_inv e1
    cases e1
    obtain ⟨⟨a2, s2⟩, k2, e2⟩ := res_bind_inv e2
    obtain ⟨⟨d2, q2⟩, m2, e2⟩ := res_bind_inv e2
    cases e2
    simp only at m1 m2 hT ht ⊢
    obtain ⟨rfl, w, rfl, rfl⟩ := hf.once k1 k2 (h1 a1 a2 d1 d2 (hP k1) (hP k2) hT) (by
      intro h
      rcases hs h with h | h
      · obtain ⟨x1, x2⟩ := ht h
        obtain ⟨u1, rfl⟩ := (hg a1).front m1
        obtain ⟨u2, rfl⟩ := (hg a2).front m2
        simp [x1, x2]
      · exact ⟨h _ _ _ m1, h _ _ _ m2⟩)
    obtain ⟨rfl, u, rfl, rfl⟩ := (hg a1).once m1 m2 (h2 a1 d1 d2 (hP k1) hT) ht
    exact ⟨rfl, w ++ u, by simp, by simp⟩

theorem Keeps.after {x : Res β} {g : β → Bytes → Res (α × Bytes)} (hg : ∀ b, x = .ok b → Keeps t R (g b)) :
    Keeps t R fun bs => x >>= fun b => g b bs := by
  cases x with
  | error e => exact ⟨(fun h => by cases h), (fun h => by cases h)⟩
  | ok b => exact hg b rfl

theorem Keeps.pure (a : α) : Keeps t R fun bs => .ok (a, bs) :=
  ⟨fun h => by cases h; exact ⟨[], rfl⟩, fun h1 h2 _ _ => by cases h1; cases h2; exact ⟨rfl, [], rfl, rfl⟩⟩

theorem Keeps.error (e : Fault) : Keeps t R fun _ => .error e :=
  ⟨(fun h => by cases h), (fun h => by cases h)⟩

theorem Keeps.map (hf : Keeps t R f) {g : α → β} {S : β → β → Prop} (h : ∀ a b, S (g a) (g b) → R a b) :
    Keeps t S fun bs => f bs >>= fun y => .ok (g y.1, y.2) := by
  constructor
  · intro bs b r hh
    obtain ⟨⟨a, r1⟩, k1, hh⟩ := res_bind_inv hh
    cases hh
    exact hf.front k1
  · intro b1 b2 c1 c2 r1 r2 e1 e2 hS ht
    obtain ⟨⟨a1, s1⟩, k1, e1⟩ := res_bind_inv e1
    cases e1
    obtain ⟨⟨a2, s2⟩, k2, e2⟩ := res_bind_inv e2
    cases e2
    obtain ⟨h1, h2⟩ := hf.once k1 k2 (h _ _ hS) ht
    exact ⟨by simp only [h1], h2⟩

/-- Reading a number of bytes, of which `g` makes something, one for one. -/
theorem Keeps.read {n : Nat} {g : Bytes → Res α} (h : ∀ b1 b2 a1 a2, b1.length = n → b2.length = n → g b1 = .ok a1 → g b2 = .ok a2 →
    R a1 a2 → b1 = b2) : Keeps t R fun bs => readExact n bs >>= fun y => g y.1 >>= fun a => .ok (a, y.2) := by
  have key : ∀ {bs raw r}, readExact n bs = .ok (raw, r) → bs = raw ++ r ∧ raw.length = n := by
    intro bs raw r h
    unfold readExact at h
    split at h
    · cases h
    · rename_i hl
      cases h
      exact ⟨(List.take_append_drop n bs).symm, by rw [List.length_take]; omega⟩
  constructor
  · intro bs a r hh
    obtain ⟨⟨raw, r1⟩, k1, hh⟩ := res_bind_inv hh
    obtain ⟨a', k2, hh⟩ := res_bind_inv hh
    cases hh
    exact ⟨raw, (key k1).1⟩
  · intro b1 b2 a1 a2 r1 r2 e1 e2 hR _
    obtain ⟨⟨w1, s1⟩, k1, e1⟩ := res_bind_inv e1
    obtain ⟨c1, m1, e1⟩ := res_bind_inv e1
    cases e1
    obtain ⟨⟨w2, s2⟩, k2, e2⟩ := res_bind_inv e2
    obtain ⟨c2, m2, e2⟩ := res_bind_inv e2
    cases e2
    simp only at m1 m2
    obtain ⟨rfl, l1⟩ := key k1
    obtain ⟨rfl, l2⟩ := key k2
    have := h w1 w2 _ _ l1 l2 m1 m2 hR
    subst this
    rw [m1] at m2
    cases m2
    exact ⟨rfl, w1, rfl, rfl⟩

end

/-! ## Single items -/

theorem leNat_inj {a b : Bytes} (hl : a.length = b.length) (h : leNat a = leNat b) : a = b := by
  rw [← leBytes_leNat a, ← leBytes_leNat b, hl, h]

theorem primOfBytes_inj {p : Prim} (hp : p ≠ .bool) {a b : Bytes} (ha : a.length = p.size) (hb : b.length = p.size)
    (h : Alike (primOfBytes p a) (primOfBytes p b)) : a = b := by
  cases p with
  | bool => exact absurd rfl hp
  | f32 =>
    simp only [Alike, primOfBytes, Val.rust, Val.flt.injEq, true_and] at h
    have := leNat_inj (by simp [ha, hb]) h
    simpa using congrArg List.reverse this
  | f64 =>
    simp only [Alike, primOfBytes, Val.rust, Val.flt.injEq, true_and] at h
    have := leNat_inj (by simp [ha, hb]) h
    simpa using congrArg List.reverse this
  | scalar s =>
    simp only [Alike, primOfBytes, Val.rust, Val.int.injEq, CInt.mk.injEq, true_and] at h
    rw [← intBytes_bytesInt s a ha, ← intBytes_bytesInt s b hb, h]

/-- The variants of an enum have different names. -/
def reprDistinct : ReprTy → Bool
  | .enum _ d => decide (d.items.map Prod.fst).Nodup
  | .bitfield _ _ => true

theorem ofRepr_inj {t : ReprTy} (ht : reprDistinct t = true) {x y : Int} {v w : Val} (h1 : ofRepr t x = .ok v) (h2 : ofRepr t y = .ok w)
    (h : Alike v w) : x = y := by
  cases t with
  | enum n d =>
    simp only [ofRepr] at h1 h2
    simp only [reprDistinct, decide_eq_true_eq] at ht
    cases hx : d.fromRepr x with
    | none => rw [hx] at h1; cases h1
    | some e1 =>
      cases hy : d.fromRepr y with
      | none => rw [hy] at h2; cases h2
      | some e2 =>
        rw [hx] at h1; rw [hy] at h2
        cases h1; cases h2
        simp only [Alike, Val.rust, Val.enm.injEq, true_and] at h
        have k1 := Props.enum_from_then_to d ht x e1 hx
        have k2 := Props.enum_from_then_to d ht y e2 hy
        rw [h.1, k2] at k1
        simpa using k1.symm
  | bitfield n d =>
    simp only [ofRepr, BitfieldDecl.fromRepr] at h1 h2
    split at h1
    · rename_i v' hx
      split at hx
      · cases hx
      · cases hx
        cases h1
        split at h2
        · rename_i w' hy
          split at hy
          · cases hy
          · cases hy
            cases h2
            simpa [Alike, Val.rust] using h
        · cases h2
    · cases h1

theorem bytesInt_inj {t : EScalar} {a b : Bytes} (ha : a.length = t.scalar.size) (hb : b.length = t.scalar.size)
    (h : bytesInt t a = bytesInt t b) : a = b := by
  rw [← intBytes_bytesInt t a ha, ← intBytes_bytesInt t b hb, h]

theorem decPrim_keeps {t : Bool} {p : Prim} (hp : p ≠ .bool) : Keeps t Alike (decPrim p) :=
  Keeps.read (g := fun b => .ok (primOfBytes p b)) fun b1 b2 a1 a2 l1 l2 e1 e2 hR => by
    cases e1; cases e2
    exact primOfBytes_inj hp l1 l2 hR

theorem decRepr_keeps {t : Bool} {r : ReprTy} (hr : reprDistinct r = true) : Keeps t Alike (decRepr r) :=
  Keeps.read (g := fun b => ofRepr r (bytesInt r.rep b)) fun _ _ _ _ l1 l2 e1 e2 hR => bytesInt_inj l1 l2 (ofRepr_inj hr e1 e2 hR)

/-! ## Arrays -/

theorem chunksN_flatten (size : Nat) : ∀ (k : Nat) (b : Bytes), b.length = k * size → (chunksN size k b).flatten = b
  | 0, b, h => by
    have : b = [] := List.length_eq_zero_iff.mp (by simpa using h)
    subst this; rfl
  | k + 1, b, h => by
    have hk : (b.drop size).length = k * size := by rw [List.length_drop, h, Nat.add_mul]; omega
    simp only [chunksN, List.flatten_cons, chunksN_flatten size k _ hk, List.take_append_drop]

theorem chunksN_lengths (size : Nat) : ∀ (k : Nat) (b : Bytes), b.length = k * size → ∀ c ∈ chunksN size k b, c.length = size
  | 0, _, _, c, hc => by cases hc
  | k + 1, b, h, c, hc => by
    have hk : (b.drop size).length = k * size := by rw [List.length_drop, h, Nat.add_mul]; omega
    simp only [chunksN, List.mem_cons] at hc
    rcases hc with rfl | hc
    · rw [List.length_take, h, Nat.add_mul]; omega
    · exact chunksN_lengths size k _ hk c hc

theorem mapM_inj {g : Bytes → Res Val} {n : Nat} (hg : ∀ b1 b2 a1 a2, b1.length = n → b2.length = n → g b1 = .ok a1 → g b2 = .ok a2 →
    Alike a1 a2 → b1 = b2) : ∀ {l1 l2 : List Bytes} {v1 v2 : List Val}, (∀ c ∈ l1, c.length = n) → (∀ c ∈ l2, c.length = n) →
    l1.mapM g = .ok v1 → l2.mapM g = .ok v2 → AlikeAll v1 v2 → l1 = l2
  | [], [], _, _, _, _, _, _, _ => rfl
  | [], c :: l2, v1, v2, _, _, h1, h2, h => by
    simp only [List.mapM_cons] at h2
    obtain ⟨x, _, h2⟩ := res_bind_inv h2
    obtain ⟨xs, _, h2⟩ := res_bind_inv h2
    cases h1; cases h2; cases h
  | c :: l1, [], v1, v2, _, _, h1, h2, h => by
    simp only [List.mapM_cons] at h1
    obtain ⟨x, _, h1⟩ := res_bind_inv h1
    obtain ⟨xs, _, h1⟩ := res_bind_inv h1
    cases h1; cases h2; cases h
  | c :: l1, d :: l2, v1, v2, hl1, hl2, h1, h2, h => by
    simp only [List.mapM_cons] at h1 h2
    obtain ⟨x, hx, h1⟩ := res_bind_inv h1
    obtain ⟨xs, hxs, h1⟩ := res_bind_inv h1
    obtain ⟨y, hy, h2⟩ := res_bind_inv h2
    obtain ⟨ys, hys, h2⟩ := res_bind_inv h2
    cases h1; cases h2
    simp only [AlikeAll, Val.rustAll, List.cons.injEq] at h
    rw [hg c d x y (hl1 c (by simp)) (hl2 d (by simp)) hx hy h.1,
      mapM_inj hg (fun e he => hl1 e (by simp [he])) (fun e he => hl2 e (by simp [he])) hxs hys h.2]

/-- What `chunks_exact` makes of whole chunks can be put together again. -/
theorem chunks_inj {g : Bytes → Res Val} {size : Nat} (hg : ∀ b1 b2 a1 a2, b1.length = size → b2.length = size →
    g b1 = .ok a1 → g b2 = .ok a2 → Alike a1 a2 → b1 = b2) {b1 b2 : Bytes} (d1 : size ∣ b1.length) (d2 : size ∣ b2.length)
    {v1 v2 : List Val} (h1 : (chunksExact size b1).mapM g = .ok v1) (h2 : (chunksExact size b2).mapM g = .ok v2) (h : AlikeAll v1 v2) :
    b1 = b2 := by
  unfold chunksExact at h1 h2
  have e1 : b1.length = b1.length / size * size := (Nat.div_mul_cancel d1).symm
  have e2 : b2.length = b2.length / size * size := (Nat.div_mul_cancel d2).symm
  have := mapM_inj hg (chunksN_lengths size _ _ e1) (chunksN_lengths size _ _ e2) h1 h2 h
  rw [← chunksN_flatten size _ _ e1, ← chunksN_flatten size _ _ e2, this]

theorem size_dvd (k : Scalar) : k.size ∣ 2 ^ 64 := by cases k <;> decide

theorem prim_size_dvd (p : Prim) : p.size ∣ 2 ^ 64 := by
  cases p with
  | scalar s => exact size_dvd s.scalar
  | _ => decide

theorem usizeMul_dvd {oc : Bool} {n size total : Nat} (hd : size ∣ 2 ^ 64) (h : usizeMul oc n size = .ok total) : size ∣ total := by
  unfold usizeMul at h
  split at h
  · cases h; exact Nat.dvd_mul_left _ _
  · split at h
    · cases h
    · cases h
      exact (Nat.dvd_mod_iff hd).mpr (Nat.dvd_mul_left _ _)

/-- Arrays of items of one size. -/
theorem items_keeps {oc : Bool} {size : Nat} (hs : 0 < size) (hd : size ∣ 2 ^ 64) {g : Bytes → Res Val}
    (hg : ∀ b1 b2 a1 a2, b1.length = size → b2.length = size → g b1 = .ok a1 → g b2 = .ok a2 → Alike a1 a2 → b1 = b2)
    {t : Bool} {n : Option Nat} (hn : n.isSome = true ∨ size = 1) :
    Keeps t Alike fun bs => readItems oc size n bs >>= fun y => (chunksExact size y.1).mapM g >>= fun vs => .ok (.arr vs, y.2) := by
  cases n with
  | some n =>
    simp only [readItems]
    have : Keeps t Alike fun bs => usizeMul oc n size >>= fun total => allocBytes total >>= fun _ =>
        readExact total bs >>= fun y => (((chunksExact size y.1).mapM g) >>= fun vs => .ok (Val.arr vs)) >>= fun v => .ok (v, y.2) := by
      refine Keeps.after fun total ht => Keeps.after fun _ _ => Keeps.read
        (g := fun b => ((chunksExact size b).mapM g) >>= fun vs => .ok (Val.arr vs)) fun b1 b2 a1 a2 l1 l2 e1 e2 hR => ?_
      obtain ⟨v1, f1, k1⟩ := res_bind_inv e1
      obtain ⟨v2, f2, k2⟩ := res_bind_inv e2
      cases k1; cases k2
      have hdt := usizeMul_dvd hd ht
      refine chunks_inj hg (by rw [l1]; exact hdt) (by rw [l2]; exact hdt) f1 f2 ?_
      simpa [Alike, Val.rust, AlikeAll] using hR
    simpa only [bind_assoc, ok_bind] using this
  | none =>
    have h1 : size = 1 := by simpa using hn
    subst h1
    simp only [readItems, ok_bind]
    constructor
    · intro bs a r h
      obtain ⟨vs, _, h⟩ := res_bind_inv h
      cases h
      exact ⟨bs, by simp⟩
    · intro b1 b2 a1 a2 r1 r2 e1 e2 hR _
      obtain ⟨v1, f1, k1⟩ := res_bind_inv e1
      obtain ⟨v2, f2, k2⟩ := res_bind_inv e2
      cases k1; cases k2
      have := chunks_inj hg (Nat.one_dvd _) (Nat.one_dvd _) f1 f2 (by simpa [Alike, Val.rust, AlikeAll] using hR)
      subst this
      rw [f1] at f2
      cases f2
      exact ⟨rfl, b1, by simp, by simp⟩

theorem decPrimArray_keeps {oc : Bool} {p : Prim} {t : Bool} {n : Option Nat} (hn : n.isSome = true ∨ p.size = 1) :
    Keeps t Alike (decPrimArray oc p n) := by
  unfold decPrimArray
  split
  · exact .error _
  · rename_i hb
    have := items_keeps (oc := oc) (t := t) (Props.prim_size_pos p) (prim_size_dvd p) (g := fun b => .ok (primOfBytes p b))
      (fun b1 b2 a1 a2 l1 l2 e1 e2 hR => by cases e1; cases e2; exact primOfBytes_inj hb l1 l2 hR) hn
    simpa only [RT.mapM_pure, ok_bind] using this

theorem decReprArray_keeps {oc : Bool} {r : ReprTy} (hr : reprDistinct r = true) {t : Bool} {n : Option Nat}
    (hn : n.isSome = true ∨ r.rep.scalar.size = 1) : Keeps t Alike (decReprArray oc r n) :=
  items_keeps (Props.scalar_size_pos r.rep.scalar) (size_dvd _) (fun _ _ _ _ l1 l2 e1 e2 hR => bytesInt_inj l1 l2 (ofRepr_inj hr e1 e2 hR)) hn

theorem decN_keeps {t : Bool} {f : Bytes → Res (Val × Bytes)} (hf : Keeps t Alike f) : ∀ n, Keeps t AlikeAll (decN f n)
  | 0 => .pure []
  | n + 1 => by
    have := hf.seq (g := fun _ => decN f n) (S := fun _ => AlikeAll) (fun _ => decN_keeps hf n) (T := AlikeAll) (h := fun v vs => v :: vs)
      (P := fun _ => True) (fun _ => trivial)
      (fun a1 a2 b1 b2 _ _ h => by simp only [AlikeAll, Val.rustAll, List.cons.injEq] at h; exact h.1)
      (fun a b1 b2 _ h => by simp only [AlikeAll, Val.rustAll, List.cons.injEq] at h; exact h.2)
    exact this .inl

theorem decAll_once {f : Bytes → Res (Val × Bytes)} (hf : Keeps false Alike f) : ∀ {k1 k2 : Nat} {b1 b2 : Bytes} {v1 v2 : List Val}
    {r1 r2 : Bytes}, decAll f k1 b1 = .ok (v1, r1) → decAll f k2 b2 = .ok (v2, r2) → AlikeAll v1 v2 → v1 = v2 ∧ b1 = b2 := by
  intro k1
  induction k1 with
  | zero =>
    intro k2 b1 b2 v1 v2 r1 r2 h1 h2 h
    unfold decAll at h1 h2
    split at h1
    · rename_i e1
      cases h1
      split at h2
      · rename_i e2; cases h2; exact ⟨rfl, by rw [e1, e2]⟩
      · split at h2
        · cases h2
        · obtain ⟨⟨x, s⟩, _, h2⟩ := res_bind_inv h2
          simp only at h2
          split at h2
          · obtain ⟨⟨xs, s'⟩, _, h2⟩ := res_bind_inv h2
            cases h2
            cases h
          · cases h2
    · cases h1
  | succ k1 ih =>
    intro k2 b1 b2 v1 v2 r1 r2 h1 h2 h
    unfold decAll at h1 h2
    split at h1
    · rename_i e1
      cases h1
      split at h2
      · rename_i e2; cases h2; exact ⟨rfl, by rw [e1, e2]⟩
      · split at h2
        · cases h2
        · obtain ⟨⟨x, s⟩, _, h2⟩ := res_bind_inv h2
          simp only at h2
          split at h2
          · obtain ⟨⟨xs, s'⟩, _, h2⟩ := res_bind_inv h2
            cases h2
            cases h
          · cases h2
    · simp only at h1
      obtain ⟨⟨x, s⟩, hx, h1⟩ := res_bind_inv h1
      simp only at h1
      split at h1
      · obtain ⟨⟨xs, s'⟩, hxs, h1⟩ := res_bind_inv h1
        cases h1
        split at h2
        · cases h2
          cases h
        · split at h2
          · cases h2
          · obtain ⟨⟨y, u⟩, hy, h2⟩ := res_bind_inv h2
            simp only at h2
            split at h2
            · obtain ⟨⟨ys, u'⟩, hys, h2⟩ := res_bind_inv h2
              cases h2
              simp only [AlikeAll, Val.rustAll, List.cons.injEq] at h
              obtain ⟨rfl, w, rfl, rfl⟩ := hf.once hx hy h.1 (by intro h; cases h)
              obtain ⟨rfl, rfl⟩ := ih hxs hys h.2
              exact ⟨rfl, rfl⟩
            · cases h2
      · cases h1

theorem decAll_keeps {t : Bool} {f : Bytes → Res (Val × Bytes)} (hf : Keeps false Alike f) :
    Keeps t Alike fun bs => decAll f bs.length bs >>= fun y => .ok (.arr y.1, []) := by
  constructor
  · intro bs a r h
    obtain ⟨vs, _, h⟩ := res_bind_inv h
    cases h
    exact ⟨bs, by simp⟩
  · intro b1 b2 a1 a2 r1 r2 e1 e2 hR _
    obtain ⟨⟨v1, s1⟩, f1, k1⟩ := res_bind_inv e1
    obtain ⟨⟨v2, s2⟩, f2, k2⟩ := res_bind_inv e2
    cases k1; cases k2
    obtain ⟨rfl, rfl⟩ := decAll_once hf f1 f2 (by simpa [Alike, Val.rust, AlikeAll] using hR)
    exact ⟨rfl, b1, by simp, by simp⟩

theorem decUntil_front {t : Bool} {f : Bytes → Res (Val × Bytes)} (hf : Keeps t Alike f) {tb : Bytes} : ∀ {k : Nat} {bs : Bytes}
    {v : List Val} {r : Bytes}, decUntil f tb k bs = .ok (v, r) → ∃ w, bs = w ++ r := by
  intro k
  induction k with
  | zero =>
    intro bs v r h
    unfold decUntil at h
    split at h
    · cases h; exact ⟨[], rfl⟩
    · split at h
      · cases h
      · split at h
        · cases h; exact ⟨_, (List.take_append_drop _ _).symm⟩
        · cases h
  | succ k ih =>
    intro bs v r h
    unfold decUntil at h
    split at h
    · cases h; exact ⟨[], rfl⟩
    · split at h
      · cases h
      · split at h
        · cases h; exact ⟨_, (List.take_append_drop _ _).symm⟩
        · obtain ⟨⟨x, s⟩, hx, h⟩ := res_bind_inv h
          simp only at h
          split at h
          · obtain ⟨⟨xs, s'⟩, hxs, h⟩ := res_bind_inv h
            cases h
            obtain ⟨w1, rfl⟩ := hf.front hx
            obtain ⟨w2, h⟩ := ih hxs
            exact ⟨w1 ++ w2, by rw [h, List.append_assoc]⟩
          · cases h

theorem decUntil_once {f : Bytes → Res (Val × Bytes)} (hf : Keeps true Alike f) {tb : Bytes} : ∀ {k1 k2 : Nat} {b1 b2 : Bytes}
    {v1 v2 : List Val} {r1 r2 : Bytes}, decUntil f tb k1 b1 = .ok (v1, r1) → decUntil f tb k2 b2 = .ok (v2, r2) → AlikeAll v1 v2 →
    r1 ≠ [] → r2 ≠ [] → v1 = v2 ∧ ∃ w, b1 = w ++ r1 ∧ b2 = w ++ r2 := by
  -- one step
  have step : ∀ {k b v r}, decUntil f tb k b = .ok (v, r) → r ≠ [] → (v = [] ∧ b = tb ++ r) ∨
      ∃ k' x s xs, k = k' + 1 ∧ f b = .ok (x, s) ∧ decUntil f tb k' s = .ok (xs, r) ∧ v = x :: xs := by
    intro k b v r h hr
    unfold decUntil at h
    split at h
    · rename_i e; cases h; exact absurd e hr
    · split at h
      · cases h
      · split at h
        · rename_i e
          cases h
          left
          refine ⟨rfl, ?_⟩
          conv => lhs; rw [← List.take_append_drop tb.length b, e]
        · split at h
          · cases h
          · rename_i k'
            obtain ⟨⟨x, s⟩, hx, h⟩ := res_bind_inv h
            simp only at h
            split at h
            · obtain ⟨⟨xs, s'⟩, hxs, h⟩ := res_bind_inv h
              cases h
              exact .inr ⟨k', x, s, xs, rfl, hx, hxs, rfl⟩
            · cases h
  intro k1
  induction k1 with
  | zero =>
    intro k2 b1 b2 v1 v2 r1 r2 h1 h2 h hr1 hr2
    rcases step h1 hr1 with ⟨rfl, rfl⟩ | ⟨_, _, _, _, h, _⟩
    · rcases step h2 hr2 with ⟨rfl, rfl⟩ | ⟨_, _, _, _, _, _, _, rfl⟩
      · exact ⟨rfl, tb, rfl, rfl⟩
      · cases h
    · cases h
  | succ k1 ih =>
    intro k2 b1 b2 v1 v2 r1 r2 h1 h2 h hr1 hr2
    rcases step h1 hr1 with ⟨rfl, rfl⟩ | ⟨k, x, s, xs, hk, hx, hxs, rfl⟩
    · rcases step h2 hr2 with ⟨rfl, rfl⟩ | ⟨_, _, _, _, _, _, _, rfl⟩
      · exact ⟨rfl, tb, rfl, rfl⟩
      · cases h
    · cases hk
      rcases step h2 hr2 with ⟨rfl, rfl⟩ | ⟨k', y, u, ys, rfl, hy, hys, rfl⟩
      · cases h
      · simp only [AlikeAll, Val.rustAll, List.cons.injEq] at h
        obtain ⟨rfl, w, rfl, rfl⟩ := hf.once hx hy h.1 (fun _ => by
          obtain ⟨w1, rfl⟩ := decUntil_front hf hxs
          obtain ⟨w2, rfl⟩ := decUntil_front hf hys
          simp [hr1, hr2])
        obtain ⟨rfl, u, rfl, rfl⟩ := ih hxs hys h.2 hr1 hr2
        exact ⟨rfl, w ++ u, by simp, by simp⟩

theorem decUntil_keeps {f : Bytes → Res (Val × Bytes)} (hf : Keeps true Alike f) (tb : Bytes) :
    Keeps true Alike fun bs => decUntil f tb bs.length bs >>= fun y => .ok (.arr y.1, y.2) := by
  constructor
  · intro bs a r h
    obtain ⟨⟨vs, r'⟩, h1, h⟩ := res_bind_inv h
    cases h
    exact decUntil_front hf h1
  · intro b1 b2 a1 a2 r1 r2 e1 e2 hR ht
    obtain ⟨⟨v1, s1⟩, f1, k1⟩ := res_bind_inv e1
    obtain ⟨⟨v2, s2⟩, f2, k2⟩ := res_bind_inv e2
    cases k1; cases k2
    obtain ⟨rfl, h⟩ := decUntil_once hf f1 f2 (by simpa [Alike, Val.rust, AlikeAll] using hR) (ht rfl).1 (ht rfl).2
    exact ⟨rfl, h⟩

/-! ## The check -/

/-- Which declared and foreign types lose nothing (`own false`, `foreign false`), or nothing if other bytes follow (`own true`, `foreign true`). The first
is verified by the check. -/
structure Lossless where
  own : Bool → String → Bool
  foreign : Bool → String → Bool

/-- No `bool`; no terminators where the input may end; whole elements of one byte in unbounded arrays. -/
def keepLeaf (K : Lossless) (t : Bool) : LTy → Bool
  | .prim p => decide (p ≠ .bool)
  | .ref n foreign _ _ => if foreign then K.foreign t n else K.own t n
  | .array el (.fixed _) =>
    match el.resolved with
    | .prim _ => true
    | .repr r => reprDistinct r
    | .other => keepLeaf K t el
  | .array el .unbounded =>
    match el.resolved with
    | .prim p => decide (p.size = 1)
    | .repr r => reprDistinct r && decide (r.rep.scalar.size = 1)
    | .other => keepLeaf K false el
  | .array el (.term _) => t && keepLeaf K true el

/-- Some field is certainly there and takes a byte. -/
def eats : Fields → Bool
  | .nil => false
  | .pad _ _ rest => eats rest
  | .leaf a (.prim _) rest => (a.cond.isNone && a.xfs.isEmpty) || eats rest
  | .leaf _ _ rest => eats rest
  | .cont _ _ _ rest => eats rest

/-- No paddings, no transforms. A field that other fields certainly follow may end with a terminator. -/
def keepItems (K : Lossless) (t : Bool) : Fields → Bool
  | .nil => true
  | .pad _ _ _ => false
  | .leaf a ty rest => a.xfs.isEmpty && keepLeaf K (t || eats rest) ty && keepItems K t rest
  | .cont a len items rest => a.xfs.isEmpty && keepItems K ((t || eats rest) && len.isNone) items && keepItems K t rest

def keepArm (K : Lossless) (t : Bool) (arm : Arm) : Bool :=
  arm.attr.xfs.isEmpty &&
    match arm.body with
    | .leaf ty => keepLeaf K t ty
    | .cont len items => keepItems K (t && len.isNone) items

def keepDecl (K : Lossless) (t : Bool) (d : Decl) : Bool :=
  d.xfs.isEmpty &&
    match d.body with
    | .leaf _ ty => keepLeaf K t ty
    | .repr r => reprDistinct r
    | .struct len items => keepItems K (t && len.isNone) items
    | .tagged len arms => arms.all (keepArm K (t && len.isNone))

/-- Every type of which `K` says that it loses nothing does so. -/
def lossless (K : Lossless) (sch : Schema) : Bool :=
  sch.all fun d => (!K.own false d.name || keepDecl K false d) && (!K.own true d.name || keepDecl K true d)

/-! ## Soundness -/

structure ExtKeeps (K : Lossless) (X : Ext) : Prop where
  call : ∀ t n vs, K.own t n = true → Keeps t Alike (X.call n vs)
  foreign : ∀ t n vs, K.foreign t n = true → Keeps t Alike (X.foreign n vs)

variable {K : Lossless} {X : Ext}

theorem Keeps.congr {α} {t : Bool} {R : α → α → Prop} {f g : Bytes → Res (α × Bytes)} (h : ∀ bs, f bs = g bs) (hf : Keeps t R g) :
    Keeps t R f := by
  have : f = g := funext h
  rwa [this]

theorem decLeaf_keeps (hX : ExtKeeps K X) (env : Env) : ∀ (t : Bool) (ty : LTy), keepLeaf K t ty = true →
    Keeps t Alike (decLeaf X env ty)
  | t, .prim p, h => by
    simp only [keepLeaf, decide_eq_true_eq] at h
    exact Keeps.congr (fun bs => by simp only [decLeaf]) (decPrim_keeps h)
  | t, .ref n foreign res args, h => by
    refine Keeps.congr (g := fun bs => (args.mapM (ev X env)) >>= fun vs => if foreign then X.foreign n vs bs else X.call n vs bs)
      (fun bs => by simp only [decLeaf]) (Keeps.after fun vs _ => ?_)
    simp only [keepLeaf] at h
    cases foreign with
    | true => exact hX.foreign t n vs h
    | false => exact hX.call t n vs h
  | t, .array el (.fixed e), h => by
    refine Keeps.congr (g := fun bs => ev X env e >>= fun v =>
        match el.resolved with
        | .prim p => asUsize v >>= fun n => decPrimArray X.oc p (some n) bs
        | .repr t => asUsize v >>= fun n => decReprArray X.oc t (some n) bs
        | .other => loopCount v >>= fun n => decN (decLeaf X env el) n bs >>= fun y => .ok (.arr y.1, y.2))
      (fun bs => by simp only [decLeaf]; rfl) (Keeps.after fun v _ => ?_)
    simp only [keepLeaf] at h
    cases hr : el.resolved with
    | prim p => exact Keeps.after fun n _ => decPrimArray_keeps (.inl rfl)
    | repr r =>
      rw [hr] at h
      exact Keeps.after fun n _ => decReprArray_keeps h (.inl rfl)
    | other =>
      rw [hr] at h
      exact Keeps.after fun n _ => (decN_keeps (decLeaf_keeps hX env t el h) n).map
        fun a b hs => by simpa [Alike, Val.rust, AlikeAll] using hs
  | t, .array el .unbounded, h => by
    simp only [keepLeaf] at h
    cases hr : el.resolved with
    | prim p =>
      simp only [hr, decide_eq_true_eq] at h
      exact Keeps.congr (fun bs => by simp only [decLeaf, hr]) (decPrimArray_keeps (oc := X.oc) (n := none) (.inr h))
    | repr r =>
      simp only [hr, Bool.and_eq_true, decide_eq_true_eq] at h
      exact Keeps.congr (fun bs => by simp only [decLeaf, hr]) (decReprArray_keeps (oc := X.oc) (n := none) h.1 (.inr h.2))
    | other =>
      simp only [hr] at h
      exact Keeps.congr (fun bs => by simp only [decLeaf, hr]) (decAll_keeps (decLeaf_keeps hX env false el h))
  | t, .array el (.term e), h => by
    simp only [keepLeaf, Bool.and_eq_true] at h
    obtain ⟨rfl, h⟩ := h
    exact Keeps.congr (g := fun bs => ev X env e >>= fun v => optRes v.toBytes >>= fun tb =>
        decUntil (decLeaf X env el) tb bs.length bs >>= fun y => .ok (.arr y.1, y.2)) (fun bs => by simp only [decLeaf])
      (Keeps.after fun v _ => Keeps.after fun tb _ => decUntil_keeps (decLeaf_keeps hX env true el h) tb)

theorem decLimited_keeps {α} {t : Bool} {R : α → α → Prop} (env : Env) (len : Option Expr) {k : Bytes → Res (α × Bytes)}
    (hk : Keeps (t && len.isNone) R k) : Keeps t R fun bs => decLimited X env len bs k := by
  cases len with
  | none => simpa only [decLimited, Option.isNone_none, Bool.and_true] using hk
  | some e =>
    simp only [Option.isNone_some, Bool.and_false] at hk
    refine Keeps.congr (g := fun bs => ev X env e >>= fun v => asUsize v >>= fun n => k (bs.take n) >>= fun y => .ok (y.1, y.2 ++ bs.drop n))
      (fun bs => by simp only [decLimited]) (Keeps.after fun v _ => Keeps.after fun n _ => ?_)
    constructor
    · intro bs a r h
      obtain ⟨⟨a', r'⟩, h1, h⟩ := res_bind_inv h
      cases h
      obtain ⟨w, h⟩ := hk.front h1
      refine ⟨w, ?_⟩
      simp only
      rw [← List.append_assoc, ← h, List.take_append_drop]
    · intro b1 b2 a1 a2 r1 r2 e1 e2 hR _
      obtain ⟨⟨c1, s1⟩, f1, k1⟩ := res_bind_inv e1
      obtain ⟨⟨c2, s2⟩, f2, k2⟩ := res_bind_inv e2
      cases k1; cases k2
      obtain ⟨rfl, w, h1, h2⟩ := hk.once f1 f2 hR (by intro h; cases h)
      refine ⟨rfl, w, ?_, ?_⟩
      · simp only
        rw [← List.append_assoc, ← h1, List.take_append_drop]
      · simp only
        rw [← List.append_assoc, ← h2, List.take_append_drop]

theorem decCond_keeps {t : Bool} (env : Env) (cond : Option Expr) (names : List String) {k : Bytes → Res (List (String × Val) × Bytes)}
    (hk : Keeps t AlikeFields k) : Keeps t AlikeFields fun bs => decCond X env cond names bs k := by
  cases cond with
  | none => exact hk
  | some e =>
    refine Keeps.congr (g := fun bs => ev X env e >>= fun c => c.toBool >>= fun b =>
        if b then k bs >>= fun y => .ok (y.1.map fun p => (p.1, .opt (some p.2)), y.2) else .ok (names.map fun n => (n, .opt none), bs))
      (fun bs => by simp only [decCond]) (Keeps.after fun c _ => Keeps.after fun b _ => ?_)
    cases b with
    | true => exact hk.map fun a b h => Val.rustFields_somes h
    | false => exact .pure _

theorem decCond_names {env : Env} {cond : Option Expr} {names : List String} {k : Bytes → Res (List (String × Val) × Bytes)}
    (hk : ∀ {bs vs r}, k bs = .ok (vs, r) → vs.length = names.length) {bs : Bytes} {vs : List (String × Val)} {r : Bytes}
    (h : decCond X env cond names bs k = .ok (vs, r)) : vs.length = names.length := by
  cases cond with
  | none => exact hk h
  | some e =>
    simp only [decCond] at h
    obtain ⟨c, _, h⟩ := res_bind_inv h
    obtain ⟨b, _, h⟩ := res_bind_inv h
    cases b with
    | true =>
      simp only [if_true] at h
      obtain ⟨⟨ws, r'⟩, h1, h⟩ := res_bind_inv h
      cases h
      simpa using hk h1
    | false =>
      simp only [Bool.false_eq_true, if_false] at h
      cases h
      simp

theorem decLimited_result {α} {P : α → Prop} {env : Env} {len : Option Expr} {k : Bytes → Res (α × Bytes)}
    (hk : ∀ {bs a r}, k bs = .ok (a, r) → P a) {bs : Bytes} {a : α} {r : Bytes} (h : decLimited X env len bs k = .ok (a, r)) : P a := by
  cases len with
  | none => exact hk h
  | some e =>
    simp only [decLimited] at h
    obtain ⟨v, _, h⟩ := res_bind_inv h
    obtain ⟨n, _, h⟩ := res_bind_inv h
    obtain ⟨⟨a', r'⟩, h1, h⟩ := res_bind_inv h
    cases h
    exact hk h1

theorem append_alike {a1 a2 b1 b2 : List (String × Val)} {n : Nat} (h1 : a1.length = n) (h2 : a2.length = n)
    (h : AlikeFields (a1 ++ b1) (a2 ++ b2)) : AlikeFields a1 a2 ∧ AlikeFields b1 b2 := by
  unfold AlikeFields at *
  rw [Val.rustFields_append, Val.rustFields_append] at h
  exact List.append_inj h (by rw [Val.rustFields_length, Val.rustFields_length, h1, h2])

theorem decPrim_nil {p : Prim} {y : Val × Bytes} (h : decPrim p [] = .ok y) : False := by
  obtain ⟨q, hq, _⟩ := res_bind_inv h
  have := Props.prim_size_pos p
  simp only [readExact, List.length_nil, if_pos this] at hq
  cases hq

theorem eats_leaf {a : FAttr} {ty : LTy} {rest : Fields} (h : eats (.leaf a ty rest) = true) :
    (a.cond = none ∧ ∃ p, ty = .prim p) ∨ eats rest = true := by
  cases ty with
  | prim p =>
    simp only [eats, Bool.or_eq_true, Bool.and_eq_true, Option.isNone_iff_eq_none] at h
    exact h.imp (fun h => ⟨h.1, p, rfl⟩) id
  | _ => exact .inr h

theorem decItems_keeps' (hX : ExtKeeps K X) : ∀ (items : Fields) (t : Bool) (env : Env), keepItems K t items = true →
    Keeps t AlikeFields (decItems X items env) ∧ (eats items = true → ∀ bs y, decItems X items env bs = .ok y → bs ≠ []) := by
  intro items
  induction items with
  | nil => intro t env _; exact ⟨.pure [], fun h => by cases h⟩
  | pad n e rest ih => intro t env h; cases h
  | leaf a ty rest ih =>
    intro t env h
    simp only [keepItems, Bool.and_eq_true, List.isEmpty_iff] at h
    obtain ⟨⟨hx, hl⟩, hr⟩ := h
    have hg : ∀ bs, decItems X (.leaf a ty rest) env bs = (decCond X env a.cond [a.name] bs (fun b => decLeaf X env ty b >>= fun y => .ok ([(a.name, y.1)], y.2)) >>=
        fun y => decItems X rest (env.bindAll y.1) y.2 >>= fun z => .ok (y.1 ++ z.1, z.2)) := fun bs => by
      simp only [decItems, hx, List.reverse_nil, decXforms]
    have h1 : Keeps (t || eats rest) AlikeFields fun bs => decCond X env a.cond [a.name] bs fun b =>
        decLeaf X env ty b >>= fun y => .ok ([(a.name, y.1)], y.2) :=
      decCond_keeps env a.cond [a.name] ((decLeaf_keeps hX env _ ty hl).map (g := fun v => [(a.name, v)]) fun v w h => by
        simpa [AlikeFields, Val.rustFields, Alike] using h)
    refine ⟨Keeps.congr hg ?_, ?_⟩
    rotate_left
    · intro he bs y hy
      rw [hg] at hy
      obtain ⟨⟨vs, r⟩, hc, hy⟩ := res_bind_inv hy
      obtain ⟨z, hz, -⟩ := res_bind_inv hy
      obtain ⟨w, rfl⟩ := h1.front hc
      rcases eats_leaf he with ⟨hcn, p, rfl⟩ | he
      · intro h0
        have hb := List.append_eq_nil_iff.1 h0
        rw [hcn, hb.1, hb.2] at hc
        obtain ⟨q, hq, _⟩ := res_bind_inv hc
        simp only [decLeaf] at hq
        exact decPrim_nil hq
      · simp [(ih t _ hr).2 he _ _ hz]
    refine h1.seq (fun vs => (ih t (env.bindAll vs) hr).1) (P := fun vs => vs.length = 1)
      (fun {bs vs r} h => decCond_names (names := [a.name]) (fun {bs vs r} h => by
        obtain ⟨y, _, h⟩ := res_bind_inv h
        cases h; rfl) h) ?_ ?_ (fun h => (Bool.or_eq_true _ _ ▸ h).imp id fun h vs bs y hy => (ih t _ hr).2 h _ _ hy)
    · intro a1 a2 b1 b2 p1 p2 hT
      exact (append_alike p1 p2 hT).1
    · intro a b1 b2 p hT
      exact (append_alike p p hT).2
  | cont a len items rest ihi ih =>
    intro t env h
    simp only [keepItems, Bool.and_eq_true, List.isEmpty_iff] at h
    obtain ⟨⟨hx, hl⟩, hr⟩ := h
    have hg : ∀ bs, decItems X (.cont a len items rest) env bs = (decCond X env a.cond items.names bs (fun b => decLimited X env len b (decItems X items env)) >>=
        fun y => decItems X rest (env.bindAll y.1) y.2 >>= fun z => .ok (y.1 ++ z.1, z.2)) := fun bs => by
      simp only [decItems, hx, List.reverse_nil, decXforms]
    have h1 : Keeps (t || eats rest) AlikeFields fun bs => decCond X env a.cond items.names bs fun b => decLimited X env len b (decItems X items env) :=
      decCond_keeps env a.cond items.names (decLimited_keeps env len (ihi _ env hl).1)
    refine ⟨Keeps.congr hg ?_, ?_⟩
    rotate_left
    · intro he bs y hy
      rw [hg] at hy
      obtain ⟨⟨vs, r⟩, hc, hy⟩ := res_bind_inv hy
      obtain ⟨z, hz, -⟩ := res_bind_inv hy
      obtain ⟨w, rfl⟩ := h1.front hc
      simp [(ih t _ hr).2 he _ _ hz]
    refine h1.seq (fun vs => (ih t (env.bindAll vs) hr).1) (P := fun vs => vs.length = items.names.length)
      (fun {bs vs r} h => decCond_names (fun {bs vs r} h => decLimited_result (P := fun vs => vs.length = items.names.length)
        (fun {bs vs r} h => by rw [← Props.decItems_names items h, List.length_map]) h) h) ?_ ?_
      (fun h => (Bool.or_eq_true _ _ ▸ h).imp id fun h vs bs y hy => (ih t _ hr).2 h _ _ hy)
    · intro a1 a2 b1 b2 p1 p2 hT
      exact (append_alike p1 p2 hT).1
    · intro a b1 b2 p hT
      exact (append_alike p p hT).2

theorem decItems_keeps (hX : ExtKeeps K X) (items : Fields) (t : Bool) (env : Env) (h : keepItems K t items = true) :
    Keeps t AlikeFields (decItems X items env) := (decItems_keeps' hX items t env h).1

theorem decArm_keeps (hX : ExtKeeps K X) (n : String) {t : Bool} {arm : Arm} (h : keepArm K t arm = true) :
    Keeps t Alike (decArm X n arm) := by
  simp only [keepArm, Bool.and_eq_true, List.isEmpty_iff] at h
  obtain ⟨hx, h⟩ := h
  cases hb : arm.body with
  | leaf ty =>
    rw [hb] at h
    exact Keeps.congr (fun bs => by simp only [decArm, hx, hb, List.reverse_nil, decXforms])
      ((decLeaf_keeps hX .empty t ty h).map (g := fun v => Val.variant n arm.attr.name v) fun v w h => by
        simpa [Alike, Val.rust] using h)
  | cont len items =>
    rw [hb] at h
    exact Keeps.congr (fun bs => by simp only [decArm, hx, hb, List.reverse_nil, decXforms])
      ((decLimited_keeps (X := X) .empty len (decItems_keeps hX items _ .empty h)).map (g := fun vs => Val.variantS n arm.attr.name vs) fun v w h => by
        simpa [Alike, AlikeFields, Val.rust] using h)

theorem decArms_keeps (hX : ExtKeeps K X) (n : String) {t : Bool} : ∀ (arms : List Arm), arms.all (keepArm K t) = true →
    Keeps t Alike (decArms X n arms) := by
  intro arms
  induction arms with
  | nil => intro _; exact .error _
  | cons arm arms ih =>
    intro h
    simp only [List.all_cons, Bool.and_eq_true] at h
    cases hc : arm.attr.cond with
    | none => exact Keeps.congr (fun bs => by simp only [decArms, hc]) (decArm_keeps hX n h.1)
    | some e =>
      refine Keeps.congr (g := fun bs => ev X .empty e >>= fun c => c.toBool >>= fun b =>
        if b then decArm X n arm bs else decArms X n arms bs) (fun bs => by simp only [decArms, hc])
        (Keeps.after fun c _ => Keeps.after fun b _ => ?_)
      cases b with
      | true => exact decArm_keeps hX n h.1
      | false => exact ih h.2

theorem decDecl_keeps (hX : ExtKeeps K X) {t : Bool} {d : Decl} (h : keepDecl K t d = true) : Keeps t Alike (decDecl X d) := by
  simp only [keepDecl, Bool.and_eq_true, List.isEmpty_iff] at h
  obtain ⟨hx, h⟩ := h
  cases hb : d.body with
  | leaf cond ty =>
    rw [hb] at h
    have h1 : Keeps t AlikeFields fun bs => decCond X .empty cond [d.name] bs fun b =>
        decLeaf X .empty ty b >>= fun y => .ok ([(d.name, y.1)], y.2) :=
      decCond_keeps .empty cond [d.name] ((decLeaf_keeps hX .empty t ty h).map (g := fun v => [(d.name, v)]) fun v w h => by
        simpa [AlikeFields, Val.rustFields, Alike] using h)
    have hl : ∀ {bs vs r}, (decCond X .empty cond [d.name] bs fun b =>
        decLeaf X .empty ty b >>= fun y => .ok ([(d.name, y.1)], y.2)) = .ok (vs, r) → ∃ v, vs = [(d.name, v)] := by
      intro bs vs r h
      cases cond with
      | none =>
        obtain ⟨y, _, h⟩ := res_bind_inv h
        cases h; exact ⟨_, rfl⟩
      | some e =>
        simp only [decCond] at h
        obtain ⟨c, _, h⟩ := res_bind_inv h
        obtain ⟨b, _, h⟩ := res_bind_inv h
        cases b with
        | true =>
          simp only [if_true] at h
          obtain ⟨⟨ws, r'⟩, h1, h⟩ := res_bind_inv h
          obtain ⟨y, _, h1⟩ := res_bind_inv h1
          cases h1; cases h; exact ⟨_, rfl⟩
        | false =>
          simp only [Bool.false_eq_true, if_false] at h
          cases h; exact ⟨_, rfl⟩
    have hg : ∀ {bs v r}, decDecl X d bs = .ok (v, r) → ∃ w, (decCond X .empty cond [d.name] bs fun b =>
        decLeaf X .empty ty b >>= fun y => .ok ([(d.name, y.1)], y.2)) = .ok ([(d.name, w)], r) ∧ v = .newtype d.name w := by
      intro bs v r h
      simp only [decDecl, hb, hx, List.reverse_nil, decXforms] at h
      obtain ⟨⟨vs, r'⟩, h1, h⟩ := res_bind_inv h
      obtain ⟨w, rfl⟩ := hl h1
      cases h
      exact ⟨w, h1, rfl⟩
    constructor
    · intro bs a r h
      obtain ⟨w, h, -⟩ := hg h
      exact h1.front h
    · intro b1 b2 a1 a2 r1 r2 e1 e2 hR ht
      obtain ⟨w1, k1, rfl⟩ := hg e1
      obtain ⟨w2, k2, rfl⟩ := hg e2
      simp only [Alike, Val.rust, Val.newtype.injEq, true_and] at hR
      obtain ⟨e, h⟩ := h1.once k1 k2 (by simp [AlikeFields, Val.rustFields, hR]) ht
      simp only [List.cons.injEq, Prod.mk.injEq, true_and, and_true] at e
      exact ⟨by rw [e], h⟩
  | repr r =>
    rw [hb] at h
    exact Keeps.congr (fun bs => by simp only [decDecl, hx, hb, List.reverse_nil, decXforms]) (decRepr_keeps h)
  | struct len items =>
    rw [hb] at h
    exact Keeps.congr (fun bs => by simp only [decDecl, hx, hb, List.reverse_nil, decXforms])
      ((decLimited_keeps (X := X) .empty len (decItems_keeps hX items _ .empty h)).map (g := fun vs => Val.struct d.name vs) fun v w h => by
        simpa [Alike, AlikeFields, Val.rust] using h)
  | tagged len arms =>
    rw [hb] at h
    exact Keeps.congr (fun bs => by simp only [decDecl, hx, hb, List.reverse_nil, decXforms])
      (decLimited_keeps (X := X) .empty len (decArms_keeps hX d.name arms h))

/-- The foreign types lose nothing, as `K` says. -/
def LibKeeps (K : Lossless) (L : Lib) : Prop := ∀ t n vs, K.foreign t n = true → Keeps t Alike (L.foreign n vs)

theorem specDecode_keeps {sch : Schema} {L : Lib} (hc : lossless K sch = true) (hL : LibKeeps K L) :
    ∀ (fuel : Nat) (t : Bool) (name : String) (args : List Val), K.own t name = true → Keeps t Alike (specDecode sch L fuel name args) := by
  intro fuel
  induction fuel with
  | zero => intro t name args _; exact .error _
  | succ fuel ih =>
    intro t name args hn
    cases hf : sch.find name with
    | none => exact Keeps.congr (fun bs => by simp only [specDecode, callDecl, hf]) (.error .ill)
    | some d =>
      have hd : keepDecl K t d = true := by
        have hm := List.all_eq_true.1 hc d (List.mem_of_find?_eq_some hf)
        have hdn : d.name = name := by simpa using List.find?_some hf
        simp only [hdn, Bool.and_eq_true, Bool.or_eq_true, Bool.not_eq_true'] at hm
        cases t with
        | false => exact hm.1.resolve_left (by simp [hn])
        | true => exact hm.2.resolve_left (by simp [hn])
      by_cases hl : d.params.length ≠ args.length
      · exact Keeps.congr (fun bs => by simp only [specDecode, callDecl, hf, if_pos hl]) (.error .ill)
      · exact Keeps.congr (fun bs => by simp only [specDecode, callDecl, hf, if_neg hl])
          (decDecl_keeps (X := ⟨L.oc, bindArgs d.params args, specDecode sch L fuel, L.foreign, L.xform⟩) ⟨ih, hL⟩ hd)

end Dec
end Verif
