import Verif.Lossless
import Verif.Props.RoundTrip
/-!
# Encoding what was decoded

`forthDecl` is a check of declarations, on top of that of `Lossless.lean`: no calculated fields, expressions over fields of the
container that are in scope in both functions, lengths that are small. `specEncode_forth`: the encoder makes of what the decoder read the bytes it read.

This is an analysis of schemas that the theorems of `Props/Forth` use as a hypothesis, not code of `/repo`.
-/
namespace Verif.Forth
open Verif Verif.Enc Verif.Props Verif.RT
open Verif.Dec (Keeps Alike Lossless ExtKeeps keepLeaf keepItems keepArm keepDecl lossless reprDistinct eats res_bind_inv)

/-- `x` has a result, and `P` holds of it. If `loose`, `x` may fail instead. -/
def Gives {α} (loose : Bool) (x : Res α) (P : α → Prop) : Prop :=
  match x with
  | .ok a => P a
  | .error _ => loose = true

section
variable {α β : Type} {l : Bool} {x : Res α} {P : α → Prop}

theorem Gives.bind {f : α → Res β} {Q : β → Prop} (hx : Gives l x P) (h : ∀ a, P a → Gives l (f a) Q) : Gives l (x >>= f) Q := by
  cases x with
  | ok a => exact h a hx
  | error e => exact hx

theorem Gives.mono {Q : α → Prop} (hx : Gives l x P) (h : ∀ a, P a → Q a) : Gives l x Q := by
  cases x with
  | ok a => exact h a hx
  | error e => exact hx

theorem Gives.eq_ok {a : α} (h : Gives false x (· = a)) : x = .ok a := by
  cases x with
  | ok b => exact congrArg _ h
  | error e => cases h

end

/-- The encoder `g` makes the bytes that the decoder `f` read of what `f` made of them. If `t`, provided that other bytes follow. -/
def Back {α} (l t : Bool) (f : Bytes → Res (α × Bytes)) (g : α → Res Bytes) : Prop :=
  ∀ bs a r, f bs = .ok (a, r) → (t = true → r ≠ []) → ∃ w, bs = w ++ r ∧ Gives l (g a) (· = w)

/-! ## Single items -/

theorem encPrim_primOfBytes {p : Prim} (hp : p ≠ .bool) {raw : Bytes} (h : raw.length = p.size) : encPrim p (primOfBytes p raw) = .ok raw := by
  cases p with
  | bool => exact absurd rfl hp
  | f32 =>
    have : leBytes 4 (leNat raw.reverse) = raw.reverse := by
      have e := leBytes_leNat raw.reverse
      rw [List.length_reverse, h] at e
      exact e
    simp [primOfBytes, encPrim, numBytes, this]
  | f64 =>
    have : leBytes 8 (leNat raw.reverse) = raw.reverse := by
      have e := leBytes_leNat raw.reverse
      rw [List.length_reverse, h] at e
      exact e
    simp [primOfBytes, encPrim, numBytes, this]
  | scalar s =>
    simp only [primOfBytes, encPrim, numBytes]
    rw [intBytes_bytesInt s raw h]

theorem encRepr_ofRepr {t : ReprTy} (ht : reprDistinct t = true) {raw : Bytes} (h : raw.length = t.rep.scalar.size) {v : Val}
    (hv : ofRepr t (bytesInt t.rep raw) = .ok v) : encRepr t v = .ok raw := by
  cases t with
  | enum n d =>
    simp only [reprDistinct, decide_eq_true_eq] at ht
    simp only [ofRepr] at hv
    cases hx : d.fromRepr (bytesInt (ReprTy.enum n d).rep raw) with
    | none => rw [hx] at hv; cases hv
    | some e =>
      rw [hx] at hv
      cases hv
      have := enum_from_then_to d ht _ e hx
      simp only [encRepr, reprOf, if_true, this, ok_bind]
      rw [intBytes_bytesInt _ raw h]
  | bitfield n d =>
    simp only [ofRepr, BitfieldDecl.fromRepr] at hv
    split at hv
    · rename_i w hx
      split at hx
      · cases hx
      · cases hx
        cases hv
        simp only [encRepr, reprOf, if_true, ok_bind]
        rw [intBytes_bytesInt _ raw h]
    · cases hv

theorem readExact_cut {n : Nat} {bs raw r : Bytes} (h : readExact n bs = .ok (raw, r)) : bs = raw ++ r ∧ raw.length = n := by
  unfold readExact at h
  split at h
  · cases h
  · rename_i hl
    cases h
    exact ⟨(List.take_append_drop n bs).symm, by rw [List.length_take]; omega⟩

theorem prim_forth {l t : Bool} {p : Prim} (hp : p ≠ .bool) : Back l t (decPrim p) (encPrim p) := by
  intro bs a r h _
  obtain ⟨⟨raw, r'⟩, h1, h⟩ := res_bind_inv h
  cases h
  obtain ⟨h2, h3⟩ := readExact_cut h1
  exact ⟨raw, h2, by rw [encPrim_primOfBytes hp h3]; rfl⟩

theorem repr_forth {l t : Bool} {r : ReprTy} (hr : reprDistinct r = true) : Back l t (decRepr r) (encRepr r) := by
  intro bs a r' h _
  obtain ⟨⟨raw, r''⟩, h1, h⟩ := res_bind_inv h
  obtain ⟨v, h2, h⟩ := res_bind_inv h
  cases h
  obtain ⟨h3, h4⟩ := readExact_cut h1
  exact ⟨raw, h3, by rw [encRepr_ofRepr hr h4 h2]; rfl⟩

/-! ## Arrays -/

theorem concat_chunks {f : Val → Res Bytes} {g : Bytes → Res Val} {size : Nat} (hfg : ∀ raw v, raw.length = size → g raw = .ok v → f v = .ok raw) :
    ∀ {cs : List Bytes} {vs : List Val}, (∀ c ∈ cs, c.length = size) → cs.mapM g = .ok vs → concatM f vs = .ok cs.flatten ∧ vs.length = cs.length
  | [], vs, _, h => by cases h; exact ⟨rfl, rfl⟩
  | c :: cs, vs, hl, h => by
    simp only [List.mapM_cons] at h
    obtain ⟨x, hx, h⟩ := res_bind_inv h
    obtain ⟨xs, hxs, h⟩ := res_bind_inv h
    cases h
    obtain ⟨h1, h2⟩ := concat_chunks hfg (fun d hd => hl d (by simp [hd])) hxs
    refine ⟨?_, by simp [h2]⟩
    simp only [concatM, hfg c x (hl c (by simp)) hx, h1, ok_bind, List.flatten_cons]

theorem chunksN_len (size : Nat) : ∀ (k : Nat) (b : Bytes), (chunksN size k b).length = k
  | 0, _ => rfl
  | k + 1, b => by simp [chunksN, chunksN_len size k]

/-- Arrays of items of one size. -/
theorem items_of_size {oc : Bool} {size : Nat} (hs : 0 < size) (hd : size ∣ 2 ^ 64) {g : Bytes → Res Val} {f : Val → Res Bytes}
    (hfg : ∀ raw v, raw.length = size → g raw = .ok v → f v = .ok raw) {n : Option Nat} (hn : n.isSome = true ∨ size = 1)
    {bs : Bytes} {raw r : Bytes} (h : readItems oc size n bs = .ok (raw, r)) {vs : List Val} (hv : (chunksExact size raw).mapM g = .ok vs) :
    bs = raw ++ r ∧ concatM f vs = .ok raw ∧ ∀ k, n = some k → (oc = true ∨ k * size < 2 ^ 64) → k = vs.length := by
  have hdv : size ∣ raw.length ∧ bs = raw ++ r ∧ ∀ k, n = some k → (oc = true ∨ k * size < 2 ^ 64) → raw.length = k * size := by
    cases n with
    | some k =>
      simp only [readItems] at h
      obtain ⟨total, h1, h⟩ := res_bind_inv h
      obtain ⟨_, _, h⟩ := res_bind_inv h
      obtain ⟨h2, h3⟩ := readExact_cut h
      refine ⟨by rw [h3]; exact Dec.usizeMul_dvd hd h1, h2, ?_⟩
      rintro k' ⟨⟩ ho
      rw [h3]
      unfold usizeMul at h1
      split at h1
      · cases h1; rfl
      · rcases ho with rfl | ho
        · cases h1
        · rename_i hc; exact absurd ho hc
    | none =>
      have h1 : size = 1 := by simpa using hn
      subst h1
      cases h
      exact ⟨Nat.one_dvd _, by simp, fun k h => by cases h⟩
  obtain ⟨h1, h2, h3⟩ := hdv
  have e1 : raw.length = raw.length / size * size := (Nat.div_mul_cancel h1).symm
  obtain ⟨c1, c2⟩ := concat_chunks hfg (Dec.chunksN_lengths size _ _ e1) hv
  rw [Dec.chunksN_flatten size _ _ e1] at c1
  refine ⟨h2, c1, fun k hk ho => ?_⟩
  rw [c2, chunksN_len, h3 k hk ho, Nat.mul_div_cancel _ hs]

theorem byteOf_prim (en : Endian) (b : UInt8) : Val.byteOf (primOfBytes (.scalar ⟨.u8, en⟩) [b]) = some b := by
  have h : intBytes ⟨.u8, .big⟩ (bytesInt ⟨.u8, .big⟩ [b]) = [b] := intBytes_bytesInt ⟨.u8, .big⟩ [b] rfl
  have hr := bytesInt_inRange ⟨.u8, .big⟩ [b]
  have h0 : 0 ≤ bytesInt ⟨.u8, .big⟩ [b] := hr.1
  have h1 : bytesInt ⟨.u8, .big⟩ [b] ≤ 255 := hr.2
  have he : primOfBytes (.scalar ⟨.u8, en⟩) [b] = .int ⟨.u8, bytesInt ⟨.u8, .big⟩ [b]⟩ := by cases en <;> rfl
  rw [he]
  have e : ((bytesInt ⟨.u8, .big⟩ [b]).toNat : Int) = bytesInt ⟨.u8, .big⟩ [b] := Int.toNat_of_nonneg h0
  rw [← e, intBytes_u8 _ (by omega)] at h
  simp only [Val.byteOf]
  simpa using h

theorem toBytes_chunks {en : Endian} : ∀ {cs : List Bytes}, (∀ c ∈ cs, c.length = 1) →
    (Val.arr (cs.map (primOfBytes (.scalar ⟨.u8, en⟩)))).toBytes = some cs.flatten
  | [], _ => rfl
  | c :: cs, h => by
    have ih := toBytes_chunks (en := en) (fun d hd => h d (List.mem_cons_of_mem c hd))
    obtain ⟨b, rfl⟩ := List.length_eq_one_iff.1 (h c (by simp))
    simp only [Val.toBytes] at ih ⊢
    simp only [List.map_cons, List.mapM_cons, byteOf_prim, ih]
    rfl

theorem count_gives {l : Bool} {n : Option Nat} {vs : List Val} {x : Res Bytes} {w : Bytes} (hx : x = .ok w)
    (h : ∀ k, n = some k → l = true ∨ k = vs.length) : Gives l (checkCount n vs >>= fun _ => x) (· = w) := by
  subst hx
  cases n with
  | none => rfl
  | some k =>
    unfold checkCount
    by_cases hk : k = vs.length
    · simp only [if_pos hk]; rfl
    · simp only [if_neg hk]
      exact (h k rfl).resolve_right hk

theorem primArray_forth {l t oc : Bool} {p : Prim} {n : Option Nat} (hn : n.isSome = true ∨ p.size = 1)
    (hc : ∀ k, n = some k → l = true ∨ oc = true ∨ k * p.size < 2 ^ 64) : Back l t (decPrimArray oc p n) (encPrimArray p n) := by
  intro bs a r h _
  unfold decPrimArray at h
  split at h
  · cases h
  · rename_i hb
    obtain ⟨⟨raw, r'⟩, h1, h⟩ := res_bind_inv h
    cases h
    have hm : (chunksExact p.size raw).mapM (fun c => (.ok (primOfBytes p c) : Res Val)) = .ok ((chunksExact p.size raw).map (primOfBytes p)) :=
      mapM_pure _ _
    obtain ⟨h2, h3, h4⟩ := items_of_size (prim_size_pos p) (Dec.prim_size_dvd p) (f := encPrim p)
      (fun c v hl hv => by cases hv; exact encPrim_primOfBytes hb hl) hn h1 hm
    have h5 : ∀ k, n = some k → l = true ∨ k = ((chunksExact p.size raw).map (primOfBytes p)).length := fun k hk =>
      (hc k hk).imp id (h4 k hk)
    refine ⟨raw, h2, ?_⟩
    unfold encPrimArray
    split
    · exact absurd rfl hb
    · rename_i en
      simp only [elems, ok_bind]
      refine count_gives ?_ h5
      have e1 : raw.length = raw.length / 1 * 1 := by simp
      have := toBytes_chunks (en := en) (Dec.chunksN_lengths 1 _ _ e1)
      rw [Dec.chunksN_flatten 1 _ _ e1] at this
      exact congrArg optRes this
    · simp only [elems, ok_bind]
      exact count_gives h3 h5

theorem reprArray_forth {l t oc : Bool} {rt : ReprTy} (hd : reprDistinct rt = true) {n : Option Nat} (hn : n.isSome = true ∨ rt.rep.scalar.size = 1)
    (hc : ∀ k, n = some k → l = true ∨ oc = true ∨ k * rt.rep.scalar.size < 2 ^ 64) :
    Back l t (decReprArray oc rt n) (encReprArray rt n) := by
  intro bs a r h _
  unfold decReprArray at h
  obtain ⟨⟨raw, r'⟩, h1, h⟩ := res_bind_inv h
  obtain ⟨vs, hm, h⟩ := res_bind_inv h
  cases h
  obtain ⟨h2, h3, h4⟩ := items_of_size (scalar_size_pos _) (Dec.size_dvd _) (f := encRepr rt)
    (fun c v hl hv => encRepr_ofRepr hd hl hv) hn h1 hm
  refine ⟨raw, h2, ?_⟩
  simp only [encReprArray, elems, ok_bind]
  exact count_gives h3 fun k hk => (hc k hk).imp id (h4 k hk)

/-- Items one after the other. `vs` is what is left of the array after the items `pre`. -/
theorem encN_concat {f : Val → Res Bytes} : ∀ (vs pre : List Val), encN f (.arr (pre ++ vs)) pre.length vs.length = concatM f vs
  | [], pre => rfl
  | v :: vs, pre => by
    have hi : itemOf (.arr (pre ++ v :: vs)) pre.length = .ok v := by simp [itemOf]
    have ih := encN_concat (f := f) vs (pre ++ [v])
    simp only [List.append_assoc, List.singleton_append, List.length_append, List.length_singleton] at ih
    simp only [List.length_cons, encN, hi, ok_bind, ih, concatM]

theorem encN_all {f : Val → Res Bytes} (vs : List Val) : encN f (.arr vs) 0 vs.length = concatM f vs := encN_concat vs []

section
variable {l : Bool} {f : Bytes → Res (Val × Bytes)} {g : Val → Res Bytes}

theorem concat_cons {x : Val} {xs : List Val} {w u : Bytes} (hx : Gives l (g x) (· = w)) (hxs : Gives l (concatM g xs) (· = u)) :
    Gives l (concatM g (x :: xs)) (· = w ++ u) := by
  unfold concatM
  exact hx.bind fun a ha => hxs.bind fun b hb => by subst ha; subst hb; rfl

theorem decN_forth {t : Bool} (hf : Back l t f g) (hk : Keeps t Alike f) : ∀ (n : Nat) {bs : Bytes} {vs : List Val} {r : Bytes},
    Dec.decN f n bs = .ok (vs, r) → (t = true → r ≠ []) → vs.length = n ∧ ∃ w, bs = w ++ r ∧ Gives l (concatM g vs) (· = w)
  | 0, bs, vs, r, h, _ => by cases h; exact ⟨rfl, [], rfl, rfl⟩
  | n + 1, bs, vs, r, h, ht => by
    obtain ⟨⟨x, s⟩, hx, h⟩ := res_bind_inv h
    obtain ⟨⟨xs, s'⟩, hxs, h⟩ := res_bind_inv h
    cases h
    obtain ⟨hl, u, hu, h2⟩ := decN_forth hf hk n hxs ht
    subst hu
    obtain ⟨w, rfl, h1⟩ := hf _ _ _ hx (fun h => by have := ht h; simp [this])
    exact ⟨by simp [hl], w ++ u, by simp, concat_cons h1 h2⟩

theorem decAll_forth (hf : Back l false f g) : ∀ (k : Nat) {bs : Bytes} {vs : List Val} {r : Bytes},
    Dec.decAll f k bs = .ok (vs, r) → r = [] ∧ Gives l (concatM g vs) (· = bs) := by
  intro k
  induction k with
  | zero =>
    intro bs vs r h
    unfold Dec.decAll at h
    split at h
    · rename_i e; cases h; exact ⟨e, by rw [e]; rfl⟩
    · cases h
  | succ k ih =>
    intro bs vs r h
    unfold Dec.decAll at h
    split at h
    · rename_i e; cases h; exact ⟨e, by rw [e]; rfl⟩
    · obtain ⟨⟨x, s⟩, hx, h⟩ := res_bind_inv h
      simp only at h
      split at h
      · obtain ⟨⟨xs, s'⟩, hxs, h⟩ := res_bind_inv h
        cases h
        obtain ⟨hr, h2⟩ := ih hxs
        obtain ⟨w, rfl, h1⟩ := hf _ _ _ hx (fun h => by cases h)
        exact ⟨hr, concat_cons h1 h2⟩
      · cases h

theorem decUntil_forth (hf : Back l true f g) {tb : Bytes} : ∀ (k : Nat) {bs : Bytes} {vs : List Val} {r : Bytes},
    Dec.decUntil f tb k bs = .ok (vs, r) → r ≠ [] → ∃ w, bs = w ++ tb ++ r ∧ Gives l (concatM g vs) (· = w) := by
  intro k
  induction k with
  | zero =>
    intro bs vs r h hr
    unfold Dec.decUntil at h
    split at h
    · rename_i e; cases h; exact absurd e hr
    · split at h
      · cases h
      · split at h
        · rename_i e
          cases h
          refine ⟨[], ?_, rfl⟩
          conv => lhs; rw [← List.take_append_drop tb.length bs, e]
          rfl
        · cases h
  | succ k ih =>
    intro bs vs r h hr
    unfold Dec.decUntil at h
    split at h
    · rename_i e; cases h; exact absurd e hr
    · split at h
      · cases h
      · split at h
        · rename_i e
          cases h
          refine ⟨[], ?_, rfl⟩
          conv => lhs; rw [← List.take_append_drop tb.length bs, e]
          rfl
        · obtain ⟨⟨x, s⟩, hx, h⟩ := res_bind_inv h
          simp only at h
          split at h
          · obtain ⟨⟨xs, s'⟩, hxs, h⟩ := res_bind_inv h
            cases h
            obtain ⟨u, hu, h2⟩ := ih hxs hr
            subst hu
            obtain ⟨w, rfl, h1⟩ := hf _ _ _ hx (fun _ => by simp [hr])
            exact ⟨w ++ u, by simp, concat_cons h1 h2⟩
          · cases h

end

/-! ## The check -/

/-- Lengths of arrays: without overflow checks, the product with the size of an element must not overflow. -/
def forthLeaf (l oc : Bool) : LTy → Bool
  | .prim _ => true
  | .ref _ _ _ _ => true
  | .array el (.fixed _) =>
    match el.resolved with
    | .prim p => l || oc || decide (p.size = 1)
    | .repr r => l || oc || decide (r.rep.scalar.size = 1)
    | .other => forthLeaf l oc el
  | .array el _ => forthLeaf l oc el

/-- The expressions refer to these fields only. -/
def within (sc : List String) (es : List Expr) : Bool := es.all fun e => e.refs.all (· ∈ sc)

theorem within_in {sc : List String} {es : List Expr} (h : within sc es = true) : In (· ∈ sc) es := by
  intro e he n hn
  have := List.all_eq_true.1 (List.all_eq_true.1 h e he) n hn
  simpa using this

/-- The world around encoder and decoder. -/
structure Tied (K : Lossless) (l : Bool) (XD : Dec.Ext) (XE : Ext) : Prop where
  oc : XE.oc = XD.oc
  input : XE.input = XD.input
  keeps : ExtKeeps K XD
  call : ∀ t n vs, K.own t n = true → Back l t (XD.call n vs) (XE.call n vs)
  foreign : ∀ t n vs, K.foreign t n = true → Back l t (XD.foreign n vs) (XE.foreign n vs)

section
variable {K : Lossless} {l : Bool} {XD : Dec.Ext} {XE : Ext}

theorem ev_forth (hX : Tied K l XD XE) {S : String → Prop} {env : Dec.Env} {σ : Env} (hs : Enc.Sub S env σ) {e : Expr} (he : ∀ n ∈ e.refs, S n) :
    OkLe (Dec.ev XD env e) (ev XE σ e) := by
  unfold ev Dec.ev runE
  rw [hX.oc, hX.input]
  exact evalE_mono_on (lk := ⟨env, XD.input⟩) (lk' := ⟨σ, XD.input⟩) e (fun n hn v hv => hs n (he n hn) v hv) (fun _ _ h => h)

theorem args_forth (hX : Tied K l XD XE) {S : String → Prop} {env : Dec.Env} {σ : Env} (hs : Enc.Sub S env σ) {es : List Expr} (he : In S es) :
    OkLe (es.mapM (Dec.ev XD env)) (es.mapM (ev XE σ)) :=
  OkLe.mapM es fun e h => ev_forth hX hs (he e h)

theorem asUsize_lt {v : Val} {n : Nat} (h : asUsize v = .ok n) : n < 2 ^ 64 := by
  obtain ⟨i, _, h⟩ := res_bind_inv h
  cases h
  have : Scalar.u64.wrap i.val = i.val % 2 ^ 64 := rfl
  rw [this]
  omega

theorem count_small {oc : Bool} {n size k : Nat} (hn : n < 2 ^ 64) (h : (l || oc || decide (size = 1)) = true) (hk : some n = some k) :
    l = true ∨ oc = true ∨ k * size < 2 ^ 64 := by
  cases hk
  simp only [Bool.or_eq_true, decide_eq_true_eq] at h
  rcases h with (h | h) | h
  · exact .inl h
  · exact .inr (.inl h)
  · subst h; exact .inr (.inr (by omega))

theorem leaf_forth (hX : Tied K l XD XE) {S : String → Prop} {env : Dec.Env} {σ : Env} (hs : Enc.Sub S env σ) : ∀ (t : Bool) (ty : LTy),
    keepLeaf K t ty = true → forthLeaf l XD.oc ty = true → In S (LTy.exprs ty) → Back l t (Dec.decLeaf XD env ty) (encLeaf XE σ ty)
  | t, .prim p, hk, _, _ => by
    simp only [keepLeaf, decide_eq_true_eq] at hk
    intro bs a r h
    simp only [Dec.decLeaf] at h
    simpa only [encLeaf] using prim_forth hk bs a r h
  | t, .ref n foreign res args, hk, _, hi => by
    intro bs a r h ht
    simp only [Dec.decLeaf] at h
    obtain ⟨vs, hv, h⟩ := res_bind_inv h
    have he : args.mapM (ev XE σ) = .ok vs := args_forth hX hs (es := args) hi vs hv
    simp only [encLeaf, he, ok_bind]
    simp only [keepLeaf] at hk
    cases foreign with
    | true => exact hX.foreign t n vs hk bs a r h ht
    | false => exact hX.call t n vs hk bs a r h ht
  | t, .array el (.fixed e), hk, hl, hi => by
    intro bs a r h ht
    simp only [Dec.decLeaf] at h
    obtain ⟨v, hv, h⟩ := res_bind_inv h
    simp only [encLeaf, ev_forth hX hs (e := e) (hi e (by simp [LTy.exprs])) v hv, ok_bind]
    simp only [keepLeaf] at hk
    simp only [forthLeaf] at hl
    cases hr : el.resolved with
    | prim p =>
      simp only [hr] at h hl
      obtain ⟨n, hn, h⟩ := res_bind_inv h
      simp only [hn, ok_bind]
      exact primArray_forth (.inl rfl) (fun k hk => count_small (asUsize_lt hn) hl hk) bs a r h ht
    | repr rt =>
      simp only [hr] at h hl hk
      obtain ⟨n, hn, h⟩ := res_bind_inv h
      simp only [hn, ok_bind]
      exact reprArray_forth hk (.inl rfl) (fun k hk => count_small (asUsize_lt hn) hl hk) bs a r h ht
    | other =>
      simp only [hr] at h hl hk
      obtain ⟨n, hn, h⟩ := res_bind_inv h
      obtain ⟨⟨vs, r'⟩, hd, h⟩ := res_bind_inv h
      cases h
      obtain ⟨h1, h2⟩ := decN_forth (leaf_forth hX hs t el hk hl fun e he => hi e (by simp [LTy.exprs, he])) (Dec.decLeaf_keeps hX.keeps env t el hk)
        n hd ht
      have hc : rangeCount v = .ok n := by
        obtain ⟨i, hi, hn⟩ := res_bind_inv hn
        simp only [rangeCount, hi, ok_bind]
        split at hn
        · cases hn
        · exact hn
      simp only [hc, ok_bind, ← h1, encN_all]
      exact h2
  | t, .array el .unbounded, hk, hl, hi => by
    intro bs a r h ht
    simp only [Dec.decLeaf] at h
    simp only [encLeaf]
    simp only [keepLeaf] at hk
    simp only [forthLeaf] at hl
    cases hr : el.resolved with
    | prim p =>
      simp only [hr, decide_eq_true_eq] at h hk
      exact primArray_forth (.inr hk) (fun k hk => by cases hk) bs a r h ht
    | repr rt =>
      simp only [hr, Bool.and_eq_true, decide_eq_true_eq] at h hk
      exact reprArray_forth hk.1 (.inr hk.2) (fun k hk => by cases hk) bs a r h ht
    | other =>
      simp only [hr] at h hk
      obtain ⟨⟨vs, r'⟩, hd, h⟩ := res_bind_inv h
      cases h
      obtain ⟨-, h2⟩ := decAll_forth (leaf_forth hX hs false el hk hl fun e he => hi e (by simp [LTy.exprs, he])) _ hd
      simp only [rtLen, ok_bind, encN_all]
      exact ⟨bs, by simp, h2⟩
  | t, .array el (.term e), hk, hl, hi => by
    intro bs a r h ht
    simp only [Dec.decLeaf] at h
    obtain ⟨v, hv, h⟩ := res_bind_inv h
    obtain ⟨tb, htb, h⟩ := res_bind_inv h
    obtain ⟨⟨vs, r'⟩, hd, h⟩ := res_bind_inv h
    cases h
    simp only [keepLeaf, Bool.and_eq_true] at hk
    simp only [forthLeaf] at hl
    obtain ⟨rfl, hk⟩ := hk
    obtain ⟨w, h1, h2⟩ := decUntil_forth (leaf_forth hX hs true el hk hl fun e he => hi e (by simp [LTy.exprs, he])) _ hd (ht rfl)
    refine ⟨w ++ tb, h1, ?_⟩
    simp only [encLeaf, ev_forth hX hs (e := e) (hi e (by simp [LTy.exprs])) v hv, ok_bind, rtLen, encN_all]
    refine h2.bind fun a ha => ?_
    have : encPrimArray (.scalar ⟨.u8, .big⟩) none v = .ok tb := by
      cases v with
      | arr xs => simp only [encPrimArray, elems, checkCount, ok_bind, htb]
      | _ => cases htb
    simp only [this, ok_bind]
    subst ha
    rfl

/-! ## Lengths of containers -/

/-- No number from `2 ^ 32` on. -/
def Small (v : Val) : Prop := ∀ i, v = .int i → 0 ≤ i.val ∧ i.val < 2 ^ 32

/-- An expression with such a value, if the fields `sm` have one. -/
def smallExpr (sm : List String) : Expr → Bool
  | .int i => decide (0 ≤ i.val ∧ i.val < 2 ^ 32)
  | .fieldRef n => decide (n ∈ sm)
  | .cast src e (.scalar k) => decide (k ∈ [.u8, .u16, .u32]) || (decide (k = .u64) && decide (src = .plain) && smallExpr sm e)
  | _ => false

/-- A field of a small type that is always there. -/
def smallField (a : FAttr) : LTy → List String
  | .prim (.scalar s) => if a.cond.isNone && decide (s.scalar ∈ [.u8, .u16, .u32]) then [a.name] else []
  | _ => []

def smallLen (sm : List String) : Option Expr → Bool
  | none => true
  | some e => smallExpr sm e

theorem smallExpr_small {oc : Bool} {lk : Look} {sm : List String} (hs : ∀ n ∈ sm, ∀ v, lk.field n = some v → Small v) : ∀ {e : Expr} {v : Val},
    smallExpr sm e = true → runE oc lk e = .ok v → Small v
  | .int i, v, h, hv => by
    simp only [smallExpr, decide_eq_true_eq] at h
    cases hv
    rintro j ⟨⟩
    exact h
  | .fieldRef n, v, h, hv => by
    simp only [smallExpr, decide_eq_true_eq] at h
    simp only [evalE, optRes_ok] at hv
    exact hs n h v hv
  | .cast src e (.scalar k), v, h, hv => by
    simp only [smallExpr, Bool.or_eq_true, Bool.and_eq_true, decide_eq_true_eq] at h
    simp only [evalE] at hv
    obtain ⟨x, hx, hv⟩ := res_bind_inv hv
    obtain ⟨i, hi, hv⟩ := res_bind_inv hv
    cases hv
    rintro j ⟨⟩
    rcases h with h | ⟨⟨rfl, rfl⟩, h⟩
    · have : k.InRange (k.wrap i.val) := Scalar.wrap_inRange k i.val
      simp only [List.mem_cons, List.not_mem_nil, or_false] at h
      rcases h with rfl | rfl | rfl
      · have h0 := this.1; have h1 := this.2
        change _ ≤ (255 : Int) at h1
        exact ⟨h0, by simp only [CInt.castTo]; omega⟩
      · have h0 := this.1; have h1 := this.2
        change _ ≤ (65535 : Int) at h1
        exact ⟨h0, by simp only [CInt.castTo]; omega⟩
      · have h0 := this.1; have h1 := this.2
        change _ ≤ (4294967295 : Int) at h1
        exact ⟨h0, by simp only [CInt.castTo]; omega⟩
    · have hx' := smallExpr_small hs h hx
      cases x with
      | int i' =>
        cases hi
        obtain ⟨h0, h1⟩ := hx' _ rfl
        have : (CInt.castTo i .u64).val = i.val % 2 ^ 64 := rfl
        rw [this]
        omega
      | _ => cases hi

theorem limited_forth {α} (hX : Tied K l XD XE) {S : String → Prop} {env : Dec.Env} {σ : Env} (hs : Enc.Sub S env σ) {sm : List String}
    (hsm : ∀ n ∈ sm, ∀ v, env n = some v → Small v) {len : Option Expr} (hi : In S len.toList) (hl : (l || smallLen sm len) = true)
    (name : String) {k : Bytes → Res (α × Bytes)} {bs : Bytes} {a : α} {r : Bytes} (h : Dec.decLimited XD env len bs k = .ok (a, r)) :
    ∃ bs' r', k bs' = .ok (a, r') ∧ (∀ w, bs' = w ++ r' → bs = w ++ r) ∧ (len = none → r' = r) ∧
      Gives l (checkCapacity XE σ name len .init) fun _ => True := by
  cases len with
  | none => exact ⟨bs, r, h, fun _ h => h, fun _ => rfl, trivial⟩
  | some e =>
    simp only [Dec.decLimited] at h
    obtain ⟨v, hv, h⟩ := res_bind_inv h
    obtain ⟨n, hn, h⟩ := res_bind_inv h
    obtain ⟨⟨a', r'⟩, hk, h⟩ := res_bind_inv h
    cases h
    refine ⟨bs.take n, r', hk, fun w hw => ?_, (fun h => by cases h), ?_⟩
    · rw [← List.append_assoc, ← hw, List.take_append_drop]
    · have hp : ¬ name ∈ Plan.init.pending := by simp [Plan.init]
      simp only [checkCapacity, if_neg hp, ev_forth hX hs (e := e) (hi e (by simp)) v hv, hn, ok_bind]
      by_cases hb : 2 ^ 63 ≤ n
      · rw [if_pos hb]
        cases l with
        | true => rfl
        | false =>
          exfalso
          have hsm' : Small v := smallExpr_small (lk := ⟨env, XD.input⟩) hsm (by simpa [smallLen] using hl) hv
          obtain ⟨i, hi, hn⟩ := res_bind_inv hn
          cases hn
          cases v with
          | int j =>
            cases hi
            obtain ⟨h0, h1⟩ := hsm' _ rfl
            have : Scalar.u64.wrap i.val = i.val % 2 ^ 64 := rfl
            rw [this] at hb
            omega
          | _ => cases hi
      · rw [if_neg hb]; trivial

/-! ## Items -/

/-- No paddings, no calculated fields, no conditions inside a container with a condition; expressions over fields that can be seen by encoder and
decoder; small lengths. `sc`: the fields that can be seen, `sm`: those with small values. -/
def forthItems (l oc : Bool) (c : Bool) : Fields → List String → List String → Bool
  | .nil, _, _ => true
  | .pad _ _ _, _, _ => false
  | .leaf a ty rest, sc, sm =>
    a.auto.isNone && (a.cond.isNone || !c) && within sc (a.cond.toList ++ LTy.exprs ty) && forthLeaf l oc ty &&
      forthItems l oc c rest (a.name :: sc) (smallField a ty ++ sm)
  | .cont a len items rest, sc, sm =>
    (a.cond.isNone || !c) && within sc (a.cond.toList ++ len.toList) && (l || smallLen sm len) &&
      forthItems l oc (a.cond.isSome || c) items sc sm &&
      forthItems l oc c rest (if a.cond.isSome then sc else visible anyField items ++ sc) sm

theorem forth_no_autos {oc : Bool} : ∀ {fs : Fields} {c : Bool} {sc sm : List String}, forthItems l oc c fs sc sm = true →
    ∀ a ∈ fs.leaves, a.auto = none
  | .nil, _, _, _, _, a, ha => by cases ha
  | .pad _ _ _, _, _, _, h, _, _ => by cases h
  | .leaf b ty rest, c, sc, sm, h, a, ha => by
    simp only [forthItems, Bool.and_eq_true, Option.isNone_iff_eq_none] at h
    simp only [Fields.leaves, List.mem_cons] at ha
    rcases ha with rfl | ha
    · exact h.1.1.1.1
    · exact forth_no_autos h.2 a ha
  | .cont b len items rest, c, sc, sm, h, a, ha => by
    simp only [forthItems, Bool.and_eq_true] at h
    simp only [Fields.leaves, List.mem_append] at ha
    exact ha.elim (forth_no_autos h.1.2 a) (forth_no_autos h.2 a)

theorem forth_plan {oc : Bool} : ∀ {fs : Fields} {c : Bool} {sc sm : List String}, forthItems l oc c fs sc sm = true → planItems fs .init = .init
  | .nil, _, _, _, _ => rfl
  | .pad _ _ _, _, _, _, h => by cases h
  | .leaf b ty rest, c, sc, sm, h => by
    simp only [forthItems, Bool.and_eq_true, Option.isNone_iff_eq_none] at h
    have hb : FAttr.blens b = [] := by simp [FAttr.blens, h.1.1.1.1]
    simp only [planItems, hb, List.isEmpty_nil, Bool.true_or, if_true]
    exact forth_plan h.2
  | .cont b len items rest, c, sc, sm, h => by
    simp only [forthItems, Bool.and_eq_true] at h
    have : (Plan.init).close b.name len = .init := by simp [Plan.close, Plan.init]
    simp only [planItems, forth_plan h.1.2, this]
    exact forth_plan h.2

/-- Inside a container with a condition no field has one. -/
theorem forth_plain {oc : Bool} : ∀ {fs : Fields} {sc sm : List String}, forthItems l oc true fs sc sm = true → Enc.plainNames fs = fs.names
  | .nil, _, _, _ => rfl
  | .pad _ _ _, _, _, h => by cases h
  | .leaf b ty rest, sc, sm, h => by
    simp only [forthItems, Bool.and_eq_true, Option.isNone_iff_eq_none, Bool.not_true, Bool.or_false] at h
    have h1 := h.1.1.1.1
    have h2 := h.1.1.1.2
    simp only [Enc.plainNames, h1, h2, Option.isSome_none, Bool.or_self, Bool.false_eq_true, if_false, names_leaf, forth_plain h.2]
    rfl
  | .cont b len items rest, sc, sm, h => by
    simp only [forthItems, Bool.and_eq_true, Option.isNone_iff_eq_none, Bool.not_true, Bool.or_false, Bool.or_true] at h
    have h2 := h.1.1.1.1
    simp only [Enc.plainNames, h2, Option.isSome_none, Bool.false_eq_true, if_false, names_cont, forth_plain h.2, forth_plain h.1.2]

theorem setNames_sub {n : String} : ∀ {fs : Fields} {c : Bool}, n ∈ setNames c fs → n ∈ fs.names
  | .nil, _, h => h
  | .pad _ _ r, c, h => setNames_sub (fs := r) h
  | .leaf a _ r, c, h => by
    simp only [setNames, List.mem_append] at h
    simp only [names_leaf, List.mem_cons]
    rcases h with h | h
    · split at h
      · cases h
      · exact .inl (List.mem_singleton.1 h)
    · exact .inr (setNames_sub h)
  | .cont a _ i r, c, h => by
    simp only [setNames, List.mem_append] at h
    rw [names_cont, List.mem_append]
    rcases h with (h | h) | h
    · split at h
      · exact .inl (null_sub h)
      · cases h
    · exact .inl (setNames_sub h)
    · exact .inr (setNames_sub h)

theorem erase_out {items : Fields} {σ : Env} {n : String} (hn : n ∉ items.names) : erase (nullNames items ++ setNames true items) σ n = σ n := by
  unfold erase
  rw [if_neg]
  intro h
  exact hn ((List.mem_append.1 h).elim null_sub setNames_sub)

theorem encNulls_fwd : ∀ {ns : List String} {σ : Env}, ns.Nodup → (∀ n ∈ ns, ∃ w, σ n = some (.opt (some w))) → ∃ σ1, encNulls ns σ = .ok σ1
  | [], σ, _, _ => ⟨σ, rfl⟩
  | n :: ns, σ, hd, h => by
    obtain ⟨w, hw⟩ := h n (by simp)
    rw [List.nodup_cons] at hd
    obtain ⟨σ1, h1⟩ := encNulls_fwd (σ := upd σ n (some w)) hd.2 (fun m hm => by
      rw [upd_ne _ _ (by rintro rfl; exact hd.1 hm)]
      exact h m (by simp [hm]))
    exact ⟨σ1, by simp only [encNulls, hw, optRes, nullCheck, ok_bind, h1]⟩

theorem enter_forth {c : Bool} {items : Fields} (hd : items.names.Nodup) (hpl : c = true → Enc.plainNames items = items.names)
    {σ : Env} {vs : List (String × Val)} (hn : vs.map (·.1) = items.names)
    (hv : ∀ q ∈ vs, σ q.1 = some (if c = true then .opt (some q.2) else q.2)) :
    ∃ σ1, enter c items σ = .ok σ1 ∧ (∀ n, n ∉ items.names → σ1 n = σ n) ∧
      ∀ q ∈ vs, σ1 q.1 = some (if c = true ∧ q.1 ∈ nested items then .opt (some q.2) else q.2) := by
  cases c with
  | false => exact ⟨σ, rfl, fun _ _ => rfl, fun q hq => by simpa using hv q hq⟩
  | true =>
    have hpl := hpl rfl
    simp only [if_true] at hv
    obtain ⟨σ1, h1⟩ := encNulls_fwd (σ := σ) (null_nodup hd) (fun n h => by
      have : n ∈ vs.map (·.1) := by rw [hn]; exact null_sub h
      obtain ⟨q, hq, rfl⟩ := List.mem_map.1 this
      exact ⟨_, hv q hq⟩)
    obtain ⟨h2, h3⟩ := encNulls_ok (null_nodup hd) h1
    refine ⟨σ1, h1, fun n h => h3 n fun h' => h (null_sub h'), fun q hq => ?_⟩
    have hm : q.1 ∈ items.names := by rw [← hn]; exact List.mem_map_of_mem hq
    rw [← hpl, mem_plain] at hm
    by_cases hnu : q.1 ∈ nullNames items
    · obtain ⟨w, hw, h⟩ := h2 _ hnu
      rw [hv q hq] at hw
      cases hw
      rw [h, if_neg (fun h => null_not_nested hd hnu h.2)]
    · rw [h3 _ hnu, hv q hq, if_pos ⟨rfl, hm.resolve_left hnu⟩]

theorem bindAll_some {n : String} {v : Val} : ∀ {vs : List (String × Val)} {env : Dec.Env}, Dec.Env.bindAll env vs n = some v →
    (∃ p ∈ vs, p.1 = n ∧ p.2 = v) ∨ (n ∉ vs.map (·.1) ∧ env n = some v)
  | [], env, h => .inr ⟨by simp, h⟩
  | p :: vs, env, h => by
    have h : Dec.Env.bindAll (upd env p.1 (some p.2)) vs n = some v := h
    rcases bindAll_some h with ⟨q, hq, h1, h2⟩ | ⟨h1, h2⟩
    · exact .inl ⟨q, by simp [hq], h1, h2⟩
    · by_cases hn : n = p.1
      · subst hn
        rw [upd_same] at h2
        exact .inl ⟨p, by simp, rfl, by simpa using h2⟩
      · rw [upd_ne _ _ hn] at h2
        exact .inr ⟨by simp [h1, hn], h2⟩

theorem gives_unit {x : Res Bytes} {w : Bytes} (h : Gives l x (· = w)) :
    Gives l (((do let bs ← x; .ok ((), bs)) : Res (Unit × Bytes)) >>= fun y => .ok y.2) (· = w) := by
  cases x <;> exact h

/-- A field. -/
theorem field_forth (hX : Tied K l XD XE) {S : String → Prop} {env : Dec.Env} {σ : Env} (hs : Enc.Sub S env σ) {t : Bool} {name : String} {cond : Option Expr}
    {ty : LTy} (hk : keepLeaf K t ty = true) (hl : forthLeaf l XD.oc ty = true) (hi : In S (cond.toList ++ LTy.exprs ty)) {bs : Bytes}
    {vs : List (String × Val)} {r : Bytes} (h : Dec.decCond XD env cond [name] bs (fun b => Dec.decLeaf XD env ty b >>= fun y =>
      .ok ([(name, y.1)], y.2)) = .ok (vs, r)) (ht : t = true → r ≠ []) :
    ∃ x w, vs = [(name, x)] ∧ bs = w ++ r ∧ Gives l (encField XE σ ⟨name, cond, [], none⟩ ty x) (· = w) := by
  have hb := leaf_forth hX hs t ty hk hl fun e he => hi e (by simp [he])
  cases cond with
  | none =>
    simp only [Dec.decCond] at h
    obtain ⟨⟨v, r'⟩, hd, h⟩ := res_bind_inv h
    cases h
    obtain ⟨w, h1, h2⟩ := hb _ _ _ hd ht
    refine ⟨v, w, rfl, h1, ?_⟩
    simp only [encField, encXforms, Option.isSome_none, Bool.false_and, Bool.false_eq_true, if_false, ok_bind]
    exact gives_unit h2
  | some e =>
    simp only [Dec.decCond] at h
    obtain ⟨c, hc, h⟩ := res_bind_inv h
    obtain ⟨b, hbo, h⟩ := res_bind_inv h
    have hc' := ev_forth hX hs (e := e) (hi e (by simp)) c hc
    cases b with
    | true =>
      simp only [if_true] at h
      obtain ⟨⟨ws, r'⟩, hd, h⟩ := res_bind_inv h
      cases h
      obtain ⟨⟨v, r''⟩, hd', h⟩ := res_bind_inv hd
      cases h
      obtain ⟨w, h1, h2⟩ := hb _ _ _ hd' ht
      refine ⟨.opt (some v), w, rfl, h1, ?_⟩
      simp only [encField, encXforms, hc', hbo, Option.isSome_some, Option.isNone_none, Bool.and_self, if_true, ok_bind, nullCheck]
      exact gives_unit h2
    | false =>
      simp only [Bool.false_eq_true, if_false] at h
      cases h
      refine ⟨.opt none, [], rfl, rfl, ?_⟩
      simp only [encField, hc', hbo, ok_bind, Bool.false_eq_true, if_false]
      rfl

theorem smallField_small {X : Dec.Ext} {env : Dec.Env} {a : FAttr} {ty : LTy} {bs : Bytes} {vs : List (String × Val)} {r : Bytes}
    (h : Dec.decCond X env a.cond [a.name] bs (fun b => Dec.decLeaf X env ty b >>= fun y => .ok ([(a.name, y.1)], y.2)) = .ok (vs, r))
    (hn : smallField a ty ≠ []) : ∀ p ∈ vs, Small p.2 := by
  cases ty with
  | prim p =>
    cases p with
    | scalar s =>
      simp only [smallField] at hn
      split at hn
      · rename_i hc
        simp only [Bool.and_eq_true, Option.isNone_iff_eq_none, decide_eq_true_eq] at hc
        rw [hc.1] at h
        simp only [Dec.decCond, Dec.decLeaf] at h
        obtain ⟨⟨v, r'⟩, hd, h⟩ := res_bind_inv h
        cases h
        obtain ⟨⟨raw, r''⟩, -, hd⟩ := res_bind_inv hd
        cases hd
        intro q hq
        rw [List.mem_singleton.1 hq]
        rintro i ⟨⟩
        have hr := bytesInt_inRange s raw
        obtain ⟨k, e⟩ := s
        have hk : k ∈ [Scalar.u8, .u16, .u32] := hc.2
        simp only [List.mem_cons, List.not_mem_nil, or_false] at hk
        rcases hk with rfl | rfl | rfl
        · have h0 := hr.1; have h1 := hr.2
          change _ ≤ (255 : Int) at h1
          exact ⟨h0, by simp only; omega⟩
        · have h0 := hr.1; have h1 := hr.2
          change _ ≤ (65535 : Int) at h1
          exact ⟨h0, by simp only; omega⟩
        · have h0 := hr.1; have h1 := hr.2
          change _ ≤ (4294967295 : Int) at h1
          exact ⟨h0, by simp only; omega⟩
      · exact absurd rfl hn
    | _ => exact absurd rfl hn
  | _ => exact absurd rfl hn

theorem smallField_name {a : FAttr} {ty : LTy} {n : String} (h : n ∈ smallField a ty) : n = a.name := by
  cases ty with
  | prim p =>
    cases p with
    | scalar s =>
      simp only [smallField] at h
      split at h
      · exact List.mem_singleton.1 h
      · cases h
    | _ => cases h
  | _ => cases h

theorem encItems_leaf {a : FAttr} (ha : a.auto = none) (ty : LTy) (rest : Fields) (c : Bool) (σ lens : Env) :
    encItems XE c (.leaf a ty rest) .init σ lens [] = (optRes (σ a.name) >>= fun v => encField XE σ a ty v >>= fun b =>
      encItems XE c rest .init σ lens [] >>= fun q => .ok (q.1, b ++ q.2)) := by
  have hb : FAttr.blens a = [] := by simp [FAttr.blens, ha]
  simp only [encItems, hb, List.isEmpty_nil, Bool.true_or, if_true, withBlen, ok_bind, put, encFlush, List.nil_append]

theorem encItems_cont {a : FAttr} (ha : a.xfs = []) (len : Option Expr) {items : Fields} (hp : planItems items .init = .init) (rest : Fields)
    (c : Bool) (σ lens : Env) :
    encItems XE c (.cont a len items rest) .init σ lens [] = (guarded XE σ a.cond (erase (nullNames items ++ setNames true items) σ, erase [] lens)
        (checkCapacity XE σ a.name len .init >>= fun _ => enter (a.cond.isSome || c) items σ >>= fun σ1 =>
          encItems XE (a.cond.isSome || c) items .init σ1 lens [] >>= fun q => .ok (q.1, q.2)) >>= fun q =>
      encItems XE c rest .init q.1.1 q.1.2 [] >>= fun q' => .ok (q'.1, q.2 ++ q'.2)) := by
  have hc : (Plan.init).close a.name len = .init := by simp [Plan.close, Plan.init]
  have hpe : ∀ n, decide (n ∈ Plan.init.pending) = false := fun n => by simp [Plan.init]
  have hlg : List.drop Plan.init.log.length Plan.init.log = [] := rfl
  simp only [encItems, hp, hc, ha, encXforms, hpe, Bool.and_false, Bool.false_eq_true, if_false, put, encFlush, ok_bind, hlg, List.nil_append]

theorem items_forth (hX : Tied K l XD XE) : ∀ (fs : Fields) {c t : Bool} {sc sm : List String} {env : Dec.Env} {σ lens : Env} {bs : Bytes}
    {vs : List (String × Val)} {r : Bytes}, keepItems K t fs = true → forthItems l XD.oc c fs sc sm = true → fs.names.Nodup →
    (∀ n ∈ sc, n ∉ fs.names) → (∀ n ∈ sm, n ∉ fs.names) → Enc.Sub (· ∈ sc) env σ → (∀ n ∈ sm, ∀ v, env n = some v → Small v) →
    Dec.decItems XD fs env bs = .ok (vs, r) → (t = true → r ≠ []) →
    (∀ p ∈ vs, σ p.1 = some (if c = true ∧ p.1 ∈ nested fs then .opt (some p.2) else p.2)) →
    ∃ w, bs = w ++ r ∧ Gives l (encItems XE c fs .init σ lens []) fun q => q.2 = w ∧ (∀ n, n ∉ fs.names → q.1.1 n = σ n) ∧
      ∀ p ∈ vs, p.1 ∈ visible anyField fs → q.1.1 p.1 = some p.2 := by
  intro fs
  induction fs with
  | nil =>
    intro c t sc sm env σ lens bs vs r hk hf hd hsc hsm hs hss h ht hv
    cases h
    exact ⟨[], rfl, rfl, fun _ _ => rfl, fun p hp => by cases hp⟩
  | pad n e rest ih => intro c t sc sm env σ lens bs vs r hk; cases hk
  | leaf a ty rest ih =>
    intro c t sc sm env σ lens bs vs r hk hf hd hsc hsm hs hss h ht hv
    have hk0 := hk
    simp only [keepItems, Bool.and_eq_true, List.isEmpty_iff] at hk
    obtain ⟨⟨hx, hkl⟩, hkr⟩ := hk
    simp only [forthItems, Bool.and_eq_true, Option.isNone_iff_eq_none] at hf
    obtain ⟨⟨⟨⟨hau, hcc⟩, hw⟩, hfl⟩, hfr⟩ := hf
    rw [names_leaf, List.nodup_cons] at hd
    simp only [Dec.decItems, hx, List.reverse_nil, Dec.decXforms] at h
    obtain ⟨⟨vs0, bs1⟩, h0, h⟩ := res_bind_inv h
    obtain ⟨⟨ws, r'⟩, h1, h⟩ := res_bind_inv h
    cases h
    simp only at h1
    -- the field
    have hbs1 : (t || eats rest) = true → bs1 ≠ [] := by
      intro ht'
      rcases (Bool.or_eq_true _ _ ▸ ht' : t = true ∨ eats rest = true) with hh | hh
      · obtain ⟨w, e⟩ := (Dec.decItems_keeps hX.keeps rest t _ hkr).front h1
        have := ht hh
        rw [e]
        simp only at this
        simp [this]
      · exact (Dec.decItems_keeps' hX.keeps rest t _ hkr).2 hh _ _ h1
    obtain ⟨x, w, rfl, rfl, hg⟩ := field_forth hX hs hkl hfl (within_in hw) h0 hbs1
    have hax : σ a.name = some x := by
      have := hv (a.name, x) (by simp)
      rw [if_neg (by rintro ⟨-, h⟩; exact hd.1 (nested_sub h))] at this
      exact this
    -- the others
    obtain ⟨w2, rfl, hg2⟩ := ih (c := c) (t := t) (sc := a.name :: sc) (sm := smallField a ty ++ sm) (σ := σ) (lens := lens) hkr hfr hd.2
      (fun n hn => by
        rcases List.mem_cons.1 hn with rfl | hn
        · exact hd.1
        · intro h; exact hsc n hn (by rw [names_leaf]; simp [h]))
      (fun n hn => by
        rcases List.mem_append.1 hn with hn | hn
        · rw [smallField_name hn]; exact hd.1
        · intro h; exact hsm n hn (by rw [names_leaf]; simp [h]))
      (fun n hn v hev => by
        rcases bindAll_some hev with ⟨p, hp, rfl, rfl⟩ | ⟨h2, h3⟩
        · rw [List.mem_singleton.1 hp]; exact hax
        · rcases List.mem_cons.1 hn with rfl | hn
          · simp at h2
          · exact hs n hn v h3)
      (fun n hn v hev => by
        rcases bindAll_some hev with ⟨p, hp, rfl, rfl⟩ | ⟨h2, h3⟩
        · rcases List.mem_append.1 hn with hn | hn
          · exact smallField_small h0 (List.ne_nil_of_mem hn) p hp
          · rw [List.mem_singleton.1 hp] at hn
            exact absurd (by rw [names_leaf]; simp) (hsm _ hn)
        · rcases List.mem_append.1 hn with hn | hn
          · rw [smallField_name hn] at h2; simp at h2
          · exact hss n hn v h3)
      h1 ht
      (fun p hp => by
        rw [hv p (by simp [hp])]
        rfl)
    refine ⟨w ++ w2, by simp, ?_⟩
    rw [encItems_leaf hau]
    have ea : a = ⟨a.name, a.cond, [], none⟩ := by
      obtain ⟨n, co, xs, au⟩ := a
      simp only at hau hx
      rw [hau, hx]
    rw [← ea] at hg
    simp only [hax, optRes, ok_bind]
    refine hg.bind fun b hb => hg2.bind fun q hq => ?_
    obtain ⟨q1, q2, q3⟩ := hq
    refine ⟨by rw [hb, q1], fun n hn => ?_, fun p hp hvis => ?_⟩
    · rw [names_leaf, List.mem_cons, not_or] at hn
      exact q2 n hn.2
    · simp only [List.cons_append, List.nil_append, List.mem_cons] at hp
      rcases hp with rfl | hp
      · show q.1.1 a.name = some x
        rw [q2 _ hd.1, hax]
      · refine q3 p hp ?_
        simp only [visible, anyField, if_true, List.mem_append, List.mem_singleton] at hvis
        refine hvis.resolve_left fun h => ?_
        have : p.1 ∈ rest.names := by
          have := decItems_names rest h1
          rw [← this]
          exact List.mem_map_of_mem hp
        rw [h] at this
        exact hd.1 this
  | cont a len items rest ihi ih =>
    intro c t sc sm env σ lens bs vs r hk hf hd hsc hsm hs hss h ht hv
    simp only [keepItems, Bool.and_eq_true, List.isEmpty_iff] at hk
    obtain ⟨⟨hx, hki⟩, hkr⟩ := hk
    simp only [forthItems, Bool.and_eq_true] at hf
    obtain ⟨⟨⟨⟨hcc, hw⟩, hsl⟩, hfi⟩, hfr⟩ := hf
    rw [names_cont, List.nodup_append] at hd
    obtain ⟨hdi, hdr, hdd⟩ := hd
    have hdis : ∀ n, n ∈ items.names → n ∉ rest.names := fun n h1 h2 => hdd n h1 n h2 rfl
    have hin := within_in hw
    simp only [Dec.decItems, hx, List.reverse_nil, Dec.decXforms] at h
    obtain ⟨⟨vs0, bs1⟩, h0, h⟩ := res_bind_inv h
    obtain ⟨⟨ws, r'⟩, h1, h⟩ := res_bind_inv h
    cases h
    simp only at h1
    have hbs1 : (t || eats rest) = true → bs1 ≠ [] := by
      intro ht'
      rcases (Bool.or_eq_true _ _ ▸ ht' : t = true ∨ eats rest = true) with hh | hh
      · obtain ⟨w, e⟩ := (Dec.decItems_keeps hX.keeps rest t _ hkr).front h1
        have := ht hh
        rw [e]
        simp only at this
        simp [this]
      · exact (Dec.decItems_keeps' hX.keeps rest t _ hkr).2 hh _ _ h1
    have hws : ∀ p ∈ ws, p.1 ∈ rest.names := fun p hp => by
      rw [← decItems_names rest h1]; exact List.mem_map_of_mem hp
    -- the content
    have content : ∀ {vs1 : List (String × Val)} {b0 : Bytes},
        Dec.decLimited XD env len b0 (Dec.decItems XD items env) = .ok (vs1, bs1) →
        (∀ q ∈ vs1, σ q.1 = some (if (a.cond.isSome || c) = true then .opt (some q.2) else q.2)) →
        ∃ w, b0 = w ++ bs1 ∧ Gives l (checkCapacity XE σ a.name len .init >>= fun _ => enter (a.cond.isSome || c) items σ >>= fun σ1 =>
          encItems XE (a.cond.isSome || c) items .init σ1 lens [] >>= fun q => .ok (q.1, q.2)) fun q => q.2 = w ∧
            (∀ n, n ∉ items.names → q.1.1 n = σ n) ∧ ∀ p ∈ vs1, p.1 ∈ visible anyField items → q.1.1 p.1 = some p.2 := by
      intro vs1 b0 hlim hv1
      obtain ⟨b1, r1, hd1, hb1, hr1, hcap⟩ := limited_forth hX hs hss (fun e he => hin e (by simp [he])) hsl a.name hlim
      obtain ⟨σ1, he1, he2, he3⟩ := enter_forth hdi (fun hc => by rw [hc] at hfi; exact forth_plain hfi) (decItems_names items hd1) hv1
      obtain ⟨w, hw1, hg⟩ := ihi (σ := σ1) (lens := lens) hki hfi hdi (fun n hn h => hsc n hn (by rw [names_cont]; simp [h]))
        (fun n hn h => hsm n hn (by rw [names_cont]; simp [h]))
        (fun n hn v hev => by
          rw [he2 n fun h => hsc n hn (by rw [names_cont]; simp [h])]
          exact hs n hn v hev)
        hss hd1 (fun h => by
          simp only [Bool.and_eq_true, Option.isNone_iff_eq_none] at h
          rw [hr1 h.2]
          exact hbs1 h.1) he3
      refine ⟨w, hb1 w hw1, hcap.bind fun _ _ => ?_⟩
      simp only [he1, ok_bind]
      refine hg.bind fun q hq => ⟨hq.1, fun n hn => ?_, hq.2.2⟩
      show q.1.1 n = σ n
      rw [hq.2.1 n hn, he2 n hn]
    -- the container
    have hcont : ∃ w, bs = w ++ bs1 ∧ vs0.map (·.1) = items.names ∧
        Gives l (guarded XE σ a.cond (erase (nullNames items ++ setNames true items) σ, erase [] lens)
          (checkCapacity XE σ a.name len .init >>= fun _ => enter (a.cond.isSome || c) items σ >>= fun σ1 =>
          encItems XE (a.cond.isSome || c) items .init σ1 lens [] >>= fun q => .ok (q.1, q.2))) fun q => q.2 = w ∧
            (∀ n, n ∉ items.names → q.1.1 n = σ n) ∧ (a.cond = none → ∀ p ∈ vs0, p.1 ∈ visible anyField items → q.1.1 p.1 = some p.2) := by
      cases hco : a.cond with
      | none =>
        rw [hco] at h0
        simp only [Dec.decCond] at h0
        have hnm : vs0.map (·.1) = items.names := by
          obtain ⟨_, _, hd1, _⟩ := limited_forth hX hs hss (fun e he => hin e (by simp [he])) hsl a.name h0
          exact decItems_names items hd1
        obtain ⟨w, hw, hg⟩ := content h0 (fun q hq => by
          rw [hv q (by simp [hq]), hco]
          have hm : q.1 ∈ items.names := by rw [← hnm]; exact List.mem_map_of_mem hq
          cases c with
          | false => simp
          | true =>
            have hpl := forth_plain (by simpa [hco] using hfi)
            have : q.1 ∈ nested (.cont a len items rest) := by
              simp only [nested, hco, Option.isSome_none, Bool.false_eq_true, if_false, List.mem_append, hpl]
              exact .inl hm
            simp [this])
        rw [hco] at hg
        exact ⟨w, hw, hnm, hg.mono fun q hq => ⟨hq.1, hq.2.1, fun _ => hq.2.2⟩⟩
      | some e =>
        have hcf : c = false := by simpa [hco] using hcc
        subst hcf
        rw [hco] at h0
        simp only [Dec.decCond] at h0
        obtain ⟨cv, hcv, h0⟩ := res_bind_inv h0
        obtain ⟨b, hb, h0⟩ := res_bind_inv h0
        have hc' := ev_forth hX hs (e := e) (hin e (by simp [hco])) cv hcv
        cases b with
        | false =>
          simp only [Bool.false_eq_true, if_false] at h0
          cases h0
          refine ⟨[], rfl, by simp [Function.comp_def], ?_⟩
          simp only [guarded, hc', hb, ok_bind, Bool.false_eq_true, if_false]
          exact ⟨rfl, fun n hn => erase_out hn, fun h => by cases h⟩
        | true =>
          simp only [if_true] at h0
          obtain ⟨⟨vs1, bs1'⟩, h2, h0⟩ := res_bind_inv h0
          cases h0
          obtain ⟨w, hw, hg⟩ := content h2 (fun q hq => by
            have := hv (q.1, .opt (some q.2)) (List.mem_append_left _ (List.mem_map.2 ⟨q, hq, rfl⟩))
            simpa [hco] using this)
          have hnm : vs1.map (·.1) = items.names := by
            obtain ⟨_, _, hd1, _⟩ := limited_forth hX hs hss (fun e he => hin e (by simp [he])) hsl a.name h2
            exact decItems_names items hd1
          refine ⟨w, hw, by rw [← hnm]; simp [Function.comp_def], ?_⟩
          simp only [guarded, hc', hb, ok_bind, if_true]
          rw [hco] at hg
          exact hg.bind fun q hq => ⟨hq.1, fun n hn => erase_out hn, fun h => by cases h⟩
    obtain ⟨w, rfl, hnm, hg⟩ := hcont
    have hvs0 : ∀ p ∈ vs0, p.1 ∈ items.names := fun p hp => by rw [← hnm]; exact List.mem_map_of_mem hp
    rw [encItems_cont hx len (forth_plan hfi)]
    -- the others; first, where they end
    obtain ⟨w2, rfl⟩ := (Dec.decItems_keeps hX.keeps rest t _ hkr).front h1
    refine ⟨w ++ w2, by simp, hg.bind fun q hq => ?_⟩
    obtain ⟨q1, q2, q3⟩ := hq
    obtain ⟨w3, hw3, hg2⟩ := ih (c := c) (t := t) (σ := q.1.1) (lens := q.1.2) hkr hfr hdr
      (fun n hn h => by
        have : n ∈ visible anyField items ∨ n ∈ sc := by
          split at hn
          · exact .inr hn
          · exact List.mem_append.1 hn
        rcases this with hn | hn
        · exact hdis n (visible_names hn) h
        · exact hsc n hn (by rw [names_cont]; simp [h]))
      (fun n hn h => hsm n hn (by rw [names_cont]; simp [h]))
      (fun n hn v hev => by
        rcases bindAll_some hev with ⟨p, hp, rfl, rfl⟩ | ⟨h2, h3⟩
        · cases hco : a.cond with
          | none =>
            simp only [hco, Option.isSome_none, Bool.false_eq_true, if_false, List.mem_append] at hn
            rcases hn with hn | hn
            · exact q3 hco p hp hn
            · exact absurd (by rw [names_cont]; simp [hvs0 p hp]) (hsc _ hn)
          | some e =>
            simp only [hco, Option.isSome_some, if_true] at hn
            exact absurd (by rw [names_cont]; simp [hvs0 p hp]) (hsc _ hn)
        · rw [hnm] at h2
          rw [q2 n h2]
          refine hs n ?_ v h3
          split at hn
          · exact hn
          · exact (List.mem_append.1 hn).resolve_left fun h => h2 (visible_names h))
      (fun n hn v hev => by
        rcases bindAll_some hev with ⟨p, hp, rfl, rfl⟩ | ⟨h2, h3⟩
        · exact absurd (by rw [names_cont]; simp [hvs0 p hp]) (hsm _ hn)
        · exact hss n hn v h3)
      h1 ht
      (fun p hp => by
        rw [q2 p.1 (fun h => hdis _ h (hws p hp)), hv p (by simp [hp])]
        have : p.1 ∈ nested (.cont a len items rest) ↔ p.1 ∈ nested rest := by
          simp only [nested, List.mem_append]
          constructor
          · rintro (h | h)
            · split at h
              · cases h
              · exact absurd (hws p hp) (hdis _ (plain_sub h))
            · exact h
          · exact .inr
        simp only [this])
    have : w3 = w2 := (List.append_cancel_right hw3).symm
    subst this
    refine hg2.bind fun q' hq' => ?_
    obtain ⟨p1, p2, p3⟩ := hq'
    refine ⟨by rw [q1, p1], fun n hn => ?_, fun p hp hvis => ?_⟩
    · rw [names_cont, List.mem_append, not_or] at hn
      show q'.1.1 n = σ n
      rw [p2 n hn.2, q2 n hn.1]
    · show q'.1.1 p.1 = some p.2
      simp only [visible, List.mem_append] at hvis
      rcases List.mem_append.1 hp with hp | hp
      · have hm := hvs0 p hp
        rw [p2 p.1 (hdis _ hm)]
        rcases hvis with h | h
        · split at h
          · cases h
          · rename_i hc
            exact q3 (by simpa using hc) p hp h
        · exact absurd (visible_names h) (hdis _ hm)
      · refine p3 p hp ?_
        rcases hvis with h | h
        · split at h
          · cases h
          · exact absurd (hws p hp) (hdis _ (visible_names h))
        · exact h

/-! ## Declarations -/

def forthArm (l oc : Bool) (arm : Arm) : Bool :=
  match arm.body with
  | .leaf ty => within [] (LTy.exprs ty) && forthLeaf l oc ty
  | .cont len items => within [] len.toList && decide items.names.Nodup && forthItems l oc false items [] []

/-- The name of a generated enum or bitfield. -/
def reprName : ReprTy → String
  | .enum n _ => n
  | .bitfield n _ => n

/-- Conditions of arms and of newtypes can only use arguments. Protospec generates an encoder for the declaration. -/
def forthDecl (l oc : Bool) (d : Decl) : Bool :=
  (genDecl d).1.ok &&
  match d.body with
  | .leaf cond ty => within [] (cond.toList ++ LTy.exprs ty) && forthLeaf l oc ty
  | .repr r => decide (reprName r = d.name)
  | .struct len items => within [] len.toList && (l || smallLen [] len) && decide items.names.Nodup && forthItems l oc false items [] []
  | .tagged len arms => within [] len.toList && (l || smallLen [] len) &&
      arms.all fun arm => within [] arm.attr.cond.toList && forthArm l oc arm

/-- Every type of which `K` speaks passes. -/
def forth (K : Lossless) (l oc : Bool) (sch : Schema) : Bool :=
  lossless K sch && sch.all fun d => (!K.own false d.name && !K.own true d.name) || forthDecl l oc d

theorem empty_sub : Enc.Sub (· ∈ ([] : List String)) (Dec.Env.empty : Dec.Env) (Env.empty : Env) := fun _ h => by cases h

theorem nothing_small {env : Dec.Env} : ∀ n ∈ ([] : List String), ∀ v, env n = some v → Small v := fun _ h => by cases h

theorem calculated_none {X : Ext} : ∀ {as : List FAttr} {σ : Env}, (∀ a ∈ as, a.auto = none) → encCalculated X as σ = .ok σ
  | [], _, _ => rfl
  | a :: as, σ, h => by
    simp only [encCalculated, h a (by simp)]
    exact calculated_none fun b hb => h b (by simp [hb])

theorem encStored_ok {n : String} {fs : List (String × Val)} (hn : (fs.map (·.1)).Nodup) : ∀ {as : List FAttr} {σ : Env}, (∀ a ∈ as, a.auto = none) →
    (∀ a ∈ as, ∃ p ∈ fs, p.1 = a.name) → ∃ σ1, encStored (.struct n fs) as σ = .ok σ1 ∧
      ∀ p ∈ fs, (p.1 ∈ as.map (·.name) ∨ σ p.1 = some p.2) → σ1 p.1 = some p.2
  | [], σ, _, _ => ⟨σ, rfl, fun p _ h => by simpa using h⟩
  | a :: as, σ, h, hm => by
    obtain ⟨q, hq, hqa⟩ := hm a (by simp)
    have hx : fieldOf (.struct n fs) a.name = .ok q.2 := by
      simp only [fieldOf]
      rw [← hqa, lookup_mem hn hq]
      rfl
    obtain ⟨σ1, h1, h2⟩ := encStored_ok (n := n) hn (as := as) (σ := upd σ a.name (some q.2)) (fun b hb => h b (by simp [hb]))
      (fun b hb => hm b (by simp [hb]))
    refine ⟨σ1, ?_, fun p hp hor => h2 p hp ?_⟩
    · simp only [encStored, h a (by simp), Option.isSome_none, Bool.false_eq_true, if_false, hx, ok_bind, h1]
    · by_cases hpa : p.1 = a.name
      · right
        rw [hpa, upd_same]
        have e1 := lookup_mem hn hp
        have e2 := lookup_mem hn hq
        rw [hpa] at e1
        rw [hqa, e1] at e2
        exact e2.symm
      · rcases hor with h | h
        · simp only [List.map_cons, List.mem_cons] at h
          exact .inl (h.resolve_left hpa)
        · exact .inr (by rw [upd_ne _ _ hpa]; exact h)

theorem arm_forth (hX : Tied K l XD XE) {n : String} {t : Bool} {arm : Arm} (hk : keepArm K t arm = true) (hf : forthArm l XD.oc arm = true) :
    Back l t (Dec.decArm XD n arm) (encArm XE n arm .init) := by
  intro bs v r h ht
  simp only [keepArm, Bool.and_eq_true, List.isEmpty_iff] at hk
  obtain ⟨hx, hk⟩ := hk
  simp only [Dec.decArm, hx, List.reverse_nil, Dec.decXforms] at h
  unfold forthArm at hf
  unfold encArm
  cases hb : arm.body with
  | leaf ty =>
    simp only [hb, Bool.and_eq_true] at h hk hf
    obtain ⟨⟨x, r'⟩, hd, h⟩ := res_bind_inv h
    cases h
    obtain ⟨w, h1, h2⟩ := leaf_forth hX empty_sub t ty hk hf.2 (within_in hf.1) _ _ _ hd ht
    refine ⟨w, h1, ?_⟩
    simp only [unwrapEnum, ne_eq, not_true_eq_false, if_false, if_true, ok_bind, hx, encXforms]
    exact gives_unit h2
  | cont len items =>
    simp only [hb, Bool.and_eq_true, decide_eq_true_eq] at h hk hf
    obtain ⟨⟨hw, hnd⟩, hfi⟩ := hf
    obtain ⟨⟨vs, r'⟩, hd, h⟩ := res_bind_inv h
    cases h
    have hlim : ∃ bs' r'', Dec.decItems XD items .empty bs' = .ok (vs, r'') ∧ (∀ w, bs' = w ++ r'' → bs = w ++ r') ∧ (len = none → r'' = r') := by
      cases len with
      | none => exact ⟨bs, r', hd, fun _ h => h, fun _ => rfl⟩
      | some e =>
        simp only [Dec.decLimited] at hd
        obtain ⟨v, _, hd⟩ := res_bind_inv hd
        obtain ⟨n, _, hd⟩ := res_bind_inv hd
        obtain ⟨⟨a', r''⟩, hk', hd⟩ := res_bind_inv hd
        cases hd
        exact ⟨_, _, hk', fun w hw => by rw [← List.append_assoc, ← hw, List.take_append_drop], fun h => by cases h⟩
    obtain ⟨bs', r'', hd', hbs, hr⟩ := hlim
    have hnm := decItems_names items hd'
    have hnd' : (vs.map (·.1)).Nodup := by rw [hnm]; exact hnd
    obtain ⟨w, h1, h2⟩ := items_forth hX items (c := false) (σ := bindNames items.names (vs.map (·.2)) .empty) (lens := .empty) hk hfi hnd
      (fun _ h => by cases h) (fun _ h => by cases h) (fun _ h => by cases h) nothing_small hd'
      (fun h => by
        simp only [Bool.and_eq_true, Option.isNone_iff_eq_none] at h
        rw [hr h.2]
        exact ht h.1)
      (fun p hp => by
        simp only [Bool.false_eq_true, false_and, if_false]
        rw [← hnm]
        exact bindNames_pairs vs .empty hnd' p hp)
    refine ⟨w, hbs w h1, ?_⟩
    have hu : items.names.mapM (fun f => optRes (vs.lookup f)) = .ok (vs.map (·.2)) := by
      rw [← hnm]; exact mapM_lookup hnd' fun _ h => h
    simp only [unwrapStruct, ne_eq, not_true_eq_false, if_false, if_true, hu, ok_bind, calculated_none (forth_no_autos hfi)]
    exact h2.bind fun q hq => hq.1

theorem arms_forth (hX : Tied K l XD XE) {n : String} {t : Bool} : ∀ {arms : List Arm}, arms.all (keepArm K t) = true →
    (arms.all fun arm => within [] arm.attr.cond.toList && forthArm l XD.oc arm) = true → Back l t (Dec.decArms XD n arms) (encArms XE n arms .init)
  | [], _, _ => by intro bs v r h; cases h
  | arm :: arms, hk, hf => by
    simp only [List.all_cons, Bool.and_eq_true] at hk hf
    have ih := arms_forth hX (n := n) (t := t) hk.2 (by simpa only [Bool.and_eq_true] using hf.2)
    have ha := arm_forth hX (n := n) hk.1 hf.1.2
    intro bs v r h ht
    unfold Dec.decArms at h
    unfold encArms
    cases hc : arm.attr.cond with
    | none =>
      rw [hc] at h
      exact ha bs v r h ht
    | some e =>
      rw [hc] at h
      simp only at h ⊢
      obtain ⟨cv, hcv, h⟩ := res_bind_inv h
      obtain ⟨b, hb, h⟩ := res_bind_inv h
      have := ev_forth hX empty_sub (e := e) (within_in hf.1.1 e (by simp [hc])) cv hcv
      simp only [this, ok_bind, hb]
      cases b with
      | true => exact ha bs v r h ht
      | false =>
        have hp : planArm arm .init = .init := by
          have hfa := hf.1.2
          unfold forthArm at hfa
          unfold planArm
          split
          · rfl
          · rename_i hbo
            rw [hbo] at hfa
            simp only [Bool.and_eq_true] at hfa
            exact forth_plan hfa.2
        simp only [Bool.false_eq_true, if_false] at h ⊢
        rw [hp]
        exact ih bs v r h ht

theorem arms_typeName {X : Dec.Ext} {n : String} : ∀ {arms : List Arm} {bs : Bytes} {v : Val} {r : Bytes}, (∀ arm ∈ arms, arm.attr.xfs = []) →
    Dec.decArms X n arms bs = .ok (v, r) → typeName v = some n := by
  have one : ∀ {arm : Arm} {bs : Bytes} {v : Val} {r : Bytes}, arm.attr.xfs = [] → Dec.decArm X n arm bs = .ok (v, r) → typeName v = some n := by
    intro arm bs v r hx h
    simp only [Dec.decArm, hx, List.reverse_nil, Dec.decXforms] at h
    split at h
    · obtain ⟨_, _, h⟩ := res_bind_inv h
      cases h; rfl
    · obtain ⟨_, _, h⟩ := res_bind_inv h
      cases h; rfl
  intro arms
  induction arms with
  | nil => intro bs v r _ h; cases h
  | cons arm arms ih =>
    intro bs v r hx h
    unfold Dec.decArms at h
    split at h
    · exact one (hx arm (by simp)) h
    · obtain ⟨_, _, h⟩ := res_bind_inv h
      obtain ⟨b, _, h⟩ := res_bind_inv h
      split at h
      · exact one (hx arm (by simp)) h
      · exact ih (fun a ha => hx a (by simp [ha])) h

theorem decl_forth (hX : Tied K l XD XE) {t : Bool} {d : Decl} (hk : keepDecl K t d = true) (hf : forthDecl l XD.oc d = true) :
    ∀ bs v r, Dec.decDecl XD d bs = .ok (v, r) → (t = true → r ≠ []) → Accepts d v ∧ ∃ w, bs = w ++ r ∧ Gives l (encDecl XE d v) (· = w) := by
  intro bs v r h ht
  simp only [keepDecl, Bool.and_eq_true, List.isEmpty_iff] at hk
  obtain ⟨hx, hk⟩ := hk
  simp only [forthDecl, Bool.and_eq_true] at hf
  obtain ⟨hok, hf⟩ := hf
  unfold Dec.decDecl at h
  unfold encDecl
  cases hb : d.body with
  | leaf cond ty =>
    simp only [hb, hx, List.reverse_nil, Dec.decXforms, Bool.and_eq_true] at h hk hf
    obtain ⟨⟨vs, r'⟩, hd, h⟩ := res_bind_inv h
    have : r' = r := by
      simp only at h
      split at h
      · cases h; rfl
      · cases h
    subst this
    obtain ⟨x, w, rfl, h1, h2⟩ := field_forth hX empty_sub hk hf.2 (within_in hf.1) hd ht
    cases h
    refine ⟨⟨hok, rfl⟩, w, h1, ?_⟩
    simp only [innerOf, ok_bind, hx]
    exact h2
  | repr rt =>
    simp only [hb, hx, List.reverse_nil, Dec.decXforms, decide_eq_true_eq] at h hk hf
    obtain ⟨w, h1, h2⟩ := repr_forth (l := l) hk bs v r h ht
    refine ⟨⟨hok, ?_⟩, w, h1, ?_⟩
    · obtain ⟨⟨raw, r'⟩, -, h⟩ := res_bind_inv h
      obtain ⟨v', hv, h⟩ := res_bind_inv h
      cases h
      cases rt with
      | enum n e =>
        simp only [ofRepr] at hv
        split at hv
        · cases hv; exact congrArg some hf
        · cases hv
      | bitfield n e =>
        simp only [ofRepr] at hv
        split at hv
        · cases hv; exact congrArg some hf
        · cases hv
    · simp only [hx, encXforms]
      exact gives_unit h2
  | struct len items =>
    simp only [hb, hx, List.reverse_nil, Dec.decXforms, Bool.and_eq_true, decide_eq_true_eq] at h hk hf
    obtain ⟨⟨⟨hw, hsl⟩, hnd⟩, hfi⟩ := hf
    obtain ⟨⟨vs, r'⟩, hd, h⟩ := res_bind_inv h
    cases h
    obtain ⟨bs', r'', hd', hbs, hr, hcap⟩ := limited_forth hX empty_sub nothing_small (within_in hw) hsl d.name hd
    have hnm := decItems_names items hd'
    have hnd' : (vs.map (·.1)).Nodup := by rw [hnm]; exact hnd
    obtain ⟨σ, hs1, hs2⟩ := encStored_ok (n := d.name) hnd' (as := items.leaves) (σ := .empty) (forth_no_autos hfi) (fun a ha => by
      have : a.name ∈ vs.map (·.1) := by rw [hnm]; exact List.mem_map_of_mem ha
      obtain ⟨p, hp, e⟩ := List.mem_map.1 this
      exact ⟨p, hp, e⟩)
    obtain ⟨w, h1, h2⟩ := items_forth hX items (c := false) (σ := σ) (lens := .empty) hk hfi hnd
      (fun _ h => by cases h) (fun _ h => by cases h) (fun _ h => by cases h) nothing_small hd'
      (fun h => by
        simp only [Bool.and_eq_true, Option.isNone_iff_eq_none] at h
        rw [hr h.2]
        exact ht h.1)
      (fun p hp => by
        simp only [Bool.false_eq_true, false_and, if_false]
        refine hs2 p hp (.inl ?_)
        have : p.1 ∈ vs.map (·.1) := List.mem_map_of_mem hp
        rwa [hnm] at this)
    refine ⟨⟨hok, rfl⟩, w, hbs w h1, ?_⟩
    simp only [hx, encXforms]
    have : Gives l (checkCapacity XE .empty d.name len .init >>= fun _ => encStored (.struct d.name vs) items.leaves .empty >>= fun env =>
        encCalculated XE items.leaves env >>= fun env1 => encItems XE false items .init env1 .empty [] >>= fun q => .ok q.2) (· = w) :=
      hcap.bind fun _ _ => by
        simp only [hs1, ok_bind, calculated_none (forth_no_autos hfi)]
        exact h2.bind fun q hq => hq.1
    refine Gives.mono (P := (· = w)) ?_ fun _ h => h
    cases hcc : checkCapacity XE .empty d.name len .init with
    | error e => rw [hcc] at this; exact this
    | ok u =>
      rw [hcc] at this
      simp only [ok_bind, hs1, calculated_none (forth_no_autos hfi)] at this ⊢
      cases he : encItems XE false items .init σ .empty [] with
      | error e => rw [he] at this; exact this
      | ok q => rw [he] at this; exact this
  | tagged len arms =>
    simp only [hb, hx, List.reverse_nil, Dec.decXforms, Bool.and_eq_true] at h hk hf
    obtain ⟨⟨hw, hsl⟩, hfa⟩ := hf
    obtain ⟨bs', r'', hd', hbs, hr, hcap⟩ := limited_forth hX empty_sub nothing_small (within_in hw) hsl d.name h
    obtain ⟨w, h1, h2⟩ := arms_forth hX hk (by simpa only [Bool.and_eq_true] using hfa) bs' v r'' hd' (fun h => by
        simp only [Bool.and_eq_true, Option.isNone_iff_eq_none] at h
        rw [hr h.2]
        exact ht h.1)
    refine ⟨⟨hok, arms_typeName (fun arm ha => by
      have := List.all_eq_true.1 hk arm ha
      simp only [keepArm, Bool.and_eq_true, List.isEmpty_iff] at this
      exact this.1) hd'⟩, w, hbs w h1, ?_⟩
    simp only [hx, encXforms]
    cases hcc : checkCapacity XE .empty d.name len .init with
    | error e => rw [hcc] at hcap; exact hcap
    | ok u =>
      simp only [ok_bind]
      exact gives_unit h2

/-! ## Schemas -/

/-- The foreign types encode what they decode to the same bytes, as `K` says. -/
structure LibForth (K : Lossless) (l : Bool) (LD : Dec.Lib) (LE : Lib) : Prop where
  oc : LE.oc = LD.oc
  keeps : Dec.LibKeeps K LD
  foreign : ∀ t n vs, K.foreign t n = true → Back l t (LD.foreign n vs) (LE.foreign n vs)

theorem specEncode_forth {sch : Schema} {LD : Dec.Lib} {LE : Lib} (hL : LibForth K l LD LE) (hf : forth K l LD.oc sch = true) :
    ∀ (fuel : Nat) (t : Bool) (name : String) (args : List Val), K.own t name = true →
      Back l t (Dec.specDecode sch LD fuel name args) (specEncode sch LE fuel name args) := by
  simp only [forth, Bool.and_eq_true] at hf
  obtain ⟨hc, hf⟩ := hf
  intro fuel
  induction fuel with
  | zero => intro t name args _ bs v r h; cases h
  | succ fuel ih =>
    intro t name args hn bs v r h ht
    simp only [Dec.specDecode, Dec.callDecl] at h
    cases hfd : sch.find name with
    | none => rw [hfd] at h; cases h
    | some d =>
      simp only [hfd] at h
      have hm := List.mem_of_find?_eq_some hfd
      have hdn : d.name = name := by simpa using List.find?_some hfd
      have hk : keepDecl K t d = true := by
        have h := List.all_eq_true.1 hc d hm
        simp only [hdn, Bool.and_eq_true, Bool.or_eq_true, Bool.not_eq_true'] at h
        cases t with
        | false => exact h.1.resolve_left (by simp [hn])
        | true => exact h.2.resolve_left (by simp [hn])
      have hfo : forthDecl l LD.oc d = true := by
        have h := List.all_eq_true.1 hf d hm
        simp only [hdn, Bool.and_eq_true, Bool.or_eq_true, Bool.not_eq_true'] at h
        refine h.resolve_left fun h => ?_
        cases t with
        | false => rw [h.1] at hn; cases hn
        | true => rw [h.2] at hn; cases hn
      by_cases hp : d.params.length ≠ args.length
      · rw [if_pos hp] at h; cases h
      · rw [if_neg hp] at h
        have hT : Tied K l ⟨LD.oc, Dec.bindArgs d.params args, Dec.specDecode sch LD fuel, LD.foreign, LD.xform⟩
            ⟨LE.oc, Dec.bindArgs d.params args, specEncode sch LE fuel, LE.foreign, LE.xform⟩ :=
          ⟨hL.oc, rfl, ⟨Dec.specDecode_keeps hc hL.keeps fuel, hL.keeps⟩, ih, hL.foreign⟩
        obtain ⟨ha, w, h1, h2⟩ := decl_forth hT hk hfo bs v r h ht
        refine ⟨w, h1, ?_⟩
        simp only [specEncode, callDecl, hfd, if_neg hp, if_pos ha]
        exact h2

end

end Verif.Forth
