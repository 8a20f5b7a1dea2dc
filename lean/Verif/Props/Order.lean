import Verif.Order
import Verif.Props.Encode
/-!
# Declaration order and lengths: C02, C08, C09
-/
namespace Verif.Props
open Verif Verif.Enc

theorem encStored_ok {v : Val} : ∀ (as : List FAttr), (as.map (·.name)).Nodup → ∀ {env env1 : Env},
    encStored v as env = .ok env1 →
    (∀ a ∈ as, a.auto = none → ∃ x, fieldOf v a.name = .ok x ∧ env1 a.name = some x) ∧
    (∀ n, (∀ a ∈ as, a.auto = none → a.name ≠ n) → env1 n = env n)
  | [], _, env, env1, h => by cases h; exact ⟨fun _ h => (nomatch h), fun _ _ => rfl⟩
  | a :: as, hnd, env, env1, h => by
    simp only [List.map_cons, List.nodup_cons] at hnd
    simp only [encStored] at h
    cases ha : a.auto with
    | some e =>
      simp only [ha, Option.isSome_some, if_true] at h
      obtain ⟨h1, h2⟩ := encStored_ok as hnd.2 h
      refine ⟨fun b hb hau => ?_, fun n hn => h2 n fun b hb => hn b (by simp [hb])⟩
      rcases List.mem_cons.1 hb with rfl | hb
      · rw [ha] at hau; cases hau
      · exact h1 b hb hau
    | none =>
      simp only [ha, Option.isSome_none, Bool.false_eq_true, if_false] at h
      obtain ⟨x, hx, h⟩ := ok_of_bind h
      obtain ⟨h1, h2⟩ := encStored_ok as hnd.2 h
      refine ⟨fun b hb hau => ?_, fun n hn => ?_⟩
      · rcases List.mem_cons.1 hb with rfl | hb
        · refine ⟨x, hx, ?_⟩
          rw [h2 b.name fun c hc _ he => hnd.1 (List.mem_map.2 ⟨c, hc, he⟩)]
          simp
        · exact h1 b hb hau
      · rw [h2 n fun b hb => hn b (by simp [hb]), upd_ne _ _ (Ne.symm (hn a (by simp) ha))]

/-- A calculated field that uses no `blen`. -/
def PlainAuto (a : FAttr) (e : Expr) : Prop := a.auto = some e ∧ e.blens = []

theorem encCalculated_skip {X : Ext} {a : FAttr} {as : List FAttr} {env : Env} (h : ∀ e, ¬ PlainAuto a e) :
    encCalculated X (a :: as) env = encCalculated X as env := by
  simp only [encCalculated]
  cases ha : a.auto with
  | none => rfl
  | some e =>
    have : e.blens.isEmpty = false := by
      cases hb : e.blens with
      | nil => exact absurd ⟨ha, hb⟩ (h e)
      | cons _ _ => rfl
    simp [this]

theorem encCalculated_frame {X : Ext} : ∀ (as : List FAttr) {env env1 : Env}, encCalculated X as env = .ok env1 →
    ∀ n, (∀ a ∈ as, ∀ e, PlainAuto a e → a.name ≠ n) → env1 n = env n
  | [], env, env1, h, n, _ => by cases h; rfl
  | a :: as, env, env1, h, n, hn => by
    by_cases hp : ∃ e, PlainAuto a e
    · obtain ⟨e, he⟩ := hp
      simp only [encCalculated, he.1, he.2, List.isEmpty_nil, if_true] at h
      obtain ⟨x, hx, h⟩ := ok_of_bind h
      rw [encCalculated_frame as h n fun b hb => hn b (by simp [hb]), upd_ne _ _ (Ne.symm (hn a (by simp) e he))]
    · rw [encCalculated_skip fun e he => hp ⟨e, he⟩] at h
      exact encCalculated_frame as h n fun b hb => hn b (by simp [hb])

theorem encCalculated_ok {X : Ext} : ∀ (as : List FAttr), (as.map (·.name)).Nodup → ∀ {env env1 : Env},
    encCalculated X as env = .ok env1 → (∀ a ∈ as, ∀ e, PlainAuto a e → env a.name = none) →
    Sub All env env1 ∧ ∀ a ∈ as, ∀ e, PlainAuto a e → ∃ x, env1 a.name = some x ∧ ev X env1 e = .ok x
  | [], _, env, env1, h, _ => by cases h; exact ⟨fun _ _ _ h => h, fun _ h => (nomatch h)⟩
  | a :: as, hnd, env, env1, h, hu => by
    simp only [List.map_cons, List.nodup_cons] at hnd
    by_cases hp : ∃ e, PlainAuto a e
    · obtain ⟨e, he⟩ := hp
      simp only [encCalculated, he.1, he.2, List.isEmpty_nil, if_true] at h
      obtain ⟨x, hx, h⟩ := ok_of_bind h
      have hua := hu a (by simp) e he
      obtain ⟨h1, h2⟩ := encCalculated_ok as hnd.2 h fun b hb e' he' => by
        rw [upd_ne _ _ (fun heq => hnd.1 (List.mem_map.2 ⟨b, hb, heq⟩))]
        exact hu b (by simp [hb]) e' he'
      have hs : Sub All env env1 := Sub.trans (Sub.upd_none hua _) h1
      refine ⟨hs, fun b hb e' he' => ?_⟩
      rcases List.mem_cons.1 hb with rfl | hb
      · have : e' = e := by have := he'.1; rw [he.1] at this; cases this; rfl
        subst this
        exact ⟨x, h1 _ trivial x (by simp), ev_on hs (fun _ _ => trivial) x hx⟩
      · exact h2 b hb e' he'
    · rw [encCalculated_skip fun e he => hp ⟨e, he⟩] at h
      obtain ⟨h1, h2⟩ := encCalculated_ok as hnd.2 h fun b hb => hu b (by simp [hb])
      refine ⟨h1, fun b hb e' he' => ?_⟩
      rcases List.mem_cons.1 hb with rfl | hb
      · exact absurd ⟨e', he'⟩ hp
      · exact h2 b hb e' he'

theorem blenAutos_leaf {n : String} : ∀ {fs : Fields}, n ∈ blenAutos fs →
    ∃ a ∈ fs.leaves, a.name = n ∧ ∃ e, a.auto = some e ∧ e.blens ≠ []
  | .nil, h => by cases h
  | .pad _ _ r, h => blenAutos_leaf (fs := r) h
  | .leaf a _ r, h => by
    simp only [blenAutos, List.mem_append] at h
    rcases h with h | h
    · split at h
      · cases h
      · rename_i hb
        simp only [List.mem_singleton] at h
        refine ⟨a, by simp [Fields.leaves], h.symm, ?_⟩
        cases ha : a.auto with
        | none => simp [FAttr.blens, ha] at hb
        | some e => exact ⟨e, rfl, by simpa [FAttr.blens, ha] using hb⟩
    · obtain ⟨b, hb, h1, h2⟩ := blenAutos_leaf h
      exact ⟨b, by simp [Fields.leaves, hb], h1, h2⟩
  | .cont a _ i r, h => by
    simp only [blenAutos, List.mem_append] at h
    rcases h with h | h
    · obtain ⟨b, hb, h1, h2⟩ := blenAutos_leaf h
      exact ⟨b, by simp [Fields.leaves, hb], h1, h2⟩
    · obtain ⟨b, hb, h1, h2⟩ := blenAutos_leaf h
      exact ⟨b, by simp [Fields.leaves, hb], h1, h2⟩

theorem nodup_name {as : List FAttr} (h : (as.map (·.name)).Nodup) {a b : FAttr} (ha : a ∈ as) (hb : b ∈ as)
    (hn : a.name = b.name) : a = b := by
  induction as with
  | nil => cases ha
  | cons c as ih =>
    simp only [List.map_cons, List.nodup_cons] at h
    rcases List.mem_cons.1 ha with ha' | ha' <;> rcases List.mem_cons.1 hb with hb' | hb'
    · rw [ha', hb']
    · exact absurd (List.mem_map.2 ⟨b, hb', by rw [← hn, ha']⟩) h.1
    · exact absurd (List.mem_map.2 ⟨a, ha', by rw [hn, hb']⟩) h.1
    · exact ih h.2 ha' hb'

/-- All fields can be referred to. -/
abbrev anyField : FAttr → LTy → Bool := fun _ _ => true

/-- No field can be referred to yet. -/
abbrev nothing : String → Prop := fun _ => False

/-- What the fields of the value `v` are on the wire: those stored are taken from `v`, those calculated
without `blen` have the value of their expression. -/
def Holds (X : Ext) (v : Val) (items : Fields) (σ : Env) : Prop :=
  ∀ a ∈ items.leaves,
    (a.auto = none → ∃ x, fieldOf v a.name = .ok x ∧ σ a.name = some x) ∧
    (∀ e, PlainAuto a e → ∃ x, σ a.name = some x ∧ ev X σ e = .ok x)

/-- **C02, C08, C09 for containers.** Whenever the generated encoder of a container type writes `bs` for
`v`, there is a value `σ` for every field such that

* the stored fields have the values that `v` holds, the calculated ones those of their expressions over
  `σ`, and in these `blen(x)` is the number of bytes of the content of `x` as written (`Lg`);
* `bs` consists of the items in declaration order, each encoded with its value in `σ` (`wire`), passed
  through the transforms of the type.

Conditions: no field name twice (rustc rejects it); expressions refer to earlier fields only, as the
compiler demands; at most one length waits at a time (otherwise the order is wrong:
`overlapping_lengths_out_of_order`). -/
theorem encoded_in_order (X : Ext) (d : Decl) {len items} (hb : d.body = .struct len items)
    (hnd : items.names.Nodup) (hsc : Scoped anyField items nothing) (how : oneWaiting items .init none = true)
    (v : Val) (bs : Bytes) (h : runDecl X d v = .ok bs) :
    ∃ (σ : Env) (Lg : List (String × Nat)) (content : Bytes),
      Holds X v items σ ∧ Calculated X Lg items σ ∧ wire X items σ = .ok (Lg, content) ∧
      encXforms X .empty d.xfs (.ok ((), content)) = .ok ((), bs) := by
  rw [runDecl_eq] at h
  by_cases hacc : Accepts d v
  · rw [if_pos hacc] at h
    simp only [encDecl, hb] at h
    obtain ⟨⟨u, out⟩, hx, h⟩ := ok_of_bind h
    cases h
    obtain ⟨content, hk⟩ := encXforms_inner hx
    rw [hk] at hx
    obtain ⟨_, _, hk⟩ := ok_of_bind hk
    obtain ⟨env, hst, hk⟩ := ok_of_bind hk
    obtain ⟨env1, hca, hk⟩ := ok_of_bind hk
    obtain ⟨⟨⟨env2, lens2⟩, ct⟩, hit, hk⟩ := ok_of_bind hk
    cases hk
    obtain ⟨s1, s2⟩ := encStored_ok items.leaves hnd hst
    have hun : ∀ a ∈ items.leaves, ∀ e, a.auto = some e → env a.name = none := by
      intro a ha e he
      rw [s2 a.name]
      · rfl
      · intro b hb hbn hn
        have := nodup_name hnd hb ha hn
        subst this
        rw [he] at hbn; cases hbn
    obtain ⟨c1, c2⟩ := encCalculated_ok items.leaves hnd hca fun a ha e he => hun a ha e he.1
    have hu : ∀ n ∈ blenAutos items, env1 n = none := by
      intro n hn
      obtain ⟨a, ha, rfl, e, he, hbl⟩ := blenAutos_leaf hn
      rw [encCalculated_frame items.leaves hca a.name, hun a ha e he]
      intro b hb e' he' hn'
      have := nodup_name hnd hb ha hn'
      subst this
      have h1 := he'.1; rw [he] at h1; cases h1
      exact hbl he'.2
    obtain ⟨σ, Lf, wb, pre, k1, k2, k3, k4, k5, k6, k7, k8⟩ :=
      items_order items false .init env1 .empty none nothing (fun _ => False) env1 [] env2 lens2 _ hit how hsc hnd
        (fun _ _ h => h) (fun _ _ h => h) (fun _ _ h => h.elim) (fun h => nomatch h) (fun _ _ h => h)
        (fun _ h => nomatch h) hu ⟨fun _ _ _ h => h, fun _ h => h.elim⟩ (fun _ _ h => nomatch h)
    have k5' : pre = [] := k5
    subst k5'
    have k4' : _ = wb := k4
    subst k4'
    refine ⟨σ, Lf, _, fun a ha => ⟨fun hau => ?_, fun e he => ?_⟩, (k8 Lf fun x hx => by simpa using hx).1, k3, hx⟩
    · obtain ⟨x, hx1, hx2⟩ := s1 a ha hau
      exact ⟨x, hx1, k1 _ trivial x (c1 _ trivial x hx2)⟩
    · obtain ⟨x, hx1, hx2⟩ := c2 a ha e he
      exact ⟨x, k1 _ trivial x hx1, ev_on k1 (fun _ _ => trivial) x hx2⟩
  · rw [if_neg hacc] at h; cases h

/-- **C09.** The calculated field `a: T = blen(x) as T` holds the number of bytes of the content of a
container `x` that was written (as `T`). With `encoded_in_order`, which puts `a` where it is declared,
this is C09 for containers without transforms. -/
theorem length_field_value {X : Ext} {Lg : List (String × Nat)} {a : FAttr} {σ : Env} {x : String} {s : Scalar}
    (h : LengthEq X Lg a σ) (ha : a.auto = some (.cast .plain (.blen x) (.scalar s))) :
    ∃ n : Nat, (x, n) ∈ Lg ∧ σ a.name = some (.int ⟨s, s.wrap n⟩) := by
  obtain ⟨L, v, h1, h2, h3⟩ := h _ ha (by simp [Expr.blens])
  cases hl : L x with
  | none =>
    simp only [Expr.withLens, hl] at h3
    cases h3
  | some n =>
    simp only [Expr.withLens, hl] at h3
    have : v = .int ⟨s, s.wrap n⟩ := by cases h3; rfl
    exact ⟨n, h1 x n hl, by rw [h2, this]⟩

/-- Likewise for `a: u64 = blen(x)`. -/
theorem length_field_value_u64 {X : Ext} {Lg : List (String × Nat)} {a : FAttr} {σ : Env} {x : String}
    (h : LengthEq X Lg a σ) (ha : a.auto = some (.blen x)) :
    ∃ n : Nat, (x, n) ∈ Lg ∧ σ a.name = some (.int ⟨.u64, n⟩) := by
  obtain ⟨L, v, h1, h2, h3⟩ := h _ ha (by simp [Expr.blens])
  cases hl : L x with
  | none => simp only [Expr.withLens, hl] at h3; cases h3
  | some n =>
    simp only [Expr.withLens, hl] at h3
    cases h3
    exact ⟨n, h1 x n hl, h2⟩

/-- `container { n: u8 = blen(d) as u8, mid: u16, d: container[n] { xs: u8[..], }, last: u8, }` -/
def lenDecl : Decl :=
  ⟨"m", [], [], .struct none
    (.leaf (lenOf "n" "d") u8T
    (.leaf (plain "mid") u16T
    (.cont (plain "d") (some (.fieldRef "n")) (.leaf (plain "xs") (.array u8T .unbounded) .nil)
    (.leaf (plain "last") u8T .nil))))⟩

def lenItems : Fields :=
  .leaf (lenOf "n" "d") u8T
    (.leaf (plain "mid") u16T
    (.cont (plain "d") (some (.fieldRef "n")) (.leaf (plain "xs") (.array u8T .unbounded) .nil)
    (.leaf (plain "last") u8T .nil)))

/-- The hypotheses of `encoded_in_order` are met by `lenDecl`, and the encoder succeeds. -/
example : lenItems.names.Nodup ∧ Scoped anyField lenItems nothing ∧ oneWaiting lenItems .init none = true ∧
    runDecl soloExt lenDecl (.struct "m" [("n", vu8 99), ("mid", vu16 258), ("xs", .arr [vu8 7, vu8 8, vu8 9]),
      ("last", vu8 5)]) = .ok [3, 1, 2, 7, 8, 9, 5] := by
  refine ⟨by decide, ?_, by decide, ?_⟩
  · simp [lenItems, Scoped, In, FAttr.exprs, LTy.exprs, Expr.refs, Expr.blens, lenOf, plain, u8T, u16T]
  · rw [runDecl_eq, if_pos (by exact ⟨rfl, rfl⟩)]; rfl

/-- The overlapping lengths of `overlapDecl` are excluded. -/
example : oneWaiting (.leaf (lenOf "a" "x") u8T
    (.leaf (lenOf "b" "y") u8T
    (.cont (plain "x") (some (.fieldRef "a")) (.leaf (plain "p") u8T .nil)
    (.cont (plain "y") (some (.fieldRef "b")) (.leaf (plain "q") u8T (.leaf (plain "r") u8T .nil)) .nil)))) .init none
      = false := by decide

/-- `container { n: u8 = blen(d) as u8, d: container[n] { a: u8, } -> a, }` -/
def lenXformDecl : Decl :=
  ⟨"m", [], [], .struct none
    (.leaf (lenOf "n" "d") u8T
    (.cont ⟨"d", none, [⟨"a", none, []⟩], none⟩ (some (.fieldRef "n")) (.leaf (plain "x") u8T .nil) .nil))⟩

/-- **C09, violated for a container with transforms.** `d` takes two bytes on the wire (the transform puts
one in front), `blen(d)` is 1: the length is taken before the transforms are applied. -/
theorem length_ignores_transforms (x : UInt8) :
    runEncode [lenXformDecl] tagEncLib 1 "m" [] (.struct "m" [("n", vu8 0), ("x", vu8 x.toNat)]) = .ok [1, 1, x] := by
  rw [encode_refines]
  have : specEncode [lenXformDecl] tagEncLib 1 "m" [] (.struct "m" [("n", vu8 0), ("x", vu8 x.toNat)]) =
    .ok (intBytes ⟨.u8, .big⟩ 1 ++ (1 :: intBytes ⟨.u8, .big⟩ x.toNat)) := rfl
  rw [this, intBytes_byte]
  rfl

/-- **C02 for the struct arms of a tagged enum, partial.** The bytes are those of the items in declaration
order; the stored fields have the values the variant holds. Missing: calculated fields using `blen` (an
expression can then see the value supplied by the caller, as in `tagged_calculated_leaks`). -/
theorem arm_in_order_partial (X : Ext) (en : String) (arm : Arm) {len items} (hb : arm.body = .cont len items)
    (hnd : items.names.Nodup) (hsc : Scoped anyField items nothing) (hbl : blenAutos items = []) (p : Plan)
    (how : oneWaiting items p none = true) (v : Val) (bs : Bytes) (h : encArm X en arm p v = .ok bs) :
    ∃ (vs : List Val) (σ : Env) (Lg : List (String × Nat)),
      unwrapStruct en arm.attr.name variantMsg items.names v = .ok vs ∧
      (∀ a ∈ items.leaves, a.auto = none → σ a.name = bindNames items.names vs .empty a.name) ∧
      wire X items σ = .ok (Lg, bs) := by
  simp only [encArm, hb] at h
  obtain ⟨vs, hvs, h⟩ := ok_of_bind h
  obtain ⟨env1, hca, h⟩ := ok_of_bind h
  obtain ⟨⟨⟨env2, lens2⟩, ct⟩, hit, h⟩ := ok_of_bind h
  cases h
  obtain ⟨σ, Lf, wb, pre, k1, k2, k3, k4, k5, k6, k7, k8⟩ :=
    items_order items false p env1 .empty none nothing (fun _ => False) env1 [] env2 lens2 _ hit how hsc hnd
      (fun _ _ h => h) (fun _ _ h => h) (fun _ _ h => h.elim) (fun h => nomatch h) (fun _ _ h => h)
      (fun _ h => nomatch h) (by rw [hbl]; exact fun _ h => nomatch h) ⟨fun _ _ _ h => h, fun _ h => h.elim⟩
      (fun _ _ h => nomatch h)
  have k5' : pre = [] := k5
  subst k5'
  have k4' : _ = wb := k4
  subst k4'
  refine ⟨vs, σ, Lf, hvs, fun a ha hau => ?_, k3⟩
  rw [k2 a.name (by rw [hbl]; exact fun h => nomatch h) (fun _ h => nomatch h), encCalculated_frame _ hca]
  intro b hb' e he hn
  have := nodup_name hnd hb' ha hn
  subst this
  have h1 := he.1; rw [hau] at h1; cases h1

/-- Its hypotheses are met by the arm `b` of `tagDecl`. -/
example : encArm (kindEncExt 2) "t" ⟨plain "b", .cont none (.leaf (plain "x") u16T .nil)⟩ .init
    (.variantS "t" "b" [("x", vu16 258)]) = .ok [1, 2] := rfl

end Verif.Props
