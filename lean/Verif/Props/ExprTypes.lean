import Verif.Sem.Types
/-!
# C38: the types of expressions

What `get_type` (`asg/expression/*.rs`) answers, as rules.
-/
namespace Verif.Props
open Verif Verif.Sem

/-- Spec: the operators that compare or connect, whose results are booleans. -/
def truthOps : List BinOp := [.lt, .lte, .gt, .gte, .eq, .ne, .and, .or]

/-- Spec: the type of an expression, if it is known. Operators that are not comparisons have the type of the left operand, or of the right one if that is not known. -/
inductive TypeIs (h : Heap) : AExpr → Option AType → Prop
  | truth {op l r} : op ∈ truthOps → TypeIs h (.binary op l r) (some .bool)
  | left {op l r t u} : op ∉ truthOps → TypeIs h l (some t) → TypeIs h r u → TypeIs h (.binary op l r) (some t)
  | right {op l r u} : op ∉ truthOps → TypeIs h l none → TypeIs h r u → TypeIs h (.binary op l r) u
  | unary {op e t} : TypeIs h e t → TypeIs h (.unary op e) t
  | cast {e t} : TypeIs h (.cast e t) (some t)
  | element {a i tag el x len} : TypeIs h a (some (.array tag el x len)) → TypeIs h (.index a i) (some el)
  | noElement {a i t} : TypeIs h a t → (∀ tag el x len, t ≠ some (.array tag el x len)) → TypeIs h (.index a i) none
  | enumAccess {f v x} : h[f]? = some x → TypeIs h (.enumAccess f v) (some x.type)
  | int {v k} : TypeIs h (.int v k) (some (.scalar ⟨k, .big⟩))
  | const {c} : TypeIs h (.constRef c) (some c.type)
  | input {n t} : TypeIs h (.inputRef n t) (some t)
  | field {f x} : h[f]? = some x → TypeIs h (.fieldRef f) (some x.type)
  | str {tag s} : TypeIs h (.str tag s) (some (.array tag (.scalar ⟨.u8, .big⟩) true (some (.int ⟨.u64, s.length⟩ .u64))))
  | ifTrue {c t f u} : TypeIs h t (some u) → TypeIs h (.ternary c t f) (some u)
  | ifFalse {c t f u} : TypeIs h t none → TypeIs h f u → TypeIs h (.ternary c t f) u
  | bool {b} : TypeIs h (.bool b) (some .bool)
  | call {fn ret args} : TypeIs h (.call fn ret args) (some ret)
  | flag {e m t tag n rep items} : TypeIs h e (some t) → resolve h t = .ok (.bitfield tag n rep items) → TypeIs h (.member e m) (some .bool)
  | noFlag {e m t r} : TypeIs h e (some t) → resolve h t = .ok r → (∀ tag n rep items, r ≠ .bitfield tag n rep items) → TypeIs h (.member e m) none
  | noMember {e m} : TypeIs h e none → TypeIs h (.member e m) none

theorem truthOps_iff (op : BinOp) : boolOp op = true ↔ op ∈ truthOps := by cases op <;> simp [boolOp, truthOps]

theorem bind_eq_ok {α β : Type} {x : R α} {f : α → R β} {b : β} : x.bind f = .ok b ↔ ∃ a, x = .ok a ∧ f a = .ok b := by
  cases x with
  | error e => simp [Except.bind]
  | ok a => simp [Except.bind]

theorem deref_eq_ok {h : Heap} {f : FId} {x : AField} : deref h f = .ok x ↔ h[f]? = some x := by
  unfold deref
  split <;> simp_all

/-- **C38.** These are the types that conversion computes. -/
theorem expression_type_iff (h : Heap) : ∀ (e : AExpr) (t : Option AType), getType h e = .ok t ↔ TypeIs h e t
  | .binary op l r, t => by
    rw [getType]
    split
    · rename_i hb
      rw [truthOps_iff] at hb
      constructor
      · rintro ⟨⟩; exact .truth hb
      · intro ht; cases ht with
        | truth => rfl
        | left h1 => exact absurd hb h1
        | right h1 => exact absurd hb h1
    · rename_i hb
      rw [truthOps_iff] at hb
      simp only [bind_eq_ok, expression_type_iff h l, expression_type_iff h r, Except.ok.injEq]
      constructor
      · rintro ⟨a, h1, b, h2, rfl⟩
        cases a with
        | none => exact .right hb h1 h2
        | some a => exact .left hb h1 h2
      · intro ht; cases ht with
        | truth h1 => exact absurd h1 hb
        | left _ h1 h2 => exact ⟨_, h1, _, h2, rfl⟩
        | right _ h1 h2 => exact ⟨_, h1, _, h2, rfl⟩
  | .unary op e, t => by
    rw [getType, expression_type_iff h e]
    exact ⟨.unary, fun ht => by cases ht; assumption⟩
  | .cast e u, t => by
    rw [getType]
    exact ⟨by rintro ⟨⟩; exact .cast, fun ht => by cases ht; rfl⟩
  | .index a i, t => by
    rw [getType]
    simp only [bind_eq_ok, expression_type_iff h a, Except.ok.injEq]
    constructor
    · rintro ⟨u, h1, rfl⟩
      unfold indexType
      split
      · exact .element h1
      · rename_i hn; exact .noElement h1 hn
    · intro ht; cases ht with
      | element h1 => exact ⟨_, h1, rfl⟩
      | @noElement _ _ u h1 h2 =>
        refine ⟨_, h1, ?_⟩
        unfold indexType
        split
        · exact absurd rfl (h2 _ _ _ _)
        · rfl
  | .enumAccess f v, t => by
    rw [getType]
    simp only [bind_eq_ok, deref_eq_ok, Except.ok.injEq]
    exact ⟨by rintro ⟨x, h1, rfl⟩; exact .enumAccess h1, fun ht => by cases ht with | enumAccess h1 => exact ⟨_, h1, rfl⟩⟩
  | .int v k, t => by
    rw [getType]
    exact ⟨by rintro ⟨⟩; exact .int, fun ht => by cases ht; rfl⟩
  | .constRef c, t => by
    rw [getType]
    exact ⟨by rintro ⟨⟩; exact .const, fun ht => by cases ht; rfl⟩
  | .inputRef n u, t => by
    rw [getType]
    exact ⟨by rintro ⟨⟩; exact .input, fun ht => by cases ht; rfl⟩
  | .fieldRef f, t => by
    rw [getType]
    simp only [bind_eq_ok, deref_eq_ok, Except.ok.injEq]
    exact ⟨by rintro ⟨x, h1, rfl⟩; exact .field h1, fun ht => by cases ht with | field h1 => exact ⟨_, h1, rfl⟩⟩
  | .str tag s, t => by
    rw [getType]
    exact ⟨by rintro ⟨⟩; exact .str, fun ht => by cases ht; rfl⟩
  | .ternary c a b, t => by
    rw [getType]
    simp only [bind_eq_ok, expression_type_iff h a]
    constructor
    · rintro ⟨u, h1, h2⟩
      cases u with
      | none => exact .ifFalse h1 ((expression_type_iff h b t).1 h2)
      | some u => cases h2; exact .ifTrue h1
    · intro ht; cases ht with
      | ifTrue h1 => exact ⟨_, h1, rfl⟩
      | ifFalse h1 h2 => exact ⟨_, h1, (expression_type_iff h b t).2 h2⟩
  | .bool b, t => by
    rw [getType]
    exact ⟨by rintro ⟨⟩; exact .bool, fun ht => by cases ht; rfl⟩
  | .call fn ret args, t => by
    rw [getType]
    exact ⟨by rintro ⟨⟩; exact .call, fun ht => by cases ht; rfl⟩
  | .member e m, t => by
    rw [getType]
    simp only [bind_eq_ok, expression_type_iff h e]
    constructor
    · rintro ⟨u, h1, h2⟩
      cases u with
      | none => cases h2; exact .noMember h1
      | some u =>
        simp only [memberType, bind_eq_ok] at h2
        obtain ⟨r, h3, h4⟩ := h2
        split at h4
        · cases h4; exact .flag h1 h3
        · rename_i hn; cases h4; exact .noFlag h1 h3 hn
    · intro ht; cases ht with
      | flag h1 h2 => exact ⟨_, h1, by simp [memberType, h2, Except.bind]⟩
      | noFlag h1 h2 h3 =>
        refine ⟨_, h1, ?_⟩
        simp only [memberType, bind_eq_ok]
        refine ⟨_, h2, ?_⟩
        split
        · exact absurd rfl (h3 _ _ _ _)
        · rfl
      | noMember h1 => exact ⟨_, h1, rfl⟩

/-- A case: `a + 1u8 < b` is a boolean, `-(a)` has the type of `a`. -/
example (x : AField) (a : AExpr) : TypeIs [x] (.binary .lt (.binary .add (.fieldRef 0) (.int ⟨.u8, 1⟩ .u8)) a) (some .bool) ∧ TypeIs [x] (.unary .negate (.fieldRef 0)) (some x.type) :=
  ⟨.truth (by simp [truthOps]), .unary (.field rfl)⟩

end Verif.Props
