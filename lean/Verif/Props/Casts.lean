import Verif.Sem.Types
import Verif.Sem.Spec
/-!
# C37, C38: which types can stand for which

Conversion asks `can_cast_to`, `assignable_from`, `can_coerce_to` (`asg/types/mod.rs`) of two types. Here is the answer as a table over the kinds of types, when no foreign object has to
be asked.
-/
namespace Verif.Props
open Verif Verif.Sem

/-- Spec: a number: an integer or a floating-point number. -/
def IsNumber : AType → Prop
  | .scalar _ | .f32 | .f64 => True
  | _ => False

/-- Spec: the integer type in which an enum or a bitfield is represented. -/
def heldAs : AType → Option Scalar
  | .enum _ _ rep _ => some rep.scalar
  | .bitfield _ _ rep _ => some rep.scalar
  | _ => none

/-- Spec: both are containers, both enums, both bitfields or both arrays. -/
def SameKind : AType → AType → Prop
  | .container .., .container .. => True
  | .enum .., .enum .. => True
  | .bitfield .., .bitfield .. => True
  | .array .., .array .. => True
  | _, _ => False

/-- Spec: every value of the one integer type is one of the other, of the same sign. -/
def Widening (a b : Scalar) : Prop := a.signed = b.signed ∧ a.bits ≤ b.bits

/-- Spec: `x :> T` is allowed for `x` of the first type and `T` the second one. -/
inductive Castable (env : Env) (h : Heap) : AType → AType → Prop
  /-- numbers into numbers, except doubles into doubles -/
  | numbers {a b} : IsNumber a → IsNumber b → ¬ (a = .f64 ∧ b = .f64) → Castable env h a b
  | bool : Castable env h .bool .bool
  /-- an enum or bitfield into an integer that is not wider -/
  | out {a s k} : heldAs a = some k → Widening s.scalar k → Castable env h a (.scalar s)
  /-- an integer into an enum or bitfield that is not wider -/
  | into {s b k} : heldAs b = some k → Widening k s.scalar → Castable env h (.scalar s) b
  /-- the same type -/
  | same {a b} : SameKind a b → env.same h b a = .ok true → Castable env h a b

/-- Spec: a value of the first type may be used where the second one is expected. -/
inductive Implicit (env : Env) (h : Heap) : AType → AType → Prop
  | widen {s t} : Widening s.scalar t.scalar → Implicit env h (.scalar s) (.scalar t)
  | float : Implicit env h .f32 .f32
  | double : Implicit env h .f32 .f64
  | bool : Implicit env h .bool .bool
  | out {a s k} : heldAs a = some k → Widening k s.scalar → Implicit env h a (.scalar s)
  | into {s b k} : heldAs b = some k → Widening s.scalar k → Implicit env h (.scalar s) b
  | same {a b} : SameKind a b → env.same h b a = .ok true → Implicit env h a b

theorem widening_iff (a b : Scalar) : a.canImplicitCastTo b = true ↔ Widening a b := by
  cases a <;> cases b <;> simp [Widening, Scalar.canImplicitCastTo, Scalar.signed, Scalar.size, Scalar.bits]

variable {env : Env} {h : Heap}

/-- **C37.** Exactly these explicit casts are allowed, if no foreign type takes part. -/
theorem castable_iff {a b ra rb : AType} (ha : resolve h a = .ok ra) (hb : resolve h b = .ok rb) (fa : ∀ f, ra ≠ .foreign f) (fb : ∀ f, rb ≠ .foreign f)
    (hs : ∃ x, env.same h rb ra = .ok x) : canCast env h a b = .ok true ↔ Castable env h ra rb := by
  rw [canCast_resolved ha hb]
  obtain ⟨x, hx⟩ := hs
  constructor
  · intro hc
    cases ra <;> cases rb <;> simp only [assignableRes, coerceRes, castRes, Except.bind, hx, Bool.or_false, Bool.or_true, Bool.false_or, Except.ok.injEq,
      Bool.false_eq_true, widening_iff] at hc <;>
      first
        | exact absurd rfl (fa _)
        | exact absurd rfl (fb _)
        | exact .numbers trivial trivial (by simp)
        | exact .bool
        | exact .out rfl hc
        | exact .into rfl hc
        | exact .same trivial (by rw [hx, hc])
  · intro hc
    cases hc with
    | numbers h1 h2 h3 => cases ra <;> cases rb <;> first | exact h1.elim | exact h2.elim | exact absurd ⟨rfl, rfl⟩ h3 | simp [assignableRes, coerceRes, castRes, Except.bind]
    | bool => rfl
    | @out _ s k h1 h2 =>
      cases ra <;> first | cases h1 | skip
      all_goals simp [assignableRes, coerceRes, castRes, Except.bind, (widening_iff _ _).2 h2]
    | @into s _ k h1 h2 =>
      cases rb <;> first | cases h1 | skip
      all_goals simp [assignableRes, coerceRes, castRes, Except.bind, (widening_iff _ _).2 h2]
    | same h1 h2 => cases ra <;> cases rb <;> first | exact h1.elim | simp [assignableRes, Except.bind, h2]

theorem usable_resolved {a b ra rb : AType} (ha : resolve h a = .ok ra) (hb : resolve h b = .ok rb) (fa : ∀ f, ra ≠ .foreign f) :
    (PType.type b).assignable env h a = assignableRes env h rb ra ∧ (PType.type b).coercable h a = .ok (coerceRes ra rb) := by
  refine ⟨?_, ?_⟩
  · rw [PType.assignable, ha, ← assignable_resolved (env := env) hb (resolve_resolved ha)]
    cases ra <;> first | exact absurd rfl (fa _) | rfl
  · rw [PType.coercable, ha]
    exact canCoerce_resolved (resolve_resolved ha) hb

/-- **C38.** Exactly these types may be used for one another without a cast, if no foreign type takes part. -/
theorem implicit_iff {a b ra rb : AType} (ha : resolve h a = .ok ra) (hb : resolve h b = .ok rb) (fa : ∀ f, ra ≠ .foreign f) (fb : ∀ f, rb ≠ .foreign f) :
    ((PType.type b).assignable env h a = .ok true ∨ (PType.type b).coercable h a = .ok true) ↔ Implicit env h ra rb := by
  obtain ⟨e1, e2⟩ := usable_resolved (env := env) ha hb fa
  rw [e1, e2]
  constructor
  · intro hc
    cases ra <;> cases rb <;> simp only [assignableRes, coerceRes, Except.ok.injEq, Bool.false_eq_true, widening_iff, or_false, false_or, or_self, beq_iff_eq] at hc <;>
      first
        | exact absurd rfl (fa _)
        | exact absurd rfl (fb _)
        | exact .float
        | exact .double
        | exact .bool
        | exact .out rfl hc
        | exact .into rfl hc
        | exact .same trivial hc
        | exact .widen (hc.elim (fun e => e ▸ ⟨rfl, Nat.le_refl _⟩) id)
  · intro hc
    cases hc with
    | widen h1 => exact .inr (congrArg _ ((widening_iff _ _).2 h1))
    | float => exact .inl rfl
    | double => exact .inl rfl
    | bool => exact .inl rfl
    | @out _ s k h1 h2 => cases ra <;> first | cases h1 | skip
                          all_goals exact .inr (congrArg _ ((widening_iff _ _).2 h2))
    | @into s _ k h1 h2 => cases rb <;> first | cases h1 | skip
                           all_goals exact .inr (congrArg _ ((widening_iff _ _).2 h2))
    | same h1 h2 => cases ra <;> cases rb <;> first | exact h1.elim | exact .inl h2

/-- **C38.** Where an integer is expected, the same with that integer type, in big endian. -/
theorem integer_expected_iff {a ra : AType} (k : Scalar) (ha : resolve h a = .ok ra) (fa : ∀ f, ra ≠ .foreign f) :
    ((PType.scalar (.some k)).assignable env h a = .ok true ∨ (PType.scalar (.some k)).coercable h a = .ok true) ↔ Implicit env h ra (.scalar ⟨k, .big⟩) := by
  have hb : resolve h (.scalar ⟨k, .big⟩) = .ok (.scalar ⟨k, .big⟩) := resolve_plain rfl
  rw [← implicit_iff ha hb fa (by simp)]
  obtain ⟨e1, e2⟩ := usable_resolved (env := env) ha hb fa
  rw [e1, e2]
  have e3 : (PType.scalar (.some k)).assignable env h a = assignableRes env h (.scalar ⟨k, .big⟩) ra := by
    rw [PType.assignable, ha, ← assignable_resolved (env := env) hb (resolve_resolved ha)]
    cases ra <;> first | exact absurd rfl (fa _) | rfl
  have e4 : (PType.scalar (.some k)).coercable h a = .ok (coerceRes ra (.scalar ⟨k, .big⟩)) := by
    rw [PType.coercable, ha]
    exact canCoerce_resolved (resolve_resolved ha) hb
  rw [e3, e4]

/-- **C37, exactly.** What may be used without a cast may also be cast, except an enum or bitfield into a wider integer, and an integer into a wider enum or bitfield. -/
theorem implicit_castable_iff {a b : AType} (hi : Implicit env h a b) :
    Castable env h a b ↔ ¬ ((∃ k s, heldAs a = some k ∧ b = .scalar s ∧ k.bits < s.scalar.bits) ∨ ∃ k s, a = .scalar s ∧ heldAs b = some k ∧ s.scalar.bits < k.bits) := by
  constructor
  · intro hc hx
    rcases hx with ⟨k, s, h1, rfl, h3⟩ | ⟨k, s, rfl, h1, h3⟩
    · cases hc with
      | numbers h4 => cases a <;> first | exact h4 | cases h1
      | out h4 h5 => rw [h1, Option.some.injEq] at h4; subst h4; exact absurd h5.2 (Nat.not_le.2 h3)
      | into h4 => cases h4
      | same h4 => cases a <;> exact h4
    · cases hc with
      | numbers _ h4 => cases b <;> first | exact h4 | cases h1
      | out h4 => cases h4
      | into h4 h5 => rw [h1, Option.some.injEq] at h4; subst h4; exact absurd h5.2 (Nat.not_le.2 h3)
      | same h4 => cases b <;> exact h4
  · intro hx
    cases hi with
    | widen => exact .numbers trivial trivial (by simp)
    | float => exact .numbers trivial trivial (by simp)
    | double => exact .numbers trivial trivial (by simp)
    | bool => exact .bool
    | @out _ s k h1 h2 => exact .out h1 ⟨h2.1.symm, Nat.not_lt.1 fun h3 => hx (.inl ⟨k, s, h1, rfl, h3⟩)⟩
    | @into s _ k h1 h2 => exact .into h1 ⟨h2.1.symm, Nat.not_lt.1 fun h3 => hx (.inr ⟨k, s, rfl, h1, h3⟩)⟩
    | same h1 h2 => exact .same h1 h2

/-- Cases: a narrower signed integer, an enum over bytes; not a change of sign; doubles cannot be cast to doubles, nor booleans to numbers. -/
example (n : String) (items : List AVariant) :
    Implicit env h (.scalar ⟨.i8, .big⟩) (.scalar ⟨.i64, .little⟩) ∧ Implicit env h (.enum 0 n ⟨.u8, .big⟩ items) (.scalar ⟨.u16, .big⟩) ∧
    ¬ Implicit env h (.scalar ⟨.u8, .big⟩) (.scalar ⟨.i64, .big⟩) ∧ Castable env h (.scalar ⟨.u64, .big⟩) (.scalar ⟨.i8, .big⟩) ∧
    ¬ Castable env h .f64 .f64 ∧ ¬ Castable env h .bool (.scalar ⟨.u8, .big⟩) := by
  refine ⟨.widen (by simp [Widening, Scalar.signed, Scalar.bits, Scalar.size]), .out rfl (by simp [Widening, Scalar.signed, Scalar.bits, Scalar.size]), fun hc => ?_,
    .numbers trivial trivial (by simp), fun hc => ?_, fun hc => ?_⟩
  · cases hc with
    | widen h1 => exact absurd h1.1 (by simp [Scalar.signed])
    | out h1 => cases h1
    | into h1 => cases h1
    | same h1 => exact h1
  · cases hc with
    | numbers _ _ h3 => exact h3 ⟨rfl, rfl⟩
    | same h1 => exact h1
  · cases hc with
    | numbers h1 => exact h1
    | out h1 => cases h1
    | same h1 => exact h1

end Verif.Props
