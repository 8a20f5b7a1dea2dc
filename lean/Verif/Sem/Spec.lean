import Verif.Sem.Program
/-!
# What conversion should establish

Declarative specifications for `Props/Sem.lean`. Nothing here mentions how conversion works.
-/
namespace Verif.Sem
open Verif

/-! ## Typing -/

/-- A value of type `t` may be used where `P` is expected as it is. -/
def Accepts (env : Env) (h : Heap) (P : PType) (t : AType) : Prop :=
  P.assignable env h t = .ok true

/-- A value of type `t` may be used where `P` is expected after an implicit conversion to `u`. -/
def Widens (h : Heap) (P : PType) (t u : AType) : Prop :=
  P.coercable h t = .ok true ∧ P.intoType = some u

/-- The expression has the type. -/
def HasType (h : Heap) (e : AExpr) (t : AType) : Prop := getType h e = .ok (some t)

/-- The expression may stand where `P` is expected: its type is accepted, or it is an inserted
conversion of something to the expected type itself. -/
inductive Fits (env : Env) (h : Heap) (P : PType) : AExpr → Prop
  | direct {e t} : HasType h e t → Accepts env h P t → Fits env h P e
  | widened {e t u} : HasType h e t → Widens h P t u → Fits env h P (.cast e u)

/-- The expected type that stands for a type. -/
def Expects (h : Heap) (t : AType) (P : PType) : Prop := toPartial h t = .ok P

/-- Innermost declaration of a field: the first frame from the inside that has the name. -/
inductive FieldVisible : Scope → String → FId → Prop
  | here {fr sc n f} : IMap.get fr.fields n = some f → FieldVisible (fr :: sc) n f
  | outer {fr sc n f} : IMap.get fr.fields n = none → FieldVisible sc n f →
      FieldVisible (fr :: sc) n f

/-- Innermost declaration of a type argument. -/
inductive InputVisible : Scope → String → AType → Prop
  | here {fr sc n t} : IMap.get fr.inputs n = some t → InputVisible (fr :: sc) n t
  | outer {fr sc n t} : IMap.get fr.inputs n = none → InputVisible sc n t →
      InputVisible (fr :: sc) n t

/-- What a name denotes: the innermost field, else the innermost type argument, else the constant. -/
inductive Denotes (p : Prog) (sc : Scope) (n : String) : AExpr → Prop
  | field {f} : FieldVisible sc n f → Denotes p sc n (.fieldRef f)
  | input {t} : (∀ f, ¬ FieldVisible sc n f) → InputVisible sc n t → Denotes p sc n (.inputRef n t)
  | const {c} : (∀ f, ¬ FieldVisible sc n f) → (∀ t, ¬ InputVisible sc n t) →
      IMap.get p.consts n = some c → Denotes p sc n (.constRef c)

/-- Two operands agree: one of them fits what the operator asks for, the other one the type of the
first. -/
def Agree (env : Env) (h : Heap) (P : PType) (l r : AExpr) : Prop :=
  (Fits env h P l ∧ ∃ t Q, HasType h l t ∧ Expects h t Q ∧ Fits env h Q r) ∨
  (Fits env h P r ∧ ∃ t Q, HasType h r t ∧ Expects h t Q ∧ Fits env h Q l)

/-- Number of parameters that must be given. -/
def required (params : List FfiArg) : Nat := params.countP fun a => !a.optional

/-- What the operands of an operator are asked to be: integers (any type at all, see
`compare_any_finding`) for comparisons, anything for equality, booleans for logic, the expected
type for arithmetic. -/
def OperandsOf (op : BinOp) (expected P : PType) : Prop :=
  match op with
  | .lt | .gt | .lte | .gte => P = .scalar .none
  | .eq | .ne => P = .any
  | .or | .and => P = .type .bool
  | _ => P = expected

mutual
/-- The expression is well typed at every node. -/
inductive WellTyped (env : Env) (p : Prog) (sc : Scope) (h : Heap) : AExpr → Prop
  | int {v k} : v.kind = k → k.InRange v.val → WellTyped env p sc h (.int v k)
  | bool {b} : WellTyped env p sc h (.bool b)
  | str {t s} : WellTyped env p sc h (.str t s)
  | name {n e} : Denotes p sc n e → WellTyped env p sc h e
  | binary {op l r} (expected P : PType) : WellTyped env p sc h l → WellTyped env p sc h r →
      OperandsOf op expected P → Agree env h P l r → WellTyped env p sc h (.binary op l r)
  | not {e} (P : PType) : WellTyped env p sc h e → Fits env h P e → Accepts env h P .bool →
      WellTyped env p sc h (.unary .not e)
  | bitNot {e} (P : PType) : WellTyped env p sc h e → Fits env h P e →
      WellTyped env p sc h (.unary .bitNot e)
  | negate {e} (P : PType) : WellTyped env p sc h e → Fits env h P e →
      (∀ s, HasType h e (.scalar s) → s.scalar.signed = true) →
      WellTyped env p sc h (.unary .negate e)
  | cast {e t u} : WellTyped env p sc h e → WellTypedT env p sc h u → HasType h e t →
      canCast env h t u = .ok true → WellTyped env p sc h (.cast e u)
  | widen {e t P u} : WellTyped env p sc h e → HasType h e t → Widens h P t u →
      WellTyped env p sc h (.cast e u)
  | index {a i P} : WellTyped env p sc h a → WellTyped env p sc h i →
      Fits env h (.array (some P)) a → Fits env h (.scalar (.some .u64)) i →
      WellTyped env p sc h (.index a i)
  | ternary {c t f} (P Q : PType) : WellTyped env p sc h c → WellTyped env p sc h t →
      WellTyped env p sc h f → Fits env h (.type .bool) c → Fits env h P t → Fits env h Q f →
      (P = Q ∨ P = .any ∧ ∃ ty, HasType h t ty ∧ Expects h ty Q) →
      WellTyped env p sc h (.ternary c t f)
  | call {fn sig args} : IMap.get p.functions fn = some sig →
      required sig.arguments ≤ args.length → args.length ≤ sig.arguments.length →
      WellTypedArgs env p sc h args (sig.arguments.map (·.type)) →
      WellTyped env p sc h (.call fn sig.ret args)
  | variant {n f x c} : IMap.get p.types n = some f → h[f]? = some x →
      (∃ tg nm rep items, x.type = .enum tg nm rep items ∧ .value c ∈ items) →
      WellTyped env p sc h (.enumAccess f c)
  | flag {n f x c} : IMap.get p.types n = some f → h[f]? = some x →
      (∃ tg nm rep items, x.type = .bitfield tg nm rep items ∧ c ∈ items) →
      WellTyped env p sc h (.enumAccess f c)
  | member {e t c} : WellTyped env p sc h e → HasType h e t →
      (∃ tg nm rep items, resolve h t = .ok (.bitfield tg nm rep items) ∧ c ∈ items) →
      WellTyped env p sc h (.member e c)
/-- Arguments against the types declared for them. -/
inductive WellTypedArgs (env : Env) (p : Prog) (sc : Scope) (h : Heap) :
    List AExpr → List (Option AType) → Prop
  | nil {ts} : WellTypedArgs env p sc h [] ts
  | any {e es ts} : WellTyped env p sc h e → Fits env h .any e →
      WellTypedArgs env p sc h es ts → WellTypedArgs env p sc h (e :: es) (none :: ts)
  | typed {e es t ts P} : WellTyped env p sc h e → Expects h t P → Fits env h P e →
      WellTypedArgs env p sc h es ts → WellTypedArgs env p sc h (e :: es) (some t :: ts)
/-- The expressions inside a type that can be written inside an expression are well typed. -/
inductive WellTypedT (env : Env) (p : Prog) (sc : Scope) (h : Heap) : AType → Prop
  | scalar {s} : WellTypedT env p sc h (.scalar s)
  | f32 : WellTypedT env p sc h .f32
  | f64 : WellTypedT env p sc h .f64
  | bool : WellTypedT env p sc h .bool
  | array {tg el x} : WellTypedT env p sc h el → WellTypedT env p sc h (.array tg el x none)
  | sized {tg el len} : WellTypedT env p sc h el → WellTyped env p sc h len →
      Fits env h (.scalar (.some .u64)) len → WellTypedT env p sc h (.array tg el false (some len))
  | terminated {tg el len} : WellTypedT env p sc h el → WellTyped env p sc h len →
      Fits env h (.array (some (.scalar (.some .u8)))) len →
      WellTypedT env p sc h (.array tg el true (some len))
  | ref {n f x args} : IMap.get p.types n = some f → h[f]? = some x →
      args.length ≤ x.arguments.length →
      (x.arguments.countP fun a => a.default.isNone) ≤ args.length →
      WellTypedArgs env p sc h args (x.arguments.map fun a => some a.type) →
      WellTypedT env p sc h (.ref f args)
end

end Verif.Sem
