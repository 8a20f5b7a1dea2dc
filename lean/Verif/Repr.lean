import Verif.Expr
/-!
# Enums and bitfields: numbering and the generated conversions

Models `semantics/convert/type_/enum_.rs`, `semantics/convert/type_/bitfield.rs` (numbering) and
`compiler/mod.rs` 471-732 (`generate_enum`, `generate_bitfield`).

Simplification: the explicit value of an item is the already converted expression (conversion of
expressions is modelled in `Verif.Sem`); spans and doc names are dropped.
-/
namespace Verif

/-! ## Numbering -/

/-- `ast/types/enum_.rs` 3-8: the source value of an enum item (`Expression`, `Default`, `None`).
Bitfield items (`ast/types/bitfield.rs`) use the same type without `dflt`. -/
inductive ItemVal
  | expr (e : Expr)
  | dflt
  | implicit
  deriving DecidableEq, Repr

/-- Why numbering fails. `panic` is `last_defined_item.as_ref().unwrap()` on an implicit first item. -/
inductive NumErr
  | redefinition (name : String)
  | afterDefault (name : String)
  | invalidInt
  | panic
  deriving DecidableEq, Repr

/-- Loop state of `convert_enum_type` / `convert_bitfield_type`: items so far, `last_defined_item`
and `undefined_counter`. -/
structure NumState where
  items : List (String × Option Expr)
  last : Option (String × Expr)
  counter : Nat
  hasDefault : Bool
  deriving DecidableEq, Repr

def NumState.init : NumState := ⟨[], none, 0, false⟩

/-- The generated expression of an implicit item: `last op counter`
(`enum_.rs` 41-57 with `Add`, `bitfield.rs` 33-48 with `Shl`). -/
def implicitExpr (k : Scalar) (op : BinOp) (s : NumState) : Except NumErr Expr :=
  match s.last with
  | none => .error .panic
  | some (n, e) =>
    match CInt.parse k (Nat.toDigits 10 s.counter) with
    | none => .error .invalidInt
    | some c => .ok (.binary op (.constRef n e) (.int c))

/-- One iteration of `enum_.rs` 13-76. -/
def enumStep (k : Scalar) (s : NumState) (name : String) (v : ItemVal) : Except NumErr NumState :=
  if s.items.any (fun p => p.1 == name) then .error (.redefinition name)
  else if s.hasDefault then .error (.afterDefault name)
  else
    match v with
    | .dflt => .ok ⟨s.items ++ [(name, none)], s.last, s.counter + 1, true⟩
    | .expr e => .ok ⟨s.items ++ [(name, some e)], some (name, e), 1, false⟩
    | .implicit => do
      let e ← implicitExpr k .add s
      .ok ⟨s.items ++ [(name, some e)], s.last, s.counter + 1, false⟩

/-- `enum_.rs` 3-86 (`convert_enum_type`). -/
def enumConvert (k : Scalar) (items : List (String × ItemVal)) : Except NumErr NumState :=
  items.foldlM (fun s p => enumStep k s p.1 p.2) .init

/-- One iteration of `bitfield.rs` 12-57. -/
def bitfieldStep (k : Scalar) (s : NumState) (name : String) (v : Option Expr) : Except NumErr NumState :=
  if s.items.any (fun p => p.1 == name) then .error (.redefinition name)
  else
    match v with
    | some e => .ok ⟨s.items ++ [(name, some e)], some (name, e), 1, false⟩
    | none => do
      let e ← implicitExpr k .shl s
      .ok ⟨s.items ++ [(name, some e)], s.last, s.counter + 1, false⟩

/-- `bitfield.rs` 3-67 (`convert_bitfield_type`). -/
def bitfieldConvert (k : Scalar) (items : List (String × Option Expr)) : Except NumErr NumState :=
  items.foldlM (fun s p => bitfieldStep k s p.1 p.2) .init

/-- `compiler/mod.rs` 485-497 / 619-629: the compiler evaluates each item's constant;
a failure is a panic of protospec. -/
def itemValues (oc : Bool) : List (String × Option Expr) → CRes (List (String × Option CVal))
  | [] => .ok []
  | (n, none) :: rest => do let r ← itemValues oc rest; .ok ((n, none) :: r)
  | (n, some e) :: rest => do
    let v ← constEval oc e
    let r ← itemValues oc rest
    .ok ((n, some v) :: r)

/-! ## Generated enum type -/

/-- An enum as the generated code sees it: variants in order, `none` for the `Default` variant. -/
structure EnumDecl where
  rep : EScalar
  items : List (String × Option Int)
  deriving DecidableEq, Repr

/-- A value of the generated enum type: a unit variant, or the default variant with its payload. -/
inductive EnumVal
  | unit (variant : String)
  | dflt (variant : String) (payload : Int)
  deriving DecidableEq, Repr

/-- `match repr { arms }` of `from_repr` (`compiler/mod.rs` 503-526, 572-577): arms in declaration
order, `none` is the `Err` arm. -/
def fromReprArms : List (String × Option Int) → Int → Option EnumVal
  | [], _ => none
  | (n, some v) :: rest, x => if x = v then some (.unit n) else fromReprArms rest x
  | (n, none) :: _, x => some (.dflt n x)

/-- `from_repr` (`compiler/mod.rs` 572-577). -/
def EnumDecl.fromRepr (d : EnumDecl) (x : Int) : Option EnumVal := fromReprArms d.items x

/-- The arms of `to_repr` (`compiler/mod.rs` 506-526), or `self as rep` on the discriminants
(`compiler/mod.rs` 545-556), which is the same lookup.  `none`: no such variant, impossible for a
Rust value of the type. -/
def toReprArms : List (String × Option Int) → EnumVal → Option Int
  | [], _ => none
  | (n, some v) :: rest, e => if e = .unit n then some v else toReprArms rest e
  | (n, none) :: rest, e =>
    match e with
    | .dflt m p => if m = n then some p else toReprArms rest e
    | .unit _ => toReprArms rest e

/-- `to_repr` (`compiler/mod.rs` 579-581). -/
def EnumDecl.toRepr (d : EnumDecl) (e : EnumVal) : Option Int := toReprArms d.items e

/-- The value is an inhabitant of the generated Rust type. -/
def EnumDecl.Valid (d : EnumDecl) (e : EnumVal) : Prop :=
  match e with
  | .unit n => ∃ v, (n, some v) ∈ d.items
  | .dflt n p => (n, none) ∈ d.items ∧ d.rep.scalar.InRange p

/-! ## Generated bitfield type -/

/-- A bitfield as the generated code sees it: flags in order with their constants. -/
structure BitfieldDecl where
  rep : EScalar
  flags : List (String × Int)
  deriving DecidableEq, Repr

namespace BitfieldDecl

/-- Rust `|`, `&` on the representation type, by bit patterns. -/
def or (d : BitfieldDecl) (a b : Int) : Int :=
  d.rep.scalar.ofPat (d.rep.scalar.toPat a ||| d.rep.scalar.toPat b)
def and (d : BitfieldDecl) (a b : Int) : Int :=
  d.rep.scalar.ofPat (d.rep.scalar.toPat a &&& d.rep.scalar.toPat b)
/-- Rust `!` on the representation type. -/
def compl (d : BitfieldDecl) (a : Int) : Int := d.rep.scalar.wrap (-a - 1)

/-- `ALL` (`compiler/mod.rs` 610, 634): the union of the flags. -/
def all (d : BitfieldDecl) : Int := d.flags.foldl (fun acc p => d.or acc p.2) 0

/-- `from_repr` (`compiler/mod.rs` 675-681). -/
def fromRepr (d : BitfieldDecl) (x : Int) : Option Int :=
  if d.and x (d.compl d.all) ≠ 0 then none else some x

/-- The getter of a flag with constant `f` (`compiler/mod.rs` 641-643). -/
def get (d : BitfieldDecl) (x f : Int) : Bool := d.and x f != 0

/-- The setter of a flag with constant `f` (`compiler/mod.rs` 645-647). -/
def set (d : BitfieldDecl) (x f : Int) : Int := d.or x f

end BitfieldDecl
end Verif
