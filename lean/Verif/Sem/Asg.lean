import Verif.Ast
/-!
# The semantic graph

Models `/repo/protospec-build/src/asg/` (types, expressions, fields) and
`/repo/protospec-build/src/semantics/partial_type.rs`.

The Rust graph shares fields through `Arc<Field>` with interior mutability; here a field is a cell
of a `Heap`, named by its index, and `Arc<Const>`, `Arc<Input>`, `Arc<Function>`, which are never
mutated, are copied in place.

Simplifications:

* spans are dropped. Derived equality on types looks at the spans inside them, so every container,
  enum, bitfield and array type, and every string, carries a `tag` that tells apart the source
  positions that produced it, and derived equality is a parameter (`Env.same`) that may look at
  everything including the tags;
* foreign objects (`ForeignTypeObj`, `ForeignFunctionObj`, `ForeignTransformObj`) are named, and
  what they answer is given by `Env`;
* `can_resolve_auto` of a type argument is not kept.
-/
namespace Verif.Sem
open Verif

/-- Index of a field in the heap: the identity of an `Arc<Field>`. -/
abbrev FId := Nat

mutual
/-- `asg/expression/mod.rs` 37-53. -/
inductive AExpr
  | binary (op : BinOp) (l r : AExpr)
  | unary (op : UnOp) (e : AExpr)
  | cast (e : AExpr) (ty : AType)
  | index (array index : AExpr)
  | enumAccess (enumField : FId) (variant : AConst)
  | int (v : CInt) (k : Scalar)
  | constRef (c : AConst)
  | inputRef (name : String) (ty : AType)
  | fieldRef (f : FId)
  | str (tag : Nat) (content : Text)
  | ternary (c t f : AExpr)
  | bool (b : Bool)
  | call (function : String) (ret : AType) (args : List AExpr)
  | member (e : AExpr) (flag : AConst)
/-- `asg/const_declaration.rs` 3-9. -/
inductive AConst
  | mk (name : String) (type : AType) (value : AExpr)
/-- `asg/types/mod.rs` 21-33 with `asg/types/{container,enum_,bitfield,array,foreign,type_ref}.rs`. -/
inductive AType
  | container (tag : Nat) (length : Option AExpr) (items : List (String × FId)) (isEnum : Bool)
  | enum (tag : Nat) (name : String) (rep : EScalar) (items : List AVariant)
  | bitfield (tag : Nat) (name : String) (rep : EScalar) (items : List AConst)
  | scalar (s : EScalar)
  | array (tag : Nat) (element : AType) (expandable : Bool) (length : Option AExpr)
  | foreign (name : String)
  | f32 | f64 | bool
  | ref (target : FId) (args : List AExpr)
/-- `asg/types/enum_.rs` 10-14 with the name it is filed under (for a value, that of the constant). -/
inductive AVariant
  | value (c : AConst)
  | default (name : String)
end

instance : Inhabited AType := ⟨.bool⟩

def AConst.name : AConst → String | .mk n _ _ => n
def AConst.type : AConst → AType | .mk _ t _ => t
def AConst.value : AConst → AExpr | .mk _ _ v => v
def AVariant.name : AVariant → String | .value c => c.name | .default n => n

/-- `asg/field.rs` 3-9 (`TypeArgument`). -/
structure AArg where
  name : String
  type : AType
  default : Option AExpr

/-- `asg/field.rs` 11-16 (`TypeTransform`). -/
structure AXform where
  name : String
  condition : Option AExpr
  args : List AExpr

/-- `asg/field.rs` 18-30. -/
structure AField where
  name : String
  arguments : List AArg
  type : AType
  calculated : Option AExpr
  condition : Option AExpr
  transforms : List AXform
  toplevel : Bool
  cyclical : Bool
  pad : Bool

/-- All `Arc<Field>` cells, in order of creation. -/
abbrev Heap := List AField

/-- `asg/ffi.rs` 3-7. -/
structure FfiArg where
  name : String
  type : Option AType
  optional : Bool

/-- `asg/function.rs` 3-8: arguments and return type of the foreign object. -/
structure FnSig where
  arguments : List FfiArg
  ret : AType

/-- `semantics/error.rs` 9-88, without spans and rendered types. -/
inductive AsgError
  | ffiMissing (name : String)
  | importMissing
  | importUnresolved (name module : String)
  | importParse
  | typeRedefinition (name : String)
  | transformRedefinition (name : String)
  | functionRedefinition (name : String)
  | constRedefinition (name : String)
  | constTypeDefinition (name : String)
  | castTypeDefinition
  | enumDefaultRedefinition (name : String)
  | enumVariantRedefinition (name : String)
  | bitfieldFlagRedefinition (name : String)
  | containerFieldRedefinition (name : String)
  | unresolvedType (name : String)
  | unresolvedVar (name : String)
  | unresolvedTransform (name : String)
  | unresolvedFunction (name : String)
  | unexpectedType
  | illegalCast
  | referencedDefaultEnumVariant (enum variant : String)
  | unresolvedEnumVariant (enum variant : String)
  | unresolvedBitfieldVariant (bitfield variant : String)
  | uninferredType
  | invalidInt (value : String)
  | invalidFFIArgumentCount (min max given : Nat)
  | invalidTypeArgumentCount (min max given : Nat)
  | invalidTypeArgumentOrder
  | invalidFlag (name : String)
  | inlineRepetition
  | mustBeToplevel
  | enumContainerFieldAfterUnconditional
  | enumContainerPad
  | bitfieldMemberUndefined (name : String)
  | unknown
  deriving DecidableEq, Repr

/-- How conversion can fail: with an error, by panicking, by running forever (in practice a stack
overflow), or, impossible on graphs that conversion builds, on a dangling field index. -/
inductive SFault
  | asg (e : AsgError)
  | panic (msg : String)
  | diverge
  | dangling
  deriving DecidableEq, Repr

abbrev R := Except SFault

/-! ## Following references -/

/-- The field an index names. -/
def deref (h : Heap) (f : FId) : R AField :=
  match h[f]? with
  | some x => .ok x
  | none => .error .dangling

/-- `asg/types/mod.rs` 83-88 (`resolved`), following at most `n` references. -/
def resolvedN (h : Heap) : Nat → AType → R AType
  | 0, .ref _ _ => .error .diverge
  | n + 1, .ref f _ => (deref h f).bind fun x => resolvedN h n x.type
  | _, t => .ok t

/-- `asg/types/mod.rs` 83-88. A chain of references longer than the heap repeats a field, hence
never ends (`resolve_diverges` in `Sem/Lemmas.lean`). -/
def resolve (h : Heap) (t : AType) : R AType := resolvedN h (h.length + 1) t

/-! ## Expected types -/

/-- `semantics/partial_type.rs` 11-16. -/
inductive PScalar
  | some (k : Scalar)
  | defaults (k : Scalar)
  | none
  deriving DecidableEq, Repr

/-- `semantics/partial_type.rs` 3-9. -/
inductive PType
  | type (t : AType)
  | scalar (p : PScalar)
  | array (element : Option PType)
  | any

/-- `semantics/partial_type.rs` 86-95 for a type whose references are handled by `follow`. -/
def toPartialWith (follow : FId → R PType) : AType → R PType
  | .ref f _ => follow f
  | .scalar s => .ok (.scalar (.some s.scalar))
  | .array _ el _ _ => (toPartialWith follow el).map fun p => .array (some p)
  | t => .ok (.type t)

/-- `semantics/partial_type.rs` 86-95, following at most `n` references in a row. -/
def toPartialN (h : Heap) : Nat → AType → R PType
  | 0 => toPartialWith fun _ => .error .diverge
  | n + 1 => toPartialWith fun f => (deref h f).bind fun x => toPartialN h n x.type

/-- `semantics/partial_type.rs` 86-95 (`Into<PartialType> for Type`). -/
def toPartial (h : Heap) (t : AType) : R PType := toPartialN h (h.length + 1) t

/-- What is not fixed by the code that is modelled: derived equality of container, enum, bitfield
and array types (structural equality including spans; may diverge on recursive types), the answers
of foreign objects, and the resolver handed to protospec. -/
structure Env where
  /-- `#[derive(PartialEq)]` in `asg/types/{container,enum_,bitfield,array}.rs`. -/
  same : Heap → AType → AType → R Bool
  /-- `ForeignType::assignable_from` of the named object (`ffi/type_.rs` 25-27). -/
  ftFrom : String → Heap → AType → R Bool
  /-- `ForeignType::assignable_to` (`ffi/type_.rs` 29-32). -/
  ftTo : String → Heap → AType → R Bool
  /-- `ForeignType::assignable_to_partial` (`ffi/type_.rs` 47-58). -/
  ftToPartial : String → Heap → PType → R Bool
  /-- `ImportResolver::normalize_import` (`import.rs` 6), after `String::from_utf8_lossy`. -/
  normalize : Text → R String
  /-- `ImportResolver::resolve_import` (`import.rs` 8) followed by `parse`: no such module,
  a module that does not parse, or its syntax tree. -/
  load : String → R (Option (Option Ast.Program))
  /-- `ImportResolver::resolve_ffi_type` (`import.rs` 12): the type's arguments. -/
  ffiType : String → R (Option (List AArg))
  /-- `ImportResolver::resolve_ffi_transform` (`import.rs` 10). -/
  ffiTransform : String → R (Option (List FfiArg))
  /-- `ImportResolver::resolve_ffi_function` (`import.rs` 14). -/
  ffiFunction : String → R (Option FnSig)
  /-- `ImportResolver::prelude_ffi_functions` (`import.rs` 16). -/
  prelude : List (String × FnSig)

/-! ## Assignability, coercion, casts -/

/-- `asg/types/mod.rs` 90-113 on resolved types (the arms for `Ref` cannot be reached). -/
def assignableRes (env : Env) (h : Heap) (t1 t2 : AType) : R Bool :=
  match t1, t2 with
  | t1, .foreign f2 => env.ftTo f2 h t1
  | .foreign f1, t2 => env.ftFrom f1 h t2
  | .container .., .container .. => env.same h t1 t2
  | .enum .., .enum .. => env.same h t1 t2
  | .bitfield .., .bitfield .. => env.same h t1 t2
  | .scalar s1, .scalar s2 => .ok (s2 == s1)
  | .array .., .array .. => env.same h t1 t2
  | .f32, .f32 => .ok true
  | .f64, .f32 => .ok true
  | .bool, .bool => .ok true
  | _, _ => .ok false

/-- `asg/types/mod.rs` 90-113 (`self.assignable_from(other)`). -/
def assignable (env : Env) (h : Heap) (self other : AType) : R Bool :=
  (resolve h self).bind fun a => (resolve h other).bind fun b => assignableRes env h a b

/-- `asg/types/mod.rs` 115-141 on resolved types. -/
def coerceRes : AType → AType → Bool
  | .enum _ _ rep _, .scalar s => rep.scalar.canImplicitCastTo s.scalar
  | .bitfield _ _ rep _, .scalar s => rep.scalar.canImplicitCastTo s.scalar
  | .scalar s, .enum _ _ rep _ => s.scalar.canImplicitCastTo rep.scalar
  | .scalar s, .bitfield _ _ rep _ => s.scalar.canImplicitCastTo rep.scalar
  | .scalar s1, .scalar s2 => s1.scalar.canImplicitCastTo s2.scalar
  | _, _ => false

/-- `asg/types/mod.rs` 115-141 (`self.can_coerce_to(other)`). -/
def canCoerce (h : Heap) (self other : AType) : R Bool :=
  (resolve h self).bind fun a => (resolve h other).bind fun b => .ok (coerceRes a b)

/-- `asg/types/mod.rs` 147-156 on resolved types. -/
def castRes : AType → AType → Bool
  | .scalar _, .scalar _ => true
  | .f32, .f64 => true
  | .f64, .f32 => true
  | .f32, .scalar _ => true
  | .f64, .scalar _ => true
  | .scalar _, .f32 => true
  | .scalar _, .f64 => true
  | _, _ => false

/-- `asg/types/mod.rs` 143-157 (`self.can_cast_to(to)`); note `to.can_coerce_to(self)`. -/
def canCast (env : Env) (h : Heap) (self to : AType) : R Bool :=
  (assignable env h to self).bind fun a => if a then .ok true else
  (canCoerce h to self).bind fun c => if c then .ok true else
  (resolve h self).bind fun x => (resolve h to).bind fun y => .ok (castRes x y)

/-- `semantics/partial_type.rs` 19-38 (`self.assignable_from(other)`). -/
def PType.assignable (env : Env) (h : Heap) : PType → AType → R Bool
  | .type x, other => (resolve h other).bind fun o =>
    match o with
    | .foreign f => env.ftToPartial f h (.type x)
    | o => Sem.assignable env h x o
  | .scalar p, other => (resolve h other).bind fun o =>
    match p, o with
    | p, .foreign f => env.ftToPartial f h (.scalar p)
    | .some k, o => Sem.assignable env h (.scalar k.toE) o
    | .defaults k, o => Sem.assignable env h (.scalar k.toE) o
    | .none, _ => .ok true
  | .array none, other => (resolve h other).bind fun o =>
    match o with
    | .foreign f => env.ftToPartial f h (.array none)
    | .array .. => .ok true
    | _ => .ok false
  | .array (some el), other => (resolve h other).bind fun o =>
    match o with
    | .foreign f => env.ftToPartial f h (.array (some el))
    | .array _ t _ _ => el.assignable env h t
    | _ => .ok false
  | .any, other => (resolve h other).bind fun o =>
    match o with
    | .foreign f => env.ftToPartial f h .any
    | _ => .ok true

/-- `semantics/partial_type.rs` 40-61 (`self.coercable_from(other)`). The two arms for an enum
(42-51) are left out: they are instances of the general arms (52-57). -/
def PType.coercable (h : Heap) (self : PType) (other : AType) : R Bool :=
  (resolve h other).bind fun o =>
  match self with
  | .scalar (.some k) => canCoerce h o (.scalar k.toE)
  | .scalar (.defaults k) => canCoerce h o (.scalar k.toE)
  | .type x => canCoerce h o x
  | _ => .ok false

/-- `semantics/partial_type.rs` 63-70. -/
def PType.intoType : PType → Option AType
  | .type t => some t
  | .scalar (.some k) => some (.scalar k.toE)
  | .scalar (.defaults k) => some (.scalar k.toE)
  | _ => none

/-! ## Types of expressions -/

/-- The operators whose result is a boolean (`asg/expression/binary.rs` 15). -/
def boolOp : BinOp → Bool
  | .lt | .gt | .lte | .gte | .eq | .ne | .or | .and => true
  | _ => false

/-- `Option::or` on two computed types. -/
def orTy : Option AType → Option AType → Option AType
  | some t, _ => some t
  | none, o => o

/-- `asg/expression/member.rs` 11-19. -/
def memberType (h : Heap) : Option AType → R (Option AType)
  | none => .ok none
  | some t => (resolve h t).bind fun r =>
    match r with
    | .bitfield .. => .ok (some .bool)
    | _ => .ok none

/-- `asg/expression/array_index.rs` 10-18: only a type that is literally an array has elements. -/
def indexType : Option AType → Option AType
  | some (.array _ el _ _) => some el
  | _ => none

/-- `asg/expression/mod.rs` 55-92 and the `get_type`s it calls. -/
def getType (h : Heap) : AExpr → R (Option AType)
  | .binary op l r =>
    if boolOp op then .ok (some .bool)
    else (getType h l).bind fun a => (getType h r).bind fun b => .ok (orTy a b)
  | .unary _ e => getType h e
  | .cast _ ty => .ok (some ty)
  | .index a _ => (getType h a).bind fun t => .ok (indexType t)
  | .enumAccess f _ => (deref h f).bind fun x => .ok (some x.type)
  | .int _ k => .ok (some (.scalar k.toE))
  | .constRef c => .ok (some c.type)
  | .inputRef _ ty => .ok (some ty)
  | .fieldRef f => (deref h f).bind fun x => .ok (some x.type)
  | .str tag content => .ok (some (.array tag (.scalar Scalar.u8.toE) true
      (some (.int ⟨.u64, content.length⟩ .u64))))
  | .ternary _ t f => (getType h t).bind fun a =>
      match a with
      | some t => .ok (some t)
      | none => getType h f
  | .bool _ => .ok (some .bool)
  | .call _ ret _ => .ok (some ret)
  | .member e _ => (getType h e).bind (memberType h)

end Verif.Sem
