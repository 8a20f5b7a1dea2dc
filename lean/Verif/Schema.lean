import Verif.Runtime
/-!
# Type declarations as the code generators see them

Models `/repo/protospec-build/src/asg/types/*.rs`, `asg/field.rs`: the semantic graph that
`coder/encode` and `coder/decode` walk.

Shape facts the semantic phase guarantees and this model builds in: enums, bitfields and tagged enums
only occur as the body of a type declaration (`semantics/convert/type_/mod.rs`,
`semantics/convert/type_/container.rs` 30-32); an array element is never an inline container; pads
have no condition, no transform and no calculated value (`container.rs` 91-127).
-/
namespace Verif

/-- `coder/mod.rs` 34-40 (`PrimitiveType`). -/
inductive Prim
  | bool | f32 | f64
  | scalar (s : EScalar)
  deriving DecidableEq, Repr

/-- `coder/mod.rs` 53-62. -/
def Prim.size : Prim → Nat
  | .bool => 1
  | .f32 => 4
  | .f64 => 8
  | .scalar s => s.scalar.size

/-- A generated type with `from_repr` (`compiler/mod.rs` 471-732). -/
inductive ReprTy
  | enum (name : String) (d : EnumDecl)
  | bitfield (name : String) (d : BitfieldDecl)
  deriving DecidableEq, Repr

def ReprTy.rep : ReprTy → EScalar
  | .enum _ d => d.rep
  | .bitfield _ d => d.rep

/-- What `Type::resolved` (`asg/types/mod.rs` 81-86) finds behind a type, as far as the array coders
ask (`coder/decode/array.rs` 26-84). -/
inductive Resolved
  | prim (p : Prim)
  | repr (t : ReprTy)
  | other
  deriving DecidableEq, Repr

/-- `asg/types/array.rs` 3-12: `[e]`, `[..]`, `[..e]`. -/
inductive Len
  | fixed (e : Expr)
  | unbounded
  | term (e : Expr)
  deriving DecidableEq, Repr

/-- The types a non-container field can have. A reference keeps what the generators look up in the
referenced declaration: whether its type is foreign, and what it resolves to. -/
inductive LTy
  | prim (p : Prim)
  | array (elem : LTy) (len : Len)
  | ref (target : String) (foreign : Bool) (res : Resolved) (args : List Expr)
  deriving DecidableEq, Repr

/-- `asg/types/mod.rs` 81-86. -/
def LTy.resolved : LTy → Resolved
  | .prim p => .prim p
  | .array _ _ => .other
  | .ref _ _ r _ => r

/-- `asg/field.rs` 11-16 (`TypeTransform`). -/
structure XformUse where
  name : String
  cond : Option Expr
  args : List Expr
  deriving DecidableEq, Repr

/-- The parts of `asg/field.rs` 18-30 that are not the type. -/
structure FAttr where
  name : String
  cond : Option Expr
  xfs : List XformUse
  auto : Option Expr
  deriving DecidableEq, Repr

/-- The items of a container in order (`asg/types/container.rs` 4-8). -/
inductive Fields
  | nil
  /-- `.pad(len)`; the field is called `_pad{n}` -/
  | pad (name : String) (len : Expr) (rest : Fields)
  | leaf (a : FAttr) (ty : LTy) (rest : Fields)
  | cont (a : FAttr) (len : Option Expr) (items : Fields) (rest : Fields)
  deriving DecidableEq, Repr

namespace Fields

def append : Fields → Fields → Fields
  | nil, g => g
  | pad n e r, g => pad n e (append r g)
  | leaf a t r, g => leaf a t (append r g)
  | cont a l i r, g => cont a l i (append r g)

instance : Append Fields := ⟨append⟩

/-- `asg/types/container.rs` 12-20 (`flatten_view`) without the pads: all non-container fields in
order, those of nested containers included. -/
def leaves : Fields → List FAttr
  | nil => []
  | pad _ _ r => leaves r
  | leaf a _ r => a :: leaves r
  | cont _ _ i r => leaves i ++ leaves r

/-- Names of `leaves`. -/
def names (fs : Fields) : List String := fs.leaves.map (·.name)

end Fields

/-- Body of an arm of a tagged enum. -/
inductive ArmBody
  | leaf (ty : LTy)
  | cont (len : Option Expr) (items : Fields)
  deriving DecidableEq, Repr

/-- One field of a `tagged_enum` container. -/
structure Arm where
  attr : FAttr
  body : ArmBody
  deriving DecidableEq, Repr

/-- The right-hand side of a type declaration. The condition of a newtype is kept; rustc rejects the
code generated for a conditional top-level container, so those have none. -/
inductive Body
  | leaf (cond : Option Expr) (ty : LTy)
  | repr (t : ReprTy)
  | struct (len : Option Expr) (items : Fields)
  | tagged (len : Option Expr) (arms : List Arm)
  deriving DecidableEq, Repr

/-- A type declaration: `type name(params) = body -> transforms`. Default values of parameters are
not modelled: a reference must supply all arguments. -/
structure Decl where
  name : String
  params : List String
  xfs : List XformUse
  body : Body
  deriving DecidableEq, Repr

abbrev Schema := List Decl

def Schema.find (sch : Schema) (n : String) : Option Decl := List.find? (fun d => d.name == n) sch

/-- Functional update of a map. -/
def upd {α β} [DecidableEq α] (f : α → β) (a : α) (b : β) : α → β := fun x => if x = a then b else f x

@[simp] theorem upd_same {α β} [DecidableEq α] (f : α → β) (a : α) (b : β) : upd f a b a = b := by
  simp [upd]

theorem upd_ne {α β} [DecidableEq α] (f : α → β) {a x : α} (b : β) (h : x ≠ a) : upd f a b x = f x := by
  simp [upd, h]

end Verif
