import Verif.Sem.Program
import Verif.Schema
/-!
# From the semantic graph to what the code generators look at

`/repo/protospec-build/src/coder/` and `compiler/expr.rs` walk the semantic graph (`Sem/Asg.lean`).
What they look at on the way is a `Decl` (`Schema.lean`); this file is that view, with the places where
they panic on the way. The panics that depend on the order of the instructions (`unused auto field`,
`missing register for field`, `unresolved ref`) belong to the generators themselves
(`DecodeVM.lean`, `EncodeVM.lean`).
-/
namespace Verif.Sem
open Verif

/-- Panics of the generators that accepted specifications can run into. -/
inductive GenPanic
  /-- `compiler/mod.rs` 310, 312: `emit_type_ref` of a container or bitfield -/
  | typeRef
  /-- `compiler/expr.rs` 318, 396: `get_type()` is `None` -/
  | noType
  /-- `prelude/len.rs` 8 -/
  | lenOfContainer
  /-- `prelude/sum.rs` 23-25 -/
  | sumOfOther
  /-- `coder/encode/container.rs` 330, 385 -/
  | blenOfOther
  /-- `coder/decode/field.rs` 65 -/
  | nothingConditional
  /-- `compiler/mod.rs` 489-491, 622-624: a constant that is none -/
  | notConstant
  deriving DecidableEq, Repr

/-- Why there is no `Decl`. -/
inductive GFault
  | panic (p : GenPanic)
  /-- endless recursion along references -/
  | diverge
  /-- a shape that the generators take for impossible (`unwrap`, `unimplemented!`) -/
  | shape
  /-- not enough fuel: the nesting of containers is deeper than `n` -/
  | fuel
  /-- accepted by the generators but outside the model of the back end -/
  | outside
  /-- a field index out of the heap: there is no such thing in Rust, see `SFault.dangling` -/
  | dangling
  deriving DecidableEq, Repr

abbrev G := Except GFault

/-- Failures of following references. -/
def ofR {α} : R α → G α
  | .ok a => .ok a
  | .error .diverge => .error .diverge
  | .error _ => .error .dangling

/-- `compiler/mod.rs` 308-331 (`emit_type_ref`): whether it gives a type at all. -/
def emitsType : AType → Bool
  | .container .. | .bitfield .. => false
  | .array _ el _ _ => emitsType el
  | _ => true

/-- The target of a cast (`compiler/expr.rs` 317, 141-151). -/
def castTarget (t : AType) : G CastTy :=
  if emitsType t then
    match t with
    | .scalar s => .ok (.scalar s.scalar)
    | _ => .ok .other
  else .error (.panic .typeRef)

/-- `get_type()` followed by `unwrap`/`expect` (`compiler/expr.rs` 318, 396). -/
def typeOfG (h : Heap) (e : AExpr) : G AType :=
  (ofR (getType h e)).bind fun t =>
  match t with
  | some t => .ok t
  | none => .error (.panic .noType)

/-- `compiler/expr.rs` 318-331: what kind of value is cast. -/
def castSource (h : Heap) (e : AExpr) : G CastSrc :=
  (typeOfG h e).bind fun t => (ofR (resolve h t)).bind fun r =>
  match r with
  | .enum .. => .ok .enum_
  | .bitfield .. => .ok .bitfield
  | _ => .ok .plain

/-- `prelude/len.rs` 6-35: the fixed size of a type, if it has one. -/
def lenSize (h : Heap) (t : AType) : G (Option Nat) :=
  (ofR (resolve h t)).bind fun r =>
  match r with
  | .container .. => .error (.panic .lenOfContainer)
  | .enum _ _ rep _ => .ok (some rep.scalar.size)
  | .bitfield _ _ rep _ => .ok (some rep.scalar.size)
  | .f32 => .ok (some 4)
  | .f64 => .ok (some 8)
  | .bool => .ok (some 1)
  | .scalar s => .ok (some s.scalar.size)
  | _ => .ok none

/-- `prelude/sum.rs` 19-27: only a type that is literally an array of scalars. -/
def summable : AType → Bool
  | .array _ (.scalar _) _ _ => true
  | _ => false

/-- `coder/encode/container.rs` 329-331, 383-386: the field of a `blen` call. -/
def blenTarget (h : Heap) : AExpr → G String
  | .fieldRef f => (ofR (deref h f)).map (·.name)
  | _ => .error (.panic .blenOfOther)

def AType.isContainer : AType → Bool
  | .container .. => true
  | _ => false


/-- `asg/expression/mod.rs` 37-53 as `emit_expression` (`compiler/expr.rs` 253-420) reads it. The
functions of `prelude/mod.rs` are known by name; calls of others are outside the model, and so is a
reference to an inline container outside `blen`. -/
def lowerE (h : Heap) : AExpr → G Expr
  | .binary op l r => do
    let l' ← lowerE h l
    let r' ← lowerE h r
    .ok (.binary op l' r')
  | .unary op e => do
    let e' ← lowerE h e
    .ok (.unary op e')
  | .cast e ty => do
    let e' ← lowerE h e
    let k ← castTarget ty
    let s ← castSource h e
    .ok (.cast s e' k)
  | .index a i => do
    let a' ← lowerE h a
    let i' ← lowerE h i
    .ok (.index a' i')
  | .enumAccess f (.mk n _ v) => do
    let x ← ofR (deref h f)
    let v' ← lowerE h v
    .ok (.enumAccess x.name n v')
  | .int v _ => .ok (.int v)
  | .constRef (.mk n _ v) => do
    let v' ← lowerE h v
    .ok (.constRef n v')
  | .inputRef n _ => .ok (.inputRef n)
  | .fieldRef f => do
    let x ← ofR (deref h f)
    if x.type.isContainer then .error .outside else .ok (.fieldRef x.name)
  | .str _ s => .ok (.str s)
  | .ternary c t f => do
    let c' ← lowerE h c
    let t' ← lowerE h t
    let f' ← lowerE h f
    .ok (.ternary c' t' f')
  | .bool b => .ok (.bool b)
  | .call "len" _ [a] => do
    let t ← typeOfG h a
    let n ← lenSize h t
    let a' ← lowerE h a
    .ok (.len n a')
  | .call "blen" _ [a] => do
    let n ← blenTarget h a
    .ok (.blen n)
  | .call "sum" _ [a] => do
    let t ← typeOfG h a
    let a' ← lowerE h a
    if summable t then .ok (.sum a') else .error (.panic .sumOfOther)
  | .call "bits" _ [a] => do
    let a' ← lowerE h a
    .ok (.bits a')
  | .call "pad" _ [a, b] => do
    let a' ← lowerE h a
    let b' ← lowerE h b
    .ok (.pad a' b')
  | .call _ _ _ => .error .outside
  | .member e (.mk n _ v) => do
    let e' ← lowerE h e
    let v' ← lowerE h v
    .ok (.member e' n v')

def lowerEs (h : Heap) : List AExpr → G (List Expr)
  | [] => .ok []
  | e :: es => do
    let e' ← lowerE h e
    let es' ← lowerEs h es
    .ok (e' :: es')

def lowerOpt (h : Heap) : Option AExpr → G (Option Expr)
  | none => .ok none
  | some e => (lowerE h e).map some

/-! ## Enums and bitfields -/

/-- `compiler/mod.rs` 488-494: the value of a variant. A value that is not an integer does not
compile. -/
def constInt (oc : Bool) (h : Heap) (e : AExpr) : G Int := do
  let e' ← lowerE h e
  match constEval oc e' with
  | .ok (.int i) => .ok i.val
  | .ok _ => .error .outside
  | .error _ => .error (.panic .notConstant)

/-- `compiler/mod.rs` 485-531. -/
def lowerVariants (oc : Bool) (h : Heap) : List AVariant → G (List (String × Option Int))
  | [] => .ok []
  | .default n :: rest => do
    let r ← lowerVariants oc h rest
    .ok ((n, none) :: r)
  | .value (.mk n _ v) :: rest => do
    let i ← constInt oc h v
    let r ← lowerVariants oc h rest
    .ok ((n, some i) :: r)

/-- `compiler/mod.rs` 619-650. -/
def lowerFlags (oc : Bool) (h : Heap) : List AConst → G (List (String × Int))
  | [] => .ok []
  | .mk n _ v :: rest => do
    let i ← constInt oc h v
    let r ← lowerFlags oc h rest
    .ok ((n, i) :: r)

/-- The generated type behind an enum or a bitfield (`compiler/mod.rs` 471-732), if it is one. -/
def lowerRepr (oc : Bool) (h : Heap) : AType → G (Option ReprTy)
  | .enum _ n rep items => do
    let vs ← lowerVariants oc h items
    .ok (some (.enum n ⟨rep, vs⟩))
  | .bitfield _ n rep items => do
    let fs ← lowerFlags oc h items
    .ok (some (.bitfield n ⟨rep, fs⟩))
  | _ => .ok none

/-! ## Types -/

/-- `coder/mod.rs` 34-40: the primitive type, if it is one. -/
def asPrim : AType → Option Prim
  | .scalar s => some (.scalar s)
  | .f32 => some .f32
  | .f64 => some .f64
  | .bool => some .bool
  | _ => none

/-- What `Type::resolved` finds (`asg/types/mod.rs` 81-86), as far as `coder/decode/array.rs` 26-84
asks. -/
def lowerResolved (oc : Bool) (h : Heap) (t : AType) : G Resolved := do
  let r ← ofR (resolve h t)
  let repr ← lowerRepr oc h r
  match repr, asPrim r with
  | some t, _ => .ok (.repr t)
  | none, some p => .ok (.prim p)
  | none, none => .ok .other

/-- The length of an array (`asg/types/array.rs` 3-12, `coder/decode/array.rs` 5-23). -/
def lowerLen (h : Heap) (x : Bool) (len : Option AExpr) : G Len :=
  match x, len with
  | true, none => .ok .unbounded
  | true, some e => (lowerE h e).map .term
  | false, some e => (lowerE h e).map .fixed
  | false, none => .error .shape

/-- The name a reference is called by: that of the foreign object, or that of the declared field
(`coder/decode/mod.rs` 146-160). -/
def refName (x : AField) : String × Bool :=
  match x.type with
  | .foreign n => (n, true)
  | _ => (x.name, false)

/-- The type of a field that is not a container (`coder/decode/mod.rs` 64-162,
`coder/encode/mod.rs` 64-122). Enums and bitfields are declared at the top level only, foreign types
are only reached through references. -/
def lowerTy (oc : Bool) (h : Heap) : AType → G LTy
  | .container .. => .error .shape
  | .enum .. => .error .shape
  | .bitfield .. => .error .shape
  | .foreign _ => .error .shape
  | .scalar s => .ok (.prim (.scalar s))
  | .f32 => .ok (.prim .f32)
  | .f64 => .ok (.prim .f64)
  | .bool => .ok (.prim .bool)
  | .array _ el x len => do
    let el' ← lowerTy oc h el
    let len' ← lowerLen h x len
    .ok (.array el' len')
  | .ref f args => do
    let x ← ofR (deref h f)
    let args' ← lowerEs h args
    let r ← lowerResolved oc h (.ref f args)
    .ok (.ref (refName x).1 (refName x).2 r args')

/-- `asg/field.rs` 11-16. -/
def lowerXforms (h : Heap) : List AXform → G (List XformUse)
  | [] => .ok []
  | x :: rest => do
    let c ← lowerOpt h x.condition
    let as ← lowerEs h x.args
    let r ← lowerXforms h rest
    .ok (⟨x.name, c, as⟩ :: r)

/-- `asg/field.rs` 18-30 without the type. -/
def lowerAttr (h : Heap) (x : AField) : G FAttr := do
  let c ← lowerOpt h x.condition
  let xs ← lowerXforms h x.transforms
  let a ← lowerOpt h x.calculated
  .ok ⟨x.name, c, xs, a⟩

/-- A padding (`coder/decode/mod.rs` 43-59): it is an array with a length, and nothing else. -/
def lowerPad (h : Heap) (x : AField) : G Expr :=
  match x.type with
  | .array _ _ _ (some len) =>
    if x.condition.isNone && x.transforms.isEmpty && x.calculated.isNone then lowerE h len
    else .error .shape
  | _ => .error .shape

/-- Puts an item in front, given its parts. A conditional container needs something inside
(`coder/decode/field.rs` 62-66). A calculated container is outside the model. -/
def contItem (a : FAttr) (len : Option Expr) (items rest : Fields) : G Fields :=
  if a.auto.isSome then .error .outside
  else if a.cond.isSome && items.leaves.isEmpty then .error (.panic .nothingConditional)
  else .ok (.cont a len items rest)

/-- The items of a container, given the view of a nested one. -/
def lowerItemsWith (oc : Bool) (h : Heap) (nested : List (String × FId) → G Fields) :
    List (String × FId) → G Fields
  | [] => .ok .nil
  | (n, f) :: rest => do
    let x ← ofR (deref h f)
    if x.name ≠ n ∨ x.toplevel = true then .error .shape
    else if x.pad then do
      let e ← lowerPad h x
      let r ← lowerItemsWith oc h nested rest
      .ok (.pad n e r)
    else
      match x.type with
      | .container _ _ _ true => .error .shape
      | .container _ len items false => do
        let a ← lowerAttr h x
        let l ← lowerOpt h len
        let i ← nested items
        let r ← lowerItemsWith oc h nested rest
        contItem a l i r
      | t => do
        let a ← lowerAttr h x
        let ty ← lowerTy oc h t
        let r ← lowerItemsWith oc h nested rest
        .ok (.leaf a ty r)

/-- `asg/types/container.rs` 4-8 as `coder/decode/container.rs` 32-45 and
`coder/encode/container.rs` 106-175 walk it, containers nested at most `n` deep. -/
def lowerItems (oc : Bool) (h : Heap) : Nat → List (String × FId) → G Fields
  | 0, _ => .error .fuel
  | n + 1, its => lowerItemsWith oc h (lowerItems oc h n) its

/-- One alternative of a tagged enum (`coder/decode/container.rs` 79-140). -/
def lowerArm (oc : Bool) (h : Heap) (n : Nat) (name : String) (f : FId) : G Arm := do
  let x ← ofR (deref h f)
  if x.name ≠ name ∨ x.toplevel = true ∨ x.pad = true then .error .shape
  else do
    let a ← lowerAttr h x
    if a.auto.isSome then .error .outside
    else
      match x.type with
      | .container _ _ _ true => .error .shape
      | .container _ len items false => do
        let l ← lowerOpt h len
        let i ← lowerItems oc h n items
        .ok ⟨a, .cont l i⟩
      | t => do
        let ty ← lowerTy oc h t
        .ok ⟨a, .leaf ty⟩

def lowerArms (oc : Bool) (h : Heap) (n : Nat) : List (String × FId) → G (List Arm)
  | [] => .ok []
  | (name, f) :: rest => do
    let a ← lowerArm oc h n name f
    let r ← lowerArms oc h n rest
    .ok (a :: r)

/-- The right-hand side of a declaration (`coder/decode/field.rs` 4-34, `coder/encode/field.rs` 4-22).
Conditional enums, bitfields and containers do not compile. -/
def lowerBody (oc : Bool) (h : Heap) (n : Nat) (x : AField) : G Body := do
  let c ← lowerOpt h x.condition
  match x.type with
  | .container _ len items isEnum => do
    let l ← lowerOpt h len
    if c.isSome then .error .outside
    else if isEnum then do
      let arms ← lowerArms oc h n items
      .ok (.tagged l arms)
    else do
      let fs ← lowerItems oc h n items
      .ok (.struct l fs)
  | t => do
    let repr ← lowerRepr oc h t
    match repr with
    | some r => if c.isSome then .error .outside else .ok (.repr r)
    | none => do
      let ty ← lowerTy oc h t
      .ok (.leaf c ty)

/-- The parameters (`compiler/mod.rs` 204-226); those with default values are outside the model. -/
def lowerParams : List AArg → G (List String)
  | [] => .ok []
  | a :: rest =>
    if a.default.isSome then .error .outside
    else if emitsType a.type then (lowerParams rest).map (a.name :: ·)
    else .error (.panic .typeRef)

/-- A type declaration (`compiler/mod.rs` 135-167, 185-290), containers nested at most `n` deep. -/
def lowerDecl (oc : Bool) (h : Heap) (n : Nat) (f : FId) : G Decl := do
  let x ← ofR (deref h f)
  let ps ← lowerParams x.arguments
  let xs ← lowerXforms h x.transforms
  let b ← lowerBody oc h n x
  if x.calculated.isSome then .error .outside
  else .ok ⟨x.name, ps, xs, b⟩

/-- The types of a module (`compiler/mod.rs` 135-168). A type imported under another name does not
compile: its struct gets that name and its functions the old one. -/
def lowerTypes (oc : Bool) (h : Heap) (n : Nat) : List (String × FId) → G Schema
  | [] => .ok []
  | (name, f) :: rest => do
    let x ← ofR (deref h f)
    match x.type with
    | .foreign _ => lowerTypes oc h n rest
    | _ => do
      if x.name ≠ name then .error .outside
      else do
        let d ← lowerDecl oc h n f
        let r ← lowerTypes oc h n rest
        .ok (d :: r)

end Verif.Sem
