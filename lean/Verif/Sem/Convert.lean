import Verif.Sem.Asg
/-!
# Conversion of syntax trees to the semantic graph

Models `/repo/protospec-build/src/semantics/convert/` (except `program/`, see `Sem/Program.lean`),
`semantics/resolve.rs` and `semantics/scope.rs`.
-/
namespace Verif.Sem
open Verif

/-! ## Insertion-ordered maps -/

/-- `IndexMap::get`. -/
def IMap.get {α} (m : List (String × α)) (k : String) : Option α :=
  match m with
  | [] => none
  | (n, v) :: m => if n = k then some v else IMap.get m k

/-- `IndexMap::insert`: replaces the value in place if the key is present, else appends. -/
def IMap.insert {α} (m : List (String × α)) (k : String) (v : α) : List (String × α) :=
  match m with
  | [] => [(k, v)]
  | (n, w) :: m => if n = k then (n, v) :: m else (n, w) :: IMap.insert m k v

/-! ## State -/

/-- The cells created so far and a counter for tags. -/
structure St where
  heap : Heap
  tag : Nat

abbrev M := StateT St R

/-- `asg/program.rs` 3-9. -/
structure Prog where
  types : List (String × FId)
  consts : List (String × AConst)
  transforms : List (String × List FfiArg)
  functions : List (String × FnSig)

/-- One `Scope` (`semantics/scope.rs`) without its link to the parent. -/
structure Frame where
  fields : List (String × FId)
  inputs : List (String × AType)

/-- A scope and its parents, innermost first. -/
abbrev Scope := List Frame

def fail {α} (e : AsgError) : M α := fun _ => .error (.asg e)
def panic {α} (msg : String) : M α := fun _ => .error (.panic msg)
/-- Run something that only reads the graph. -/
def withHeap {α} (f : Heap → R α) : M α := fun s => (f s.heap).map fun a => (a, s)
/-- Run something that does not look at the state. -/
def liftR {α} (r : R α) : M α := fun s => r.map fun a => (a, s)
/-- Go on if the condition holds. -/
def check (c : Bool) (e : AsgError) : M Unit := if c then pure () else fail e
/-- A new source position. -/
def fresh : M Nat := fun s => .ok (s.tag, { s with tag := s.tag + 1 })
/-- `Arc::new(Field { .. })`. -/
def alloc (f : AField) : M FId := fun s => .ok (s.heap.length, { s with heap := s.heap ++ [f] })
/-- Replace the contents of a field's `RefCell`s. -/
def update (f : FId) (g : AField → AField) : M Unit :=
  fun s => .ok ((), { s with heap := s.heap.modify f g })
/-- Keep an `AsgResult` as a value: `none` is an error. The graph is as it was before. -/
def attempt {α} (m : M α) : M (Option α) := fun s =>
  match m s with
  | .ok (a, s') => .ok (some a, s')
  | .error (.asg _) => .ok (none, s)
  | .error e => .error e

/-- Run something and restore the state: the same source is about to be converted again, at the
same positions. -/
def peek {α} (m : M α) : M α := fun s => (m s).map fun x => (x.1, s)

/-! ## Names -/

/-- `semantics/resolve.rs` 4-12. -/
def resolveField (sc : Scope) (name : String) : Option FId :=
  match sc with
  | [] => none
  | fr :: sc => match IMap.get fr.fields name with
    | some f => some f
    | none => resolveField sc name

/-- `semantics/resolve.rs` 14-22. -/
def resolveInput (sc : Scope) (name : String) : Option AType :=
  match sc with
  | [] => none
  | fr :: sc => match IMap.get fr.inputs name with
    | some t => some t
    | none => resolveInput sc name

/-- `convert/expression/var_ref.rs` 4-19. -/
def convRef (p : Prog) (sc : Scope) (name : String) : M AExpr :=
  match resolveField sc name with
  | some f => pure (.fieldRef f)
  | none => match resolveInput sc name with
    | some t => pure (.inputRef name t)
    | none => match IMap.get p.consts name with
      | some c => pure (.constRef c)
      | none => fail (.unresolvedVar name)

/-! ## Pieces of expression conversion -/

/-- `Expression::get_type`. -/
def typeOf (e : AExpr) : M (Option AType) := withHeap fun h => getType h e

/-- `IndexMap::get`, or an error. -/
def lookup {α} (m : List (String × α)) (name : String) (e : AsgError) : M α :=
  match IMap.get m name with
  | some x => pure x
  | none => fail e

/-- `convert/expression/mod.rs` 83-105 (`assign_to_or_coerce_to`). -/
def finishR (env : Env) (expected : PType) (e : AExpr) (h : Heap) : R AExpr :=
  (getType h e).bind fun t =>
  match t with
  | none => .error (.panic "coercion missing type")
  | some t => (expected.assignable env h t).bind fun a =>
    if a then .ok e else (expected.coercable h t).bind fun c =>
    if c then
      match expected.intoType with
      | some ty => .ok (.cast e ty)
      | none => .error (.asg .uninferredType)
    else .error (.asg .unexpectedType)

def finish (env : Env) (expected : PType) (e : AExpr) : M AExpr := withHeap (finishR env expected e)

/-- `if !expected.assignable_from(&Type::Bool) { return Err(UnexpectedType) }`. -/
def expectBoolR (env : Env) (expected : PType) (h : Heap) : R Unit :=
  (expected.assignable env h .bool).bind fun b =>
    if b then .ok () else .error (.asg .unexpectedType)

/-- `convert/expression/binary.rs` 11-22: a comparison or logical operator needs that a boolean be
acceptable. -/
def checkBinary (env : Env) (op : BinOp) (expected : PType) : M Unit :=
  withHeap fun h => if boolOp op then expectBoolR env expected h else .ok ()

/-- `convert/expression/binary.rs` 23-28: what the first operand is converted against. -/
def initExpected (op : BinOp) (expected : PType) : PType :=
  match op with
  | .lt | .gt | .lte | .gte => .scalar .none
  | .eq | .ne => .any
  | .or | .and => .type .bool
  | _ => expected

/-- Type of an operand that may have failed to convert (`convert/expression/binary.rs` 30). -/
def typeOfLeft : Option AExpr → M (Option AType)
  | none => pure none
  | some e => typeOf e

/-- `convert/expression/binary.rs` 29-43 given the conversions of the two operands. -/
def convOperands (left right : PType → M AExpr) (init : PType) : M (AExpr × AExpr) := do
  let l ← attempt (left init)
  match l, ← typeOfLeft l with
  | some l, some lt => do
    let e ← withHeap fun h => toPartial h lt
    let r ← right e
    pure (l, r)
  | _, _ => do
    let r ← right init
    match ← typeOf r with
    | none => fail .uninferredType
    | some rt => do
      let e ← withHeap fun h => toPartial h rt
      let l ← left e
      match ← typeOf l with
      | none => fail .uninferredType
      | some _ => pure (l, r)

/-- `convert/expression/unary.rs` 14-46: the checks between the two conversions of the operand. -/
def checkUnaryR (env : Env) (op : UnOp) (expected : PType) (inner : AExpr) (h : Heap) : R Unit :=
  match op with
  | .not => expectBoolR env expected h
  | op => (getType h inner).bind fun t =>
    match t with
    | none => .ok ()
    | some t => ((PType.scalar .none).assignable env h t).bind fun b =>
      if b then
        match op, t with
        | .negate, .scalar s => if s.scalar.signed then .ok () else .error (.asg .unexpectedType)
        | _, _ => .ok ()
      else .error (.asg .unexpectedType)

def checkUnary (env : Env) (op : UnOp) (expected : PType) (inner : AExpr) : M Unit :=
  withHeap (checkUnaryR env op expected inner)

/-- `convert/expression/cast.rs` 15-26. -/
def checkCastR (env : Env) (inner : AExpr) (target : AType) (h : Heap) : R Unit :=
  (getType h inner).bind fun t =>
  match t with
  | none => .error (.asg .uninferredType)
  | some t => (canCast env h t target).bind fun b =>
    if b then .ok () else .error (.asg .illegalCast)

def checkCast (env : Env) (inner : AExpr) (target : AType) : M Unit :=
  withHeap (checkCastR env inner target)

/-- Lookup of an enum variant by name. -/
def findVariant (items : List AVariant) (name : String) : Option AVariant :=
  items.find? fun v => v.name = name

/-- Lookup of a bitfield flag by name. -/
def findFlag (items : List AConst) (name : String) : Option AConst :=
  items.find? fun c => c.name = name

/-- `convert/expression/enum_access.rs` 4-64. -/
def enumAccessR (p : Prog) (name variant : String) (h : Heap) : R AExpr :=
  match IMap.get p.types name with
  | none => .error (.asg (.unresolvedType name))
  | some f => (deref h f).bind fun field =>
    match field.type with
    | .enum _ _ _ items =>
      match findVariant items variant with
      | none => .error (.asg (.unresolvedEnumVariant field.name variant))
      | some (.value c) => .ok (.enumAccess f c)
      | some (.default _) => .error (.asg (.referencedDefaultEnumVariant field.name variant))
    | .bitfield _ _ _ items =>
      match findFlag items variant with
      | none => .error (.asg (.unresolvedBitfieldVariant field.name variant))
      | some c => .ok (.enumAccess f c)
    | _ => .error (.asg .unexpectedType)

def convEnumAccess (p : Prog) (name variant : String) : M AExpr :=
  withHeap (enumAccessR p name variant)

/-- `convert/expression/int.rs` 9-20: the kind of an integer literal. -/
def intKind (type : Option Scalar) (expected : PType) : Option Scalar :=
  match expected, type with
  | _, some k => some k
  | .scalar (.some k), none => some k
  | .scalar (.defaults k), none => some k
  | _, none => none

/-- `convert/expression/int.rs` 4-26. -/
def convIntR (value : String) (type : Option Scalar) (expected : PType) : R AExpr :=
  match intKind type expected with
  | none => .error (.asg .unexpectedType)
  | some k => match CInt.parse k value.toList with
    | some v => .ok (.int v k)
    | none => .error (.asg (.invalidInt value))

def convInt (value : String) (type : Option Scalar) (expected : PType) : M AExpr :=
  liftR (convIntR value type expected)

/-- `convert/expression/member.rs` 12-32. -/
def convMemberR (target : AExpr) (member : String) (h : Heap) : R AExpr :=
  (getType h target).bind fun t =>
  match t with
  | none => .error (.asg .uninferredType)
  | some t => (resolve h t).bind fun r =>
    match r with
    | .bitfield _ _ _ items =>
      match findFlag items member with
      | some c => .ok (.member target c)
      | none => .error (.asg (.bitfieldMemberUndefined member))
    | _ => .error (.asg .unexpectedType)

def convMember (target : AExpr) (member : String) : M AExpr := withHeap (convMemberR target member)

/-- `convert/expression/ternary.rs` 11-17: what the second branch is converted against. -/
def ternaryRightR (expected : PType) (ifTrue : AExpr) (h : Heap) : R PType :=
  match expected with
  | .any => (getType h ifTrue).bind fun t =>
    match t with
    | none => .error (.asg .uninferredType)
    | some t => toPartial h t
  | x => .ok x

def ternaryRight (expected : PType) (ifTrue : AExpr) : M PType :=
  withHeap (ternaryRightR expected ifTrue)

/-- `convert/ffi_arguments.rs` 11-28: the checks on the number of arguments. -/
def ffiCountR (params : List FfiArg) (given : Nat) : R Unit :=
  let min := (params.filter fun a => !a.optional).length
  if min < given ∧ (params.drop (params.length - min)).any (fun a => !a.optional) then
    .error (.panic "cannot have ffi transform with required arguments after optional arguments")
  else if given < min ∨ given > params.length then
    .error (.asg (.invalidFFIArgumentCount min params.length given))
  else .ok ()

def checkFfiCount (params : List FfiArg) (given : Nat) : M Unit := liftR (ffiCountR params given)

/-- `convert/type_/type_ref.rs` 9-30: the checks on the number of type arguments. -/
def typeCountR (params : List AArg) (given : Nat) : R Unit :=
  let min := (params.filter fun a => a.default.isNone).length
  if min < given ∧ (params.drop (params.length - min)).any (fun a => a.default.isSome) then
    .error (.asg .invalidTypeArgumentOrder)
  else if given < min ∨ given > params.length then
    .error (.asg (.invalidTypeArgumentCount min params.length given))
  else .ok ()

def checkTypeCount (params : List AArg) (given : Nat) : M Unit := liftR (typeCountR params given)

/-- What an argument is converted against: its declared type, or anything. -/
def argExpected (t : Option AType) : M PType := withHeap fun h =>
  match t with
  | some t => toPartial h t
  | none => .ok .any

/-- `convert/type_/mod.rs` 13-20. -/
inductive Purpose
  | typeDefinition (name : String)
  | constDefinition
  | arrayInterior
  | fieldInterior
  | expression
  deriving DecidableEq, Repr

def Purpose.isDefinition : Purpose → Bool
  | .typeDefinition _ => true
  | _ => false

/-- `convert/type_/mod.rs` 35-45: enums and bitfields must be definitions; the name defined. -/
def definedName : Purpose → M String
  | .typeDefinition name => pure name
  | _ => fail .mustBeToplevel

/-- `ast/types/mod.rs` 42-47. -/
def inlinable : Ast.Ty → Bool
  | .container .. | .enum .. | .bitfield .. => false
  | _ => true

/-- `convert/type_/container.rs` 21-27: whether the flags ask for a tagged enum. -/
def containerFlags : List String → Bool → M Bool
  | [], b => pure b
  | f :: fs, _ => if f = "tagged_enum" then containerFlags fs true else fail (.invalidFlag f)

/-- `convert/field.rs` 103-107: no flag is valid on a field. -/
def fieldFlags : List String → M Unit
  | [] => pure ()
  | f :: _ => fail (.invalidFlag f)

/-- State of the loop over the items of a container (`convert/type_/container.rs` 33-47). -/
structure ItemAcc where
  /-- The items so far. -/
  items : List (String × FId)
  /-- `declared_fields` of the container's scope. -/
  declared : List (String × FId)
  hadUnconditional : Bool
  padCount : Nat
  /-- The fields whose calculated value is still to be converted, in order. -/
  pending : List FId

/-- A field before its parts are converted (`container.rs` 58-69, `program/field.rs` 18-29). -/
def blankField (name : String) (toplevel : Bool) : AField :=
  { name, arguments := [], type := .bool, calculated := none, condition := none, transforms := [],
    toplevel, cyclical := false, pad := false }

/-- `convert/type_/container.rs` 77-86: the tagged-enum rule and the insertion of a field. -/
def addField (isEnum conditional : Bool) (name : String) (f : FId) (acc : ItemAcc) : M ItemAcc := do
  check (!(acc.hadUnconditional && isEnum)) .enumContainerFieldAfterUnconditional
  pure { acc with
    items := IMap.insert acc.items name f
    declared := IMap.insert acc.declared name f
    hadUnconditional := acc.hadUnconditional || !conditional
    pending := acc.pending ++ [f] }

/-- `convert/type_/container.rs` 101-127: the field made for padding. -/
def padField (name : String) (tag : Nat) (len : AExpr) : AField :=
  { blankField name false with
    type := .array tag (.scalar Scalar.u8.toE) false (some len)
    pad := true }

/-- The name of the n-th padding (`convert/type_/container.rs` 93). -/
def padName (n : Nat) : String := "_pad" ++ toString n

/-- State of the loop over the items of an enum or bitfield (`convert/type_/enum_.rs` 9-12,
`convert/type_/bitfield.rs` 9-11): the last explicitly defined item and the counter. -/
structure RepAcc where
  last : Option AConst
  counter : Nat

/-- `convert/type_/enum_.rs` 44-60, `convert/type_/bitfield.rs` 29-44: the value of an item without
an expression: the last defined one plus (or shifted left by) the counter. -/
def implicitValue (op : BinOp) (k : Scalar) (acc : RepAcc) : M AExpr :=
  liftR <| match acc.last with
  | none => .error (.panic "called `Option::unwrap()` on a `None` value")
  | some c => match CInt.parse k (toString acc.counter).toList with
    | some v => .ok (.binary op (.constRef c) (.int v k))
    | none => .error (.asg (.invalidInt (toString acc.counter)))

/-- `convert/type_/enum_.rs` 14-27: a new name, and nothing after the default variant. -/
def checkVariant (name : String) (done : List AVariant) (hasDefault : Bool) : M Unit :=
  if (findVariant done name).isSome then fail (.enumVariantRedefinition name)
  else check (!hasDefault) (.enumDefaultRedefinition name)

/-! ## Conversion -/

mutual
/-- `convert/expression/mod.rs` 28-72 and the functions it calls. -/
def convE (env : Env) (p : Prog) (sc : Scope) : Ast.Expression → PType → M AExpr
  | .binary op l r, expected => do
    checkBinary env op expected
    let (l, r) ← convOperands (fun e => convE env p sc l e) (fun e => convE env p sc r e)
      (initExpected op expected)
    finish env expected (.binary op l r)
  | .unary op e, expected => do
    let inner ← peek (convE env p sc e expected)
    checkUnary env op expected inner
    let inner ← convE env p sc e expected
    finish env expected (.unary op inner)
  | .cast e ty, expected => do
    check (inlinable ty) .castTypeDefinition
    let target ← convTy env p sc ty .expression
    let inner ← convE env p sc e .any
    checkCast env inner target
    finish env expected (.cast inner target)
  | .index a i, expected => do
    let a ← convE env p sc a (.array (some expected))
    let i ← convE env p sc i (.scalar (.some .u64))
    finish env expected (.index a i)
  | .enumAccess name variant, expected => do
    finish env expected (← convEnumAccess p name variant)
  | .int value type, expected => do
    finish env expected (← convInt value type expected)
  | .ref name, expected => do
    finish env expected (← convRef p sc name)
  | .str content, expected => do
    finish env expected (.str (← fresh) content)
  | .ternary c t f, expected => do
    let c ← convE env p sc c (.type .bool)
    let t ← convE env p sc t expected
    let right ← ternaryRight expected t
    let f ← convE env p sc f right
    finish env expected (.ternary c t f)
  | .bool b, expected => finish env expected (.bool b)
  | .call function args, expected => do
    let sig ← lookup p.functions function (.unresolvedFunction function)
    checkFfiCount sig.arguments args.length
    let args ← convArgs env p sc args (sig.arguments.map (·.type))
    finish env expected (.call function sig.ret args)
  | .member target member, expected => do
    let target ← convE env p sc target .any
    finish env expected (← convMember target member)
/-- `convert/ffi_arguments.rs` 29-42, `convert/type_/type_ref.rs` 31-38: arguments, one by one,
against the types declared for them. -/
def convArgs (env : Env) (p : Prog) (sc : Scope) :
    List Ast.Expression → List (Option AType) → M (List AExpr)
  | [], _ => pure []
  | _ :: _, [] => pure []
  | e :: es, t :: ts => do
    let e ← convE env p sc e (← argExpected t)
    pure (e :: (← convArgs env p sc es ts))
/-- An optional expression. -/
def convOpt (env : Env) (p : Prog) (sc : Scope) : Option Ast.Expression → PType → M (Option AExpr)
  | none, _ => pure none
  | some e, expected => do pure (some (← convE env p sc e expected))
/-- `convert/type_/mod.rs` 23-54 and the functions it calls. -/
def convTy (env : Env) (p : Prog) (sc : Scope) : Ast.Ty → Purpose → M AType
  | .container length flags items, purpose => do
    check (purpose != .arrayInterior) .inlineRepetition
    let length ← convOpt env p sc length (.scalar (.defaults .u64))
    let isEnum ← containerFlags flags false
    check (!isEnum || purpose.isDefinition) .mustBeToplevel
    let acc ← convItems env p sc isEnum items ⟨[], [], false, 0, []⟩
    convEnds env p ({ fields := acc.declared, inputs := [] } :: sc) items acc.pending
    pure (.container (← fresh) length acc.items isEnum)
  | .enum rep items, purpose => do
    let name ← definedName purpose
    let items ← convVariants env p sc rep items [] ⟨none, 0⟩ false
    pure (.enum (← fresh) name rep items)
  | .bitfield rep items, purpose => do
    let name ← definedName purpose
    let items ← convFlags env p sc rep items [] ⟨none, 0⟩
    pure (.bitfield (← fresh) name rep items)
  | .scalar s, _ => pure (.scalar s)
  | .array interior expandable length, _ => do
    let length ← convOpt env p sc length
      (if expandable then .array (some (.scalar (.some .u8))) else .scalar (.some .u64))
    let element ← convTy env p sc interior .arrayInterior
    pure (.array (← fresh) element expandable length)
  | .f32, _ => pure .f32
  | .f64, _ => pure .f64
  | .bool, _ => pure .bool
  | .ref name args, _ => do
    let f ← lookup p.types name (.unresolvedType name)
    let target ← withHeap fun h => deref h f
    checkTypeCount target.arguments args.length
    let args ← convArgs env p sc args (target.arguments.map fun a => some a.type)
    pure (.ref f args)
/-- `convert/type_/enum_.rs` 13-75. -/
def convVariants (env : Env) (p : Prog) (sc : Scope) (rep : EScalar) :
    List Ast.EnumItem → List AVariant → RepAcc → Bool → M (List AVariant)
  | [], done, _, _ => pure done
  | .mk name .default :: rest, done, acc, hasDefault => do
    checkVariant name done hasDefault
    convVariants env p sc rep rest (done ++ [.default name]) ⟨acc.last, acc.counter + 1⟩ true
  | .mk name (.expr e) :: rest, done, _, hasDefault => do
    checkVariant name done hasDefault
    let v ← convE env p sc e (.scalar (.some rep.scalar))
    let c := AConst.mk name (.scalar rep) v
    convVariants env p sc rep rest (done ++ [.value c]) ⟨some c, 1⟩ hasDefault
  | .mk name .none :: rest, done, acc, hasDefault => do
    checkVariant name done hasDefault
    let v ← implicitValue .add rep.scalar acc
    let c := AConst.mk name (.scalar rep) v
    convVariants env p sc rep rest (done ++ [.value c]) ⟨acc.last, acc.counter + 1⟩ hasDefault
/-- `convert/type_/bitfield.rs` 12-55. -/
def convFlags (env : Env) (p : Prog) (sc : Scope) (rep : EScalar) :
    List Ast.BitItem → List AConst → RepAcc → M (List AConst)
  | [], done, _ => pure done
  | .mk name (some e) :: rest, done, _ => do
    check (findFlag done name).isNone (.bitfieldFlagRedefinition name)
    let v ← convE env p sc e (.scalar (.some rep.scalar))
    let c := AConst.mk name (.scalar rep) v
    convFlags env p sc rep rest (done ++ [c]) ⟨some c, 1⟩
  | .mk name none :: rest, done, acc => do
    check (findFlag done name).isNone (.bitfieldFlagRedefinition name)
    let v ← implicitValue .shl rep.scalar acc
    let c := AConst.mk name (.scalar rep) v
    convFlags env p sc rep rest (done ++ [c]) ⟨acc.last, acc.counter + 1⟩
/-- `convert/type_/container.rs` 48-130: the first pass over the items. -/
def convItems (env : Env) (p : Prog) (sc : Scope) (isEnum : Bool) :
    List Ast.Item → ItemAcc → M ItemAcc
  | [], acc => pure acc
  | .field name f :: rest, acc => do
    check (IMap.get acc.items name).isNone (.containerFieldRedefinition name)
    let id ← alloc (blankField name false)
    let conditional ← convMid env p (⟨[], []⟩ :: ⟨acc.declared, []⟩ :: sc) f .fieldInterior id
    let acc ← addField isEnum conditional name id acc
    convItems env p sc isEnum rest acc
  | .pad e :: rest, acc => do
    check (!isEnum) .enumContainerPad
    let name := padName acc.padCount
    let len ← convE env p (⟨acc.declared, []⟩ :: sc) e (.scalar (.some .u64))
    let id ← alloc (padField name (← fresh) len)
    convItems env p sc isEnum rest
      { acc with items := IMap.insert acc.items name id, padCount := acc.padCount + 1 }
/-- `convert/type_/container.rs` 131-133: the second pass, over the fields in order. -/
def convEnds (env : Env) (p : Prog) (sc : Scope) : List Ast.Item → List FId → M Unit
  | .field _ f :: rest, id :: ids => do
    convEnd env p (⟨[], []⟩ :: sc) f id
    convEnds env p sc rest ids
  | .pad _ :: rest, ids => convEnds env p sc rest ids
  | _, _ => pure ()
/-- `convert/field.rs` 46-141 (`convert_ast_field_mid`); the answer is whether there is a condition. -/
def convMid (env : Env) (p : Prog) (sc : Scope) : Ast.Field → Purpose → FId → M Bool
  | .mk type flags _ condition transforms, purpose, id => do
    let type ← convTy env p sc type purpose
    let condition ← convOpt env p sc condition (.type .bool)
    let transforms ← convXforms env p sc transforms
    fieldFlags flags
    update id fun f => { f with type, condition, transforms }
    pure condition.isSome
/-- `convert/field.rs` 69-102. -/
def convXforms (env : Env) (p : Prog) (sc : Scope) : List Ast.Transform → M (List AXform)
  | [] => pure []
  | .mk name arguments conditional :: rest => do
    let params ← lookup p.transforms name (.unresolvedTransform name)
    checkFfiCount params arguments.length
    let args ← convArgs env p sc arguments (params.map (·.type))
    let condition ← convOpt env p sc conditional (.type .bool)
    pure (⟨name, condition, args⟩ :: (← convXforms env p sc rest))
/-- `convert/field.rs` 143-164 (`convert_ast_field_end`). -/
def convEnd (env : Env) (p : Prog) (sc : Scope) : Ast.Field → FId → M Unit
  | .mk _ _ none _ _, _ => pure ()
  | .mk _ _ (some e) _ _, id => do
    let expected ← withHeap fun h => (deref h id).bind fun x => toPartial h x.type
    let e ← convE env p sc e expected
    update id fun f => { f with calculated := some e }
end

/-- `convert/field.rs` 36: a default value is converted against the type of its argument. -/
def defaultExpected (dflt : Option Ast.Expression) (type : AType) : M PType := withHeap fun h =>
  match dflt with
  | none => .ok .any
  | some _ => toPartial h type

/-- `convert/field.rs` 4-44 (`convert_ast_field_arguments`) after the sub-scope is made: each
argument's type and default may use the earlier arguments (and the default the argument itself). -/
def convTypeArgs (env : Env) (p : Prog) (outer : Scope) :
    List Ast.TypeArg → List (String × AType) → List AArg → M (List (String × AType) × List AArg)
  | [], inputs, done => pure (inputs, done)
  | a :: rest, inputs, done => do
    let type ← convTy env p (⟨[], inputs⟩ :: outer) a.type .expression
    let inputs := IMap.insert inputs a.name type
    let expected ← defaultExpected a.default type
    let dflt ← convOpt env p (⟨[], inputs⟩ :: outer) a.default expected
    convTypeArgs env p outer rest inputs (done ++ [⟨a.name, type, dflt⟩])

end Verif.Sem
