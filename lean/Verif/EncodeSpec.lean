import Verif.EncodeVM
/-!
# What encoding a value means

The encoder of a declaration as a function from a value to bytes: no registers, instructions, buffers
or streams. `Verif.Props.encode_refines` says that the generated encoders compute this function.

Names visible to expressions are kept in `env`. A name that generated code rebinds inside a block is
out of scope after it (rustc rejects a later use), so such names are removed from `env`.
-/
namespace Verif.Enc

abbrev Env := String → Option Val

def Env.empty : Env := fun _ => none

/-- The value of an expression over the visible names. -/
def ev (X : Ext) (env : Env) (e : Expr) : Res Val := runE X.oc ⟨env, X.input⟩ e

/-- Forgets names. -/
def erase (ns : List String) (env : Env) : Env := fun n => if n ∈ ns then none else env n

/-- Items `i`, `i + 1`, …, `i + n - 1` of an array, one after the other. -/
def encN (f : Val → Res Bytes) (v : Val) : Nat → Nat → Res Bytes
  | _, 0 => .ok []
  | i, n + 1 => do
    let x ← itemOf v i
    let b ← f x
    let bs ← encN f v (i + 1) n
    .ok (b ++ bs)

/-- A non-container type. -/
def encLeaf (X : Ext) (env : Env) : LTy → Val → Res Bytes
  | .prim p, v => encPrim p v
  | .ref target foreign _ args, v => do
    let vs ← args.mapM (ev X env)
    if foreign then X.foreign target vs v else X.call target vs v
  | .array elem len, v =>
    match len with
    | .fixed e => do
      let l ← ev X env e
      match elem.resolved with
      | .prim p => do let n ← asUsize l; encPrimArray p (some n) v
      | .repr t => do let n ← asUsize l; encReprArray t (some n) v
      | .other => do
        let n ← rangeCount l
        encN (encLeaf X env elem) v 0 n
    | .unbounded =>
      match elem.resolved with
      | .prim p => encPrimArray p none v
      | .repr t => encReprArray t none v
      | .other => do
        let n ← rtLen v
        encN (encLeaf X env elem) v 0 n
    | .term e => do
      let t ← ev X env e
      let n ← rtLen v
      let bs ← encN (encLeaf X env elem) v 0 n
      let tb ← encPrimArray (.scalar ⟨.u8, .big⟩) none t
      .ok (bs ++ tb)

/-- What the transforms, in declaration order, make of the bytes `k` produces: the last one is applied
first. -/
def encXforms {α} (X : Ext) (env : Env) : List XformUse → Res (α × Bytes) → Res (α × Bytes)
  | [], k => k
  | x :: xs, k =>
    match x.cond with
    | some e => do
      let c ← ev X env e
      let b ← c.toBool
      if b then do
        let vs ← x.args.mapM (ev X env)
        let (a, bs) ← encXforms X env xs k
        let out ← X.xform x.name vs bs
        .ok (a, out)
      else encXforms X env xs k
    | none => do
      let vs ← x.args.mapM (ev X env)
      let (a, bs) ← encXforms X env xs k
      let out ← X.xform x.name vs bs
      .ok (a, out)

/-- A field that is not a container, given what is stored for it: nothing if its condition does not
hold; a stored conditional value must be present if it does. Calculated fields hold a plain value. -/
def encField (X : Ext) (env : Env) (a : FAttr) (ty : LTy) (v : Val) : Res Bytes := do
  let body : Val → Res Bytes := fun v => do
    let (_, bs) ← encXforms X env a.xfs do
      let w ← if a.cond.isSome && a.auto.isNone then nullCheck missingMsg v else .ok v
      let bs ← encLeaf X env ty w
      .ok ((), bs)
    .ok bs
  match a.cond with
  | some e => do
    let c ← ev X env e
    let b ← c.toBool
    if b then body v else .ok []
  | none => body v

/-! ## Which lengths are known when

`blen(x)` asks for the encoded length of container `x`. This is decided while generating the encoder, by
name. -/

/-- Names of the containers whose length has been recorded so far (in order), and the names whose length
is asked for and not yet recorded. -/
structure Plan where
  log : List String
  pending : List String

def Plan.known (p : Plan) (fs : List String) : Bool := fs.all fun f => f ∈ p.log

def Plan.close (p : Plan) (name : String) (len : Option Expr) : Plan :=
  if len.isSome && decide (name ∈ p.pending) then
    ⟨p.log ++ [name], p.pending.filter (· ≠ name)⟩
  else p

def Plan.await (p : Plan) (a : FAttr) : Plan :=
  ⟨p.log, p.pending ++ (FAttr.blens a).filter fun f => f ∉ p.log⟩

/-- The plan after the items of a container. -/
def planItems : Fields → Plan → Plan
  | .nil, p => p
  | .pad _ _ rest, p => planItems rest p
  | .leaf a _ rest, p =>
    if (FAttr.blens a).isEmpty || p.known (FAttr.blens a) then planItems rest p
    else planItems rest (p.await a)
  | .cont a len items rest, p => planItems rest ((planItems items p).close a.name len)

/-- Names checked to be present at the start of a conditional container. -/
def nullNames : Fields → List String
  | .nil => []
  | .pad _ _ rest => nullNames rest
  | .cont _ _ _ rest => nullNames rest
  | .leaf a _ rest => if a.auto.isSome || a.cond.isSome then nullNames rest else a.name :: nullNames rest

/-- Names that encoding the items of a container rebinds. -/
def setNames (cond : Bool) : Fields → List String
  | .nil => []
  | .pad _ _ rest => setNames cond rest
  | .leaf a _ rest => (if (FAttr.blens a).isEmpty then [] else [a.name]) ++ setNames cond rest
  | .cont a _ items rest =>
    (if a.cond.isSome || cond then nullNames items else []) ++
      setNames (a.cond.isSome || cond) items ++ setNames cond rest

/-! ## Items -/

/-- A field whose value waits for a length, and the bytes that follow it so far. -/
structure Def where
  attr : FAttr
  ty : LTy
  data : Bytes

/-- Adds bytes after the last waiting field, or to the output. -/
def put : List Def → Bytes → List Def × Bytes
  | [], bs => ([], bs)
  | [d], bs => ([{ d with data := d.data ++ bs }], [])
  | d :: d' :: ds, bs => let r := put (d' :: ds) bs; (d :: r.1, r.2)

/-- The value of a calculated field that uses `blen`, with the recorded lengths. -/
def evBlen (X : Ext) (env lens : Env) (a : FAttr) : Res Val :=
  match a.auto with
  | some e => ev X (overlay env (e.blens.map fun f => (blenName f, lens f))) e.unblen
  | none => .error .ill

/-- Writes the waiting fields whose lengths are known, last one first; each is put, with the bytes that
follow it, after the bytes of the next field that goes on waiting, or into the output. -/
def encFlush (X : Ext) (p : Plan) (lens : Env) : List Def → Env → Res (Env × List Def × Bytes)
  | [], env => .ok (env, [], [])
  | d :: ds, env => do
    let (env1, rest, out) ← encFlush X p lens ds env
    if p.known (FAttr.blens d.attr) then do
      let v ← evBlen X env1 lens d.attr
      let env2 := upd env1 d.attr.name (some v)
      let b ← encField X env2 d.attr d.ty v
      match rest with
      | d' :: r => .ok (env2, { d' with data := d'.data ++ (b ++ d.data) } :: r, out)
      | [] => .ok (env2, [], out ++ (b ++ d.data))
    else .ok (env1, d :: rest, out)

/-- All names must be present. -/
def encNulls : List String → Env → Res Env
  | [], env => .ok env
  | n :: ns, env => do
    let v ← optRes (env n)
    let w ← nullCheck interiorMsg v
    encNulls ns (upd env n (some w))

/-- Entering a container: inside a conditional one, the fields without a condition must be present. -/
def enter (cond : Bool) (items : Fields) (env : Env) : Res Env :=
  if cond then encNulls (nullNames items) env else .ok env

/-- A container with a condition is written if it holds; the names it rebinds are gone after it. -/
def guarded (X : Ext) (env : Env) (cond : Option Expr) (after : Env × Env) (body : Res ((Env × Env) × Bytes)) :
    Res ((Env × Env) × Bytes) :=
  match cond with
  | some e => do
    let c ← ev X env e
    let b ← c.toBool
    if b then do
      let (_, bs) ← body
      .ok (after, bs)
    else .ok (after, [])
  | none => body

/-- A calculated field that uses `blen` is calculated when it is reached. -/
def withBlen (X : Ext) (env lens : Env) (a : FAttr) : Res Env :=
  if (FAttr.blens a).isEmpty then .ok env
  else do
    let v ← evBlen X env lens a
    .ok (upd env a.name (some v))

/-- `Vec::with_capacity(len as usize)`. -/
def checkCapacity (X : Ext) (env : Env) (name : String) (len : Option Expr) (p : Plan) : Res Unit :=
  match len with
  | some e =>
    if name ∈ p.pending then .ok ()
    else do
      let v ← ev X env e
      let n ← asUsize v
      if 2 ^ 63 ≤ n then .error .panic else .ok ()
  | none => .ok ()

/-- The items of a container in declaration order. Returns the names visible afterwards, the recorded
lengths, and the bytes. -/
def encItems (X : Ext) (cond : Bool) : Fields → Plan → Env → Env → List Def → Res ((Env × Env) × Bytes)
  | .nil, _, env, lens, _ => .ok ((env, lens), [])
  | .pad _ e rest, p, env, lens, ds => do
    let v ← ev X env e
    let bs ← padBytes v
    let (ds1, b1) := put ds bs
    let (env2, ds2, b2) ← encFlush X p lens ds1 env
    let (r, b3) ← encItems X cond rest p env2 lens ds2
    .ok (r, b1 ++ (b2 ++ b3))
  | .leaf a ty rest, p, env, lens, ds =>
    if (FAttr.blens a).isEmpty || p.known (FAttr.blens a) then do
      let env1 ← withBlen X env lens a
      let v ← optRes (env1 a.name)
      let bs ← encField X env1 a ty v
      let (ds1, b1) := put ds bs
      let (env2, ds2, b2) ← encFlush X p lens ds1 env1
      let (r, b3) ← encItems X cond rest p env2 lens ds2
      .ok (r, b1 ++ (b2 ++ b3))
    else encItems X cond rest (p.await a) env lens (ds ++ [⟨a, ty, []⟩])
  | .cont a len items rest, p, env, lens, ds => do
    let body : Res ((Env × Env) × Bytes) :=
      encXforms X env a.xfs do
        checkCapacity X env a.name len p
        let env1 ← enter (a.cond.isSome || cond) items env
        let ((env2, lens2), bs) ← encItems X (a.cond.isSome || cond) items p env1 lens []
        let p2 := planItems items p
        let lens3 := if len.isSome && decide (a.name ∈ p2.pending)
          then upd lens2 a.name (some (.int ⟨.u64, bs.length⟩)) else lens2
        .ok ((env2, lens3), bs)
    let p' := (planItems items p).close a.name len
    let after : Env × Env := (erase (nullNames items ++ setNames true items) env,
      erase (p'.log.drop p.log.length) lens)
    let ((env2, lens2), bs) ← guarded X env a.cond after body
    let (ds1, b1) := put ds bs
    let (env3, ds3, b3) ← encFlush X p' lens2 ds1 env2
    let (r, b4) ← encItems X cond rest p' env3 lens2 ds3
    .ok (r, b1 ++ (b3 ++ b4))

/-- The calculated fields that use no `blen`, in order. -/
def encCalculated (X : Ext) : List FAttr → Env → Res Env
  | [], env => .ok env
  | a :: as, env =>
    match a.auto with
    | some e =>
      if e.blens.isEmpty then do
        let v ← ev X env e
        encCalculated X as (upd env a.name (some v))
      else encCalculated X as env
    | none => encCalculated X as env

/-- The stored fields of a struct; calculated ones are not looked at. -/
def encStored (v : Val) : List FAttr → Env → Res Env
  | [], env => .ok env
  | a :: as, env =>
    if a.auto.isSome then encStored v as env
    else do
      let x ← fieldOf v a.name
      encStored v as (upd env a.name (some x))

def bindNames : List String → List Val → Env → Env
  | n :: ns, v :: vs, env => bindNames ns vs (upd env n (some v))
  | _, _, env => env

/-- One arm of a tagged enum. -/
def encArm (X : Ext) (en : String) (arm : Arm) (p : Plan) (v : Val) : Res Bytes :=
  match arm.body with
  | .leaf ty => do
    let w ← unwrapEnum en arm.attr.name variantMsg v
    let (_, bs) ← encXforms X .empty arm.attr.xfs do
      let bs ← encLeaf X .empty ty w
      .ok ((), bs)
    .ok bs
  | .cont _ items => do
    let vs ← unwrapStruct en arm.attr.name variantMsg items.names v
    let env ← encCalculated X items.leaves (bindNames items.names vs .empty)
    let (_, bs) ← encItems X false items p env .empty []
    .ok bs

def planArm (arm : Arm) (p : Plan) : Plan :=
  match arm.body with
  | .leaf _ => p
  | .cont _ items => planItems items p

/-- The first arm whose condition holds; nothing is written if there is none. -/
def encArms (X : Ext) (en : String) : List Arm → Plan → Val → Res Bytes
  | [], _, _ => .ok []
  | arm :: arms, p, v =>
    match arm.attr.cond with
    | none => encArm X en arm p v
    | some e => do
      let c ← ev X .empty e
      let b ← c.toBool
      if b then encArm X en arm p v else encArms X en arms (planArm arm p) v

def Plan.init : Plan := ⟨[], []⟩

/-- A value of a declared type. -/
def encDecl (X : Ext) (d : Decl) (v : Val) : Res Bytes :=
  match d.body with
  | .leaf cond ty => do
    let w ← innerOf v
    encField X .empty ⟨d.name, cond, d.xfs, none⟩ ty w
  | .repr t => do
    let (_, bs) ← encXforms X .empty d.xfs do
      let bs ← encRepr t v
      .ok ((), bs)
    .ok bs
  | .struct len items => do
    let (_, bs) ← encXforms X .empty d.xfs do
      checkCapacity X .empty d.name len .init
      let env ← encStored v items.leaves .empty
      let env1 ← encCalculated X items.leaves env
      let (_, bs) ← encItems X false items .init env1 .empty []
      .ok ((), bs)
    .ok bs
  | .tagged len arms => do
    let (_, bs) ← encXforms X .empty d.xfs do
      checkCapacity X .empty d.name len .init
      let bs ← encArms X d.name arms .init v
      .ok ((), bs)
    .ok bs

/-- Foreign types and transforms a schema uses, as encoders. -/
structure Lib where
  oc : Bool
  foreign : String → List Val → Val → Res Bytes
  xform : String → List Val → Bytes → Res Bytes

/-- Calls a declared type through its definition `run`, at most `fuel` deep. -/
def callDecl (sch : Schema) (L : Lib) (run : Ext → Decl → Val → Res Bytes) :
    Nat → String → List Val → Val → Res Bytes
  | 0, _, _, _ => .error .diverge
  | fuel + 1, n, args, v =>
    match sch.find n with
    | none => .error .ill
    | some d =>
      if d.params.length ≠ args.length then .error .ill
      else run ⟨L.oc, Dec.bindArgs d.params args, callDecl sch L run fuel, L.foreign, L.xform⟩ d v

/-- `value.encode_sync(writer, args)` of the code generated for a schema. -/
def runEncode (sch : Schema) (L : Lib) := callDecl sch L runDecl

/-- Protospec generates an encoder for the declaration, and `v` is a value of it. -/
def Accepts (d : Decl) (v : Val) : Prop := (genDecl d).1.ok = true ∧ typeName v = some d.name

instance (d : Decl) (v : Val) : Decidable (Accepts d v) := by unfold Accepts; infer_instance

/-- What encoding a value of a declared type means. -/
def specEncode (sch : Schema) (L : Lib) :=
  callDecl sch L fun X d v => if Accepts d v then encDecl X d v else .error .ill

end Verif.Enc
