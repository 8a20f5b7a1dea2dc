import Verif.DecodeSpec
/-!
# Generated encoders

`Enc.genDecl` models `/repo/protospec-build/src/coder/encode/*.rs` (the instruction generator);
`Enc.exec` gives the instructions the meaning of the Rust statements that
`/repo/protospec-build/src/compiler/encoder.rs` writes for them.

Ownership and borrow checking of the emitted Rust are not modelled.
-/
namespace Verif

/-! ## `blen` calls in expressions -/

/-- `coder/encode/container.rs` 344-393 (`extract_magic_blen_calls`): the fields whose encoded length
an expression asks for. Like the code, it does not look into constants. -/
def Expr.blens : Expr → List String
  | .binary _ l r => l.blens ++ r.blens
  | .unary _ e => e.blens
  | .cast _ e _ => e.blens
  | .index a i => a.blens ++ i.blens
  | .ternary c t f => c.blens ++ t.blens ++ f.blens
  | .len _ e => e.blens
  | .blen f => [f]
  | .sum e => e.blens
  | .bits e => e.blens
  | .pad p b => p.blens ++ b.blens
  | .member e _ _ => e.blens
  | _ => []

/-- The name under which the length of a field is looked up (`coder/encode/container.rs` 83). -/
def blenName (f : String) : String := "__blen_" ++ f

/-- `coder/encode/container.rs` 273-337 (`rewrite_blen_calls`). -/
def Expr.unblen : Expr → Expr
  | .binary op l r => .binary op l.unblen r.unblen
  | .unary op e => .unary op e.unblen
  | .cast s e t => .cast s e.unblen t
  | .index a i => .index a.unblen i.unblen
  | .ternary c t f => .ternary c.unblen t.unblen f.unblen
  | .len n e => .len n e.unblen
  | .blen f => .fieldRef (blenName f)
  | .sum e => .sum e.unblen
  | .bits e => .bits e.unblen
  | .pad p b => .pad p.unblen b.unblen
  | .member e f v => .member e.unblen f v
  | e => e

/-! ## Writing single items -/

/-- `to_le_bytes` / `to_be_bytes` on a value of a primitive type: the number of bytes is that of the
value's own Rust type, the byte order that of the field (`compiler/encoder.rs` 235-262). -/
def numBytes (endian : Endian) : Val → Res Bytes
  | .int i => .ok (intBytes ⟨i.kind, endian⟩ i.val)
  | .flt d n =>
    let bs := leBytes (if d then 8 else 4) n
    .ok (match endian with | .little => bs | .big => bs.reverse)
  | _ => .error .ill

/-- `compiler/encoder.rs` 227-262 (`EncodePrimitive`). Floats are written big endian. -/
def encPrim : Prim → Val → Res Bytes
  | .bool, .bool b => .ok [if b then 1 else 0]
  | .bool, _ => .error .ill
  | .scalar s, v => numBytes s.endian v
  | _, v => numBytes .big v

/-- `to_repr` of a generated enum, `.0` of a bitfield. -/
def reprOf (t : ReprTy) (v : Val) : Res CInt :=
  match t, v with
  | .enum n d, .enm m e _ =>
    if m = n then
      match d.toRepr e with
      | some x => .ok ⟨d.rep.scalar, x⟩
      | none => .error .ill
    else .error .ill
  | .bitfield n d, .bits m x => if m = n then .ok ⟨d.rep.scalar, x.val⟩ else .error .ill
  | _, _ => .error .ill

/-- `compiler/encoder.rs` 205-226 (`EncodeEnum`, `EncodeBitfield`). -/
def encRepr (t : ReprTy) (v : Val) : Res Bytes := do
  let i ← reprOf t v
  .ok (intBytes t.rep i.val)

/-- The elements of a `Vec`. -/
def elems : Val → Res (List Val)
  | .arr vs => .ok vs
  | _ => .error .ill

/-- The byte strings of several items, one after the other. -/
def concatM (f : Val → Res Bytes) : List Val → Res Bytes
  | [] => .ok []
  | v :: vs => do
    let b ← f v
    let bs ← concatM f vs
    .ok (b ++ bs)

/-- `assert_eq!(t_count, data.len())` (`compiler/encoder.rs` 300-307): a wrong number of elements is a
panic. -/
def checkCount (count : Option Nat) (vs : List Val) : Res Unit :=
  match count with
  | some n => if n = vs.length then .ok () else .error .miscount
  | none => .ok ()

/-- `compiler/encoder.rs` 263-319 (`EncodePrimitiveArray`). The snippet for `bool` does not compile
(`if x` on a `&bool`); for `u8` the slice is written as it is. -/
def encPrimArray (p : Prim) (count : Option Nat) (v : Val) : Res Bytes :=
  match p with
  | .bool => .error .ill
  | .scalar ⟨.u8, _⟩ => do
    let vs ← elems v
    checkCount count vs
    optRes v.toBytes
  | p => do
    let vs ← elems v
    checkCount count vs
    concatM (encPrim p) vs

/-- `compiler/encoder.rs` 263-319 (`EncodeReprArray`), with `to_be_bytes` / `to_le_bytes` of the
generated type (`compiler/mod.rs` 583-589, 683-689). -/
def encReprArray (t : ReprTy) (count : Option Nat) (v : Val) : Res Bytes := do
  let vs ← elems v
  checkCount count vs
  concatM (encRepr t) vs

/-- `vec![0u8; n as usize]` (`compiler/encoder.rs` 422-429); more than `isize::MAX` bytes panic. -/
def padBytes (v : Val) : Res Bytes := do
  let n ← asUsize v
  if 2 ^ 63 ≤ n then .error .panic else .ok (List.replicate n 0)

/-- `for i in 0..n`: a negative bound gives no iterations. -/
def rangeCount (v : Val) : Res Nat := do
  let i ← v.toInt
  .ok i.val.toNat

/-- `source.name`, `source[i as usize]`, `source.0` (`compiler/encoder.rs` 52-77). -/
def fieldOf (v : Val) (n : String) : Res Val :=
  match v with
  | .struct _ fs => optRes (fs.lookup n)
  | _ => .error .ill

def itemOf (v : Val) (i : Nat) : Res Val :=
  match v with
  | .arr vs => match vs[i]? with | some x => .ok x | none => .error .miscount
  | _ => .error .ill

def innerOf (v : Val) : Res Val :=
  match v with
  | .newtype _ x => .ok x
  | _ => .error .ill

/-- `if let Some(x) = v { x } else { return Err(encode_error(message)) }`
(`compiler/encoder.rs` 117-133). -/
def nullCheck (msg : String) : Val → Res Val
  | .opt (some v) => .ok v
  | .opt none => .error (.err msg)
  | _ => .error .ill

/-- `if let Enum::disc(x) = &v { x } else { return Err(..) }` (`compiler/encoder.rs` 355-368). -/
def unwrapEnum (en disc msg : String) : Val → Res Val
  | .variant n d v => if n ≠ en then .error .ill else if d = disc then .ok v else .error (.err msg)
  | .variantS n d _ => if n ≠ en then .error .ill else if d = disc then .error .ill else .error (.err msg)
  | _ => .error .ill

/-- `if let Enum::disc { a: x, .. } = &v { (x, ..) } else { return Err(..) }`
(`compiler/encoder.rs` 369-403): the values of the named fields. -/
def unwrapStruct (en disc msg : String) (names : List String) : Val → Res (List Val)
  | .variantS n d fs =>
    if n ≠ en then .error .ill
    else if d = disc then names.mapM fun f => optRes (fs.lookup f)
    else .error (.err msg)
  | .variant n d _ => if n ≠ en then .error .ill else if d = disc then .error .ill else .error (.err msg)
  | _ => .error .ill

namespace Enc

/-- `coder/mod.rs` 16-21. -/
inductive Target
  | direct
  | buf (r : Nat)
  | stream (r : Nat)
  deriving DecidableEq, Repr

/-- The instructions of `coder/encode/instruction.rs` 8-76 that contain no blocks. `GetField` is split by
the operation it applies, `GetLen` by what it measures; `EncodeRef` carries the name of the type whose
method is called. `evalBlen r e bl` stands for `SetRef("__blen_f", len)` for each pair of `bl` followed by
`Eval(r, e)` (`coder/encode/container.rs` 79-93): the names `__blen_f` are not visible elsewhere, so a
user's field with such a name is not modelled. -/
inductive Op
  | eval (r : Nat) (e : Expr)
  | evalBlen (r : Nat) (e : Expr) (bl : List (String × Option Nat))
  | getName (r src : Nat) (name : String)
  | getIndex (r src idx : Nat)
  | getInner (r src : Nat)
  | getRef (r : Nat) (name : String)
  | setRef (name : String) (r : Nat)
  | allocBuf (buf len : Nat)
  | allocDyn (buf : Nat)
  | wrap (under : Target) (new : Nat) (xf : String) (args : List Nat)
  | endStream (r : Nat)
  | emitBuf (t : Target) (buf : Nat)
  | foreign (t : Target) (src : Nat) (name : String) (args : List Nat)
  | ref (t : Target) (src : Nat) (name : String) (args : List Nat)
  | repr (t : Target) (src : Nat) (ty : ReprTy)
  | prim (t : Target) (src : Nat) (p : Prim)
  | primArray (t : Target) (src : Nat) (p : Prim) (len : Option Nat)
  | reprArray (t : Target) (src : Nat) (ty : ReprTy) (len : Option Nat)
  | pad (t : Target) (len : Nat)
  | lenVal (r src : Nat)
  | lenBuf (r buf : Nat)
  | drop (r : Nat)
  | nullCheck (src dst : Nat) (msg : String)
  | unwrapEnum (en disc : String) (src dst : Nat) (msg : String)
  | unwrapStruct (en disc : String) (src : Nat) (dst : List (String × Nat)) (msg : String)
  | brk

/-- An instruction list; the instructions with blocks are constructors. `Conditional` never has an
`else` block. -/
inductive Prog
  | nil
  | op (i : Op) (rest : Prog)
  | loop (idx len : Nat) (inner : Prog) (rest : Prog)
  | cond (c : Nat) (inner : Prog) (rest : Prog)
  | condWrap (c : Nat) (prelude : Prog) (under : Target) (new owned : Nat) (xf : String)
      (args : List Nat) (rest : Prog)
  | block (inner : Prog) (rest : Prog)

namespace Prog
def append : Prog → Prog → Prog
  | nil, q => q
  | op i r, q => op i (append r q)
  | loop x l i r, q => loop x l i (append r q)
  | cond c i r, q => cond c i (append r q)
  | condWrap c p u n o x a r, q => condWrap c p u n o x a (append r q)
  | block i r, q => block i (append r q)

instance : Append Prog := ⟨append⟩

def one (i : Op) : Prog := .op i .nil
end Prog

/-! ## Generator -/

/-- Generator state shared by the whole type: `coder/encode/mod.rs` 22-30 (`Context`).
`ok` turns false where protospec panics. -/
structure GState where
  c : Nat
  resolved : String → Option Nat
  pending : List String
  ok : Bool

def GState.init : GState := ⟨1, fun _ => none, [], true⟩

/-- Evaluates arguments into fresh registers (`coder/encode/field.rs` 79-84, `var_ref.rs` 5-21). -/
def genArgs : Nat → List Expr → Nat × Prog × List Nat
  | c, [] => (c, .nil, [])
  | c, e :: es =>
    let (c', p, rs) := genArgs (c + 1) es
    (c', .op (.eval c e) p, c :: rs)

/-- `coder/encode/mod.rs` 64-122 (`encode_type`), `array.rs` 4-109 (`encode_array`), `var_ref.rs`. -/
def genLeaf (t : Target) : LTy → Nat → Nat → Nat × Prog
  | .prim p, src, c => (c, .one (.prim t src p))
  | .ref target foreign _ args, src, c =>
    let (c', p, rs) := genArgs c args
    if foreign then (c', p ++ .one (.foreign t src target rs))
    else (c', p ++ .one (.ref t src target rs))
  | .array elem len, src, c =>
    match len with
    | .term e =>
      let (c', p) := genLeaf t elem (c + 2) (c + 3)
      (c' + 1, .op (.eval c e) (.op (.lenVal c' src)
        (.loop (c + 1) c' (.op (.getIndex (c + 2) src (c + 1)) p)
          (.one (.primArray t c (.scalar ⟨.u8, .big⟩) none)))))
    | .fixed e =>
      match elem.resolved with
      | .prim p => (c + 1, .op (.eval c e) (.one (.primArray t src p (some c))))
      | .repr ty => (c + 1, .op (.eval c e) (.one (.reprArray t src ty (some c))))
      | .other =>
        let (c', p) := genLeaf t elem (c + 2) (c + 3)
        (c', .op (.eval c e) (.loop (c + 1) c (.op (.getIndex (c + 2) src (c + 1)) p) .nil))
    | .unbounded =>
      match elem.resolved with
      | .prim p => (c, .one (.primArray t src p none))
      | .repr ty => (c, .one (.reprArray t src ty none))
      | .other =>
        let (c', p) := genLeaf t elem (c + 1) (c + 2)
        (c' + 1, .op (.lenVal c' src) (.loop c c' (.op (.getIndex (c + 1) src c) p) .nil))

/-- `coder/encode/field.rs` 67-114 and 150-155: opens the streams of the transforms in declaration
order, and closes them in reverse. Returns the counter, the opening code, the innermost target and
the closing code. -/
def genXforms : Target → Nat → List XformUse → Nat × Prog × Target × Prog
  | t, c, [] => (c, .nil, t, .nil)
  | t, c, x :: xs =>
    match x.cond with
    | some e =>
      let (c1, p, rs) := genArgs (c + 1) x.args
      let (c2, q, t', cl) := genXforms (.stream c1) (c1 + 2) xs
      (c2, .op (.eval c e) (.condWrap c p t c1 (c1 + 1) x.name rs q), t',
        cl ++ .op (.endStream c1) (.one (.drop (c1 + 1))))
    | none =>
      let (c1, p, rs) := genArgs c x.args
      let (c2, q, t', cl) := genXforms (.stream c1) (c1 + 1) xs
      (c2, p ++ .op (.wrap t c1 x.name rs) q, t', cl ++ .one (.endStream c1))

/-- `coder/encode/field.rs` 24-33 (`encode_field_condition`). -/
def genCond (cond : Option Expr) (c : Nat) : Nat × Prog × Option Nat :=
  match cond with
  | some e => (c + 1, .one (.eval c e), some c)
  | none => (c, .nil, none)

/-- `coder/encode/field.rs` 53-57. -/
def wrapCond (cr : Option Nat) (p : Prog) : Prog :=
  match cr with
  | some r => .cond r p .nil
  | none => p

def missingMsg : String := "failed null check for conditional field"
def interiorMsg : String := "field in optional interior container is None when condition is met"
def variantMsg : String := "mismatch betweeen condition and enum discriminant"

/-- `coder/encode/field.rs` 35-58 and 60-156 for a field that is not a container: `src` holds its value. -/
def genField (t : Target) (src : Nat) (a : FAttr) (ty : LTy) (c : Nat) : Nat × Prog :=
  let (c1, p1, cr) := genCond a.cond c
  let (c2, po, t', pc) := genXforms t c1 a.xfs
  if cr.isSome && a.auto.isNone then
    let (c4, pl) := genLeaf t' ty c2 (c2 + 1)
    (c4, p1 ++ wrapCond cr (po ++ .op (.nullCheck src c2 missingMsg) pl ++ pc))
  else
    let (c4, pl) := genLeaf t' ty src c2
    (c4, p1 ++ wrapCond cr (po ++ pl ++ pc))

/-- The `blen` targets of a calculated field, if it has any (`coder/encode/container.rs` 61-64, 107-108). -/
def FAttr.blens (a : FAttr) : List String :=
  match a.auto with
  | some e => e.blens
  | none => []

/-- `coder/encode/container.rs` 73-97 (`eval_blen_expr`): the value ends up in register `c`. -/
def genBlen (resolved : String → Option Nat) (a : FAttr) (c : Nat) : Prog :=
  match a.auto with
  | some e =>
    .op (.evalBlen c e.unblen (e.blens.map fun f => (blenName f, resolved f))) (.one (.setRef a.name c))
  | none => .nil

/-- A deferred field: its buffer register, attributes and type (`auto_targets`). -/
structure Deferred where
  buf : Nat
  attr : FAttr
  ty : LTy

def allResolved (resolved : String → Option Nat) (fs : List String) : Bool :=
  fs.all fun f => (resolved f).isSome

/-- `coder/encode/container.rs` 124-127: writes go to the buffer of the last deferred field. -/
def realTarget (t : Target) (autos : List Deferred) : Target :=
  match autos.getLast? with
  | some d => .buf d.buf
  | none => t

/-- `auto_targets.get(i)` after the removal of the field at `i` (`coder/encode/container.rs` 150-153). -/
def nextTarget (t : Target) : List Deferred → Target
  | d :: _ => .buf d.buf
  | [] => t

/-- `coder/encode/container.rs` 137-163: after each item, the deferred fields whose lengths are all
known are written, last one first. The target is looked up at the position the removed field had,
i.e. it is the buffer of the field deferred *after* it, or the container's own target. -/
def genFlush (t : Target) (resolved : String → Option Nat) :
    List Deferred → Nat → Nat × Prog × List Deferred
  | [], c => (c, .nil, [])
  | d :: ds, c =>
    let (c1, p1, rest) := genFlush t resolved ds c
    if allResolved resolved (FAttr.blens d.attr) then
      let tgt := nextTarget t rest
      let (c2, p2) := genField tgt c1 d.attr d.ty (c1 + 1)
      (c2, p1 ++ genBlen resolved d.attr c1 ++ p2 ++ .one (.emitBuf tgt d.buf), rest)
    else (c1, p1, d :: rest)

/-- Non-container, non-calculated fields of this container without a condition of their own
(`coder/encode/container.rs` 30-56, `nullcheck_container_refs`). -/
def genNullchecks : Fields → Nat → Nat × Prog
  | .nil, c => (c, .nil)
  | .pad _ _ rest, c => genNullchecks rest c
  | .cont _ _ _ rest, c => genNullchecks rest c
  | .leaf a _ rest, c =>
    if a.auto.isSome || a.cond.isSome then genNullchecks rest c
    else
      let (c', p) := genNullchecks rest (c + 1)
      (c', .op (.getRef c a.name) (.op (.nullCheck c c interiorMsg) (.op (.setRef a.name c) p)))

/-- `coder/encode/container.rs` 180-196: the buffer of a container with a length. -/
def genOpen (t : Target) (name : String) (len : Option Expr) (g : GState) : GState × Prog × Target :=
  match len with
  | some e =>
    if name ∈ g.pending then
      ({ g with c := g.c + 1 }, .one (.allocDyn g.c), .buf g.c)
    else
      ({ g with c := g.c + 2 }, .op (.eval (g.c + 1) e) (.one (.allocBuf g.c (g.c + 1))), .buf g.c)
  | none => (g, .nil, t)

/-- `coder/encode/container.rs` 256-268: a container with a length is written out at its end, and its
length recorded if some `blen` is waiting for it. -/
def genClose (t : Target) (name : String) (len : Option Expr) (bt : Target) (g : GState) : GState × Prog :=
  match len, bt with
  | some _, .buf b =>
    if name ∈ g.pending then
      ({ g with c := g.c + 1, pending := g.pending.filter (· ≠ name),
                resolved := upd g.resolved name (some g.c) },
        .op (.lenBuf g.c b) (.one (.emitBuf t b)))
    else (g, .one (.emitBuf t b))
  | _, _ => (g, .nil)

/-- `coder/encode/container.rs` 99-168 (`encode_container_items`), with `encode_field` and
`encode_container` (170-269) inlined for nested containers. `autos` are the deferred fields. -/
def genItems (cond : Bool) (t : Target) : Fields → GState → List Deferred → GState × Prog
  | .nil, g, autos => ({ g with ok := g.ok && autos.isEmpty }, .nil)
  | .pad _ e rest, g, autos =>
    let p1 := Prog.op (.eval g.c e) (.one (.pad (realTarget t autos) g.c))
    let (c2, p2, autos2) := genFlush t g.resolved autos (g.c + 1)
    let (g3, p3) := genItems cond t rest { g with c := c2 } autos2
    (g3, p1 ++ p2 ++ p3)
  | .leaf a ty rest, g, autos =>
    if (FAttr.blens a).isEmpty || allResolved g.resolved (FAttr.blens a) then
      let pb := if (FAttr.blens a).isEmpty then .nil else genBlen g.resolved a g.c
      let r := if (FAttr.blens a).isEmpty then g.c else g.c + 1
      let (c1, p1) := genField (realTarget t autos) r a ty (r + 1)
      let (c2, p2, autos2) := genFlush t g.resolved autos c1
      let (g3, p3) := genItems cond t rest { g with c := c2 } autos2
      (g3, pb ++ .op (.getRef r a.name) p1 ++ p2 ++ p3)
    else
      let waiting := (FAttr.blens a).filter fun f => (g.resolved f).isNone
      let (g3, p3) := genItems cond t rest { g with c := g.c + 1, pending := g.pending ++ waiting }
        (autos ++ [⟨g.c, a, ty⟩])
      (g3, .op (.allocDyn g.c) p3)
  | .cont a len items rest, g, autos =>
    let tgt := realTarget t autos
    let (c1, p1, cr) := genCond a.cond g.c
    let (c2, po, t', pc) := genXforms tgt c1 a.xfs
    let (g3, p3, bt) := genOpen t' a.name len { g with c := c2 }
    let cond' := cr.isSome || cond
    let (c4, p4) := if cond' then genNullchecks items g3.c else (g3.c, .nil)
    let (g5, p5) := genItems cond' bt items { g3 with c := c4 } []
    let (g6, p6) := genClose t' a.name len bt g5
    let (c7, p7, autos7) := genFlush t g6.resolved autos g6.c
    let (g8, p8) := genItems cond t rest { g6 with c := c7 } autos7
    (g8, p1 ++ wrapCond cr (po ++ p3 ++ p4 ++ p5 ++ p6 ++ pc) ++ p7 ++ p8)

/-- `coder/encode/container.rs` 11-28 (`encode_container_refs`): `self.name` for every field that is not
calculated, nested ones included. -/
def genRefs (src : Nat) : List FAttr → Nat → Nat × Prog
  | [], c => (c, .nil)
  | a :: as, c =>
    if a.auto.isSome then genRefs src as c
    else
      let (c', p) := genRefs src as (c + 1)
      (c', .op (.getName c src a.name) (.op (.setRef a.name c) p))

/-- `coder/encode/container.rs` 58-71 (`encode_container_calculated`): the calculated fields that use no
`blen`, in order. -/
def genCalculated : List FAttr → Nat → Nat × Prog
  | [], c => (c, .nil)
  | a :: as, c =>
    match a.auto with
    | some e =>
      if e.blens.isEmpty then
        let (c', p) := genCalculated as (c + 1)
        (c', .op (.eval c e) (.op (.setRef a.name c) p))
      else genCalculated as c
    | none => genCalculated as c

/-- Fresh registers for the fields of a variant (`coder/encode/container.rs` 207-221). -/
def genNames : List String → Nat → Nat × List (String × Nat)
  | [], c => (c, [])
  | n :: ns, c => let (c', rs) := genNames ns (c + 1); (c', (n, c) :: rs)

def setRefs : List (String × Nat) → Prog
  | [] => .nil
  | (n, r) :: rs => .op (.setRef n r) (setRefs rs)

/-- `coder/encode/container.rs` 197-245: one arm of a tagged enum. The transforms and the length of an
arm that is a container are not looked at. -/
def genArm (en : String) (t : Target) (arm : Arm) (g : GState) : GState × Prog :=
  let (c1, p1, cr) := genCond arm.attr.cond g.c
  match arm.body with
  | .leaf ty =>
    let (c2, po, t', pc) := genXforms t (c1 + 1) arm.attr.xfs
    let (c3, pl) := genLeaf t' ty c1 c2
    ({ g with c := c3 },
      p1 ++ wrapCond cr (.op (.unwrapEnum en arm.attr.name 0 c1 variantMsg) (po ++ pl ++ pc ++ .one .brk)))
  | .cont _ items =>
    let (c2, rs) := genNames items.names (c1 + 1)
    let (c3, p3) := genCalculated items.leaves c2
    let (g4, p4) := genItems false t items { g with c := c3 } []
    (g4, p1 ++ wrapCond cr (.op (.unwrapStruct en arm.attr.name 0 rs variantMsg)
      (setRefs rs ++ p3 ++ p4 ++ .one .brk)))

def genArms (en : String) (t : Target) : List Arm → GState → GState × Prog
  | [], g => (g, .nil)
  | arm :: arms, g =>
    let (g1, p1) := genArm en t arm g
    let (g2, p2) := genArms en t arms g1
    (g2, p1 ++ p2)

/-- `coder/encode/field.rs` 4-22 (`encode_field_top`) with `encode_container` for the top level. -/
def genDecl (d : Decl) : GState × Prog :=
  match d.body with
  | .leaf cond ty =>
    let (c1, p1) := genField .direct 0 ⟨d.name, cond, d.xfs, none⟩ ty 1
    ({ GState.init with c := c1 }, .op (.getInner 0 0) p1)
  | .repr t =>
    let (c1, po, t', pc) := genXforms .direct 1 d.xfs
    ({ GState.init with c := c1 }, po ++ .one (.repr t' 0 t) ++ pc)
  | .struct len items =>
    let (c1, po, t', pc) := genXforms .direct 1 d.xfs
    let (g2, p2, bt) := genOpen t' d.name len { GState.init with c := c1 }
    let (c3, p3) := genRefs 0 items.leaves g2.c
    let (c4, p4) := genCalculated items.leaves c3
    let (g5, p5) := genItems false bt items { g2 with c := c4 } []
    let (g6, p6) := genClose t' d.name len bt g5
    (g6, po ++ p2 ++ p3 ++ p4 ++ p5 ++ p6 ++ pc)
  | .tagged len arms =>
    let (c1, po, t', pc) := genXforms .direct 1 d.xfs
    let (g2, p2, bt) := genOpen t' d.name len { GState.init with c := c1 }
    let (g3, p3) := genArms d.name bt arms g2
    let (g4, p4) := genClose t' d.name len bt g3
    (g4, po ++ p2 ++ .block p3 .nil ++ p4 ++ pc)

/-! ## Meaning of the instructions -/

/-- What the generated code calls. `xform name args data` is everything a transform's writer has put
into the underlying writer once it is dropped after `data` was written to it. -/
structure Ext where
  oc : Bool
  input : String → Option Val
  call : String → List Val → Val → Res Bytes
  foreign : String → List Val → Val → Res Bytes
  xform : String → List Val → Bytes → Res Bytes

/-- A stream variable: the writer of a transform over another sink, or a `&mut dyn Write` to a sink. -/
inductive SInfo
  | owned (under : Target) (xf : String) (args : List Val)
  | alias (t : Target)

/-- Registers, the bytes written into each sink so far, and the stream variables. The sinks are the
`writer` argument, the buffers, and the writers of transforms. -/
structure State where
  regs : Nat → Option Val
  mem : Target → Option Bytes
  info : Nat → Option SInfo

inductive Out
  | next (s : State)
  | brk (s : State)
  | fault (f : Fault)

def State.reg (s : State) (r : Nat) : Res Val := optRes (s.regs r)
def State.setReg (s : State) (r : Nat) (v : Val) : State := { s with regs := upd s.regs r (some v) }
def State.args (s : State) (rs : List Nat) : Res (List Val) := rs.mapM s.reg

/-- The sink behind a writer expression (`compiler/encoder.rs` 7-16, `emit_target`). -/
def State.sink (s : State) (t : Target) : Target :=
  match t with
  | .stream r => match s.info r with
    | some (.alias t') => t'
    | _ => t
  | t => t

/-- `write_all`. Writing into memory does not fail; errors of the caller's writer are not modelled. -/
def State.write (s : State) (t : Target) (bs : Bytes) : Res State :=
  match s.mem (s.sink t) with
  | some b => .ok { s with mem := upd s.mem (s.sink t) (some (b ++ bs)) }
  | none => .error .ill

/-- Dropping the writer of a transform makes it write everything it holds. -/
def State.finish (X : Ext) (s : State) (r : Nat) : Res State :=
  match s.info r with
  | some (.owned u xf args) => do
    let data ← optRes (s.mem (.stream r))
    let out ← X.xform xf args data
    s.write u out
  | some (.alias _) => .ok s
  | none => .error .ill

/-- A new writer for a transform over `under`. -/
def State.open (s : State) (under : Target) (r : Nat) (xf : String) (args : List Val) : State :=
  { s with mem := upd s.mem (.stream r) (some []),
           info := upd s.info r (some (.owned (s.sink under) xf args)) }

def State.alias (s : State) (t : Target) (r : Nat) : State :=
  { s with info := upd s.info r (some (.alias (s.sink t))) }

/-- `let mut owned = None` (`compiler/encoder.rs` 345). -/
def State.noStream (s : State) (r : Nat) : State := { s with info := upd s.info r none }

def optLen (s : State) : Option Nat → Res (Option Nat)
  | none => .ok none
  | some r => do let v ← s.reg r; let n ← asUsize v; .ok (some n)

abbrev Refs := String → Option Nat

/-- Overrides a map at several names. -/
def overlay {α} (m : String → Option α) (bl : List (String × Option α)) : String → Option α :=
  bl.foldr (fun p m => upd m p.1 p.2) m

/-- Binds several registers. -/
def bindRegs (regs : Nat → Option Val) : List (String × Nat) → List Val → Nat → Option Val
  | (_, r) :: rs, v :: vs => bindRegs (upd regs r (some v)) rs vs
  | _, _ => regs

/-- One statement without blocks. `refs` is what `resolved_refs` holds when protospec emits it
(`compiler/encoder.rs` 18-21, 430-441). -/
def execOp (X : Ext) (refs : Refs) (s : State) (i : Op) : Res State :=
  match i with
  | .eval r e => do
    let v ← runE X.oc ⟨fun n => (refs n).bind s.regs, X.input⟩ e
    .ok (s.setReg r v)
  | .evalBlen r e bl => do
    let v ← runE X.oc ⟨fun n => (overlay refs bl n).bind s.regs, X.input⟩ e
    .ok (s.setReg r v)
  | .getName r src n => do let v ← s.reg src; let x ← fieldOf v n; .ok (s.setReg r x)
  | .getIndex r src idx => do
    let v ← s.reg src
    let i ← s.reg idx
    let n ← i.toInt
    -- an index that is in range is unchanged by `as usize`
    let x ← itemOf v n.val.toNat
    .ok (s.setReg r x)
  | .getInner r src => do let v ← s.reg src; let x ← innerOf v; .ok (s.setReg r x)
  | .getRef r n => do let v ← optRes ((refs n).bind s.regs); .ok (s.setReg r v)
  | .setRef _ _ => .ok s
  | .allocBuf b len => do
    let v ← s.reg len
    let n ← asUsize v
    if 2 ^ 63 ≤ n then .error .panic else .ok { s with mem := upd s.mem (.buf b) (some []) }
  | .allocDyn b => .ok { s with mem := upd s.mem (.buf b) (some []) }
  | .wrap u new xf args => do let vs ← s.args args; .ok (s.open u new xf vs)
  | .endStream r => s.finish X r
  | .emitBuf t b => do let bs ← optRes (s.mem (.buf b)); s.write t bs
  | .foreign t src n args => do
    let vs ← s.args args; let v ← s.reg src; let bs ← X.foreign n vs v; s.write t bs
  | .ref t src n args => do
    let vs ← s.args args; let v ← s.reg src; let bs ← X.call n vs v; s.write t bs
  | .repr t src ty => do let v ← s.reg src; let bs ← encRepr ty v; s.write t bs
  | .prim t src p => do let v ← s.reg src; let bs ← encPrim p v; s.write t bs
  | .primArray t src p len => do
    let k ← optLen s len; let v ← s.reg src; let bs ← encPrimArray p k v; s.write t bs
  | .reprArray t src ty len => do
    let k ← optLen s len; let v ← s.reg src; let bs ← encReprArray ty k v; s.write t bs
  | .pad t len => do let v ← s.reg len; let bs ← padBytes v; s.write t bs
  | .lenVal r src => do let v ← s.reg src; let n ← rtLen v; .ok (s.setReg r (.int ⟨.u64, n⟩))
  | .lenBuf r b => do let bs ← optRes (s.mem (.buf b)); .ok (s.setReg r (.int ⟨.u64, bs.length⟩))
  | .drop r => match s.info r with
    | some _ => s.finish X r
    | none => .ok s
  | .nullCheck src dst m => do let v ← s.reg src; let x ← Verif.nullCheck m v; .ok (s.setReg dst x)
  | .unwrapEnum en d src dst m => do
    let v ← s.reg src; let x ← Verif.unwrapEnum en d m v; .ok (s.setReg dst x)
  | .unwrapStruct en d src dst m => do
    let v ← s.reg src
    let xs ← Verif.unwrapStruct en d m (dst.map (·.1)) v
    .ok { s with regs := bindRegs s.regs dst xs }
  | .brk => .error .ill

/-- `resolved_refs` after an instruction list has been emitted: `SetRef` takes effect in the order of
emission, whether or not the block it stands in is executed. -/
def refsAfter : Prog → Refs → Refs
  | .nil, m => m
  | .op (.setRef n r) rest, m => refsAfter rest (upd m n (some r))
  | .op _ rest, m => refsAfter rest m
  | .loop _ _ i rest, m => refsAfter rest (refsAfter i m)
  | .cond _ i rest, m => refsAfter rest (refsAfter i m)
  | .condWrap _ p _ _ _ _ _ rest, m => refsAfter rest (refsAfter p m)
  | .block i rest, m => refsAfter rest (refsAfter i m)

/-- After a block, the variables declared in it are gone; what was written stays written. -/
def State.leave (s s' : State) : State := { s' with regs := s.regs }

/-- `for idx in 0..n { .. }`. -/
def loopN (body : State → Out) (idx : Nat) : Nat → Nat → State → Out
  | _, 0, s => .next s
  | i, n + 1, s =>
    match body (s.setReg idx (.int ⟨.u64, i⟩)) with
    | .next s' => loopN body idx (i + 1) n (s.leave s')
    | o => o

/-- Runs an instruction list. -/
def exec (X : Ext) : Refs → Prog → State → Out
  | _, .nil, s => .next s
  | refs, .op i rest, s =>
    match i with
    | .brk => .brk s
    | .setRef n r => exec X (upd refs n (some r)) rest s
    | i =>
      match execOp X refs s i with
      | .ok s' => exec X refs rest s'
      | .error f => .fault f
  | refs, .loop idx len inner rest, s =>
    match (s.reg len).bind rangeCount with
    | .ok n =>
      match loopN (exec X refs inner) idx 0 n s with
      | .next s' => exec X (refsAfter inner refs) rest s'
      | o => o
    | .error f => .fault f
  | refs, .cond c inner rest, s =>
    match s.regs c with
    | some (.bool true) =>
      match exec X refs inner s with
      | .next s' => exec X (refsAfter inner refs) rest (s.leave s')
      | o => o
    | some (.bool false) => exec X (refsAfter inner refs) rest s
    | _ => .fault .ill
  | refs, .condWrap c prelude u new owned xf args rest, s =>
    match s.regs c with
    | some (.bool true) =>
      match exec X refs prelude s with
      | .next s' =>
        match s'.args args with
        | .ok vs =>
          let s1 := (s.leave s').open u owned xf vs
          exec X (refsAfter prelude refs) rest (s1.alias (.stream owned) new)
        | .error f => .fault f
      | o => o
    | some (.bool false) => exec X (refsAfter prelude refs) rest ((s.noStream owned).alias u new)
    | _ => .fault .ill
  | refs, .block inner rest, s =>
    match exec X refs inner s with
    | .next s' => exec X (refsAfter inner refs) rest (s.leave s')
    | .brk s' => exec X (refsAfter inner refs) rest (s.leave s')
    | o => o

/-- The function entry (`compiler/encoder.rs` 452-462): register 0 is `self`. -/
def initState (v : Val) : State :=
  { regs := fun r => if r = 0 then some v else none,
    mem := fun t => if t = .direct then some [] else none,
    info := fun _ => none }

/-- `value.encode_sync(writer, args..)`: the bytes written. `self` must be a value of the type. -/
def runProg (X : Ext) (p : Prog) (v : Val) : Res Bytes :=
  match exec X (fun _ => none) p (initState v) with
  | .next s => optRes (s.mem .direct)
  | .brk _ => .error .ill
  | .fault f => .error f

/-- The name of the Rust type a value belongs to. -/
def typeName : Val → Option String
  | .struct n _ | .newtype n _ | .enm n _ _ | .bits n _ | .variant n _ _ | .variantS n _ _ => some n
  | _ => none

/-- The generated `encode_sync` of a declaration, called on `v`: nothing if protospec panicked while
generating it, or if `v` is not of the type. -/
def runDecl (X : Ext) (d : Decl) (v : Val) : Res Bytes :=
  if (genDecl d).1.ok ∧ typeName v = some d.name then runProg X (genDecl d).2 v else .error .ill

end Enc
end Verif
