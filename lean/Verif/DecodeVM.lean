import Verif.Wire
/-!
# Generated decoders

`genDecode` models `/repo/protospec-build/src/coder/decode/*.rs` (the instruction generator);
`exec` gives the instructions the meaning of the Rust statements that
`/repo/protospec-build/src/compiler/decoder.rs` writes for them.
-/
namespace Verif.Dec

/-- `coder/mod.rs` 16-21; decoders never use `Buf`. -/
inductive Target
  | direct
  | stream (r : Nat)
  deriving DecidableEq, Repr

/-- `coder/decode/instruction.rs` 3-25 (`Tuple` is never generated). -/
inductive Construct
  | struct (name : String) (items : List (String × Nat))
  | taggedTuple (name : String) (item : Nat)
  | taggedEnum (name disc : String) (item : Nat)
  | taggedEnumStruct (name disc : String) (items : List (String × Nat))
  deriving DecidableEq, Repr

abbrev RegMap := String → Option Nat

/-- The instructions of `coder/decode/instruction.rs` 27-65 that contain no blocks. `DecodeRepr` and
`DecodeReprArray` carry the type instead of its name and representation. -/
inductive Op
  | eval (r : Nat) (e : Expr) (m : RegMap)
  | construct (r : Nat) (c : Construct)
  | constrict (src : Target) (new len : Nat)
  | wrap (src : Target) (new : Nat) (xf : String) (args : List Nat)
  | foreign (src : Target) (out : Nat) (name : String) (args : List Nat)
  | ref (src : Target) (out : Nat) (cls : String) (args : List Nat)
  | repr (t : ReprTy) (out : Nat) (src : Target)
  | prim (src : Target) (out : Nat) (p : Prim)
  | primArray (src : Target) (out : Nat) (p : Prim) (len : Option Nat)
  | reprArray (src : Target) (out : Nat) (t : ReprTy) (len : Option Nat)
  | skip (src : Target) (len : Nat)
  | loopOutput (out item : Nat)
  | ret (r : Nat)
  | error (msg : String)

/-- An instruction list (`Vec<Instruction>`); the instructions with blocks are constructors. -/
inductive Prog
  | nil
  | op (i : Op) (rest : Prog)
  | loop (src : Target) (len term : Option Nat) (out : Nat) (inner : Prog) (rest : Prog)
  /-- `Conditional(targets, interior, ..)`: both register lists are always the same -/
  | cond (regs : List Nat) (c : Nat) (inner : Prog) (rest : Prog)
  | condPred (c : Nat) (inner : Prog) (rest : Prog)
  | condWrap (c : Nat) (prelude : Prog) (src : Target) (new : Nat) (xf : String) (args : List Nat)
      (rest : Prog)

namespace Prog
def append : Prog → Prog → Prog
  | nil, q => q
  | op i r, q => op i (append r q)
  | loop s l t o i r, q => loop s l t o i (append r q)
  | cond rs c i r, q => cond rs c i (append r q)
  | condPred c i r, q => condPred c i (append r q)
  | condWrap c p s n x a r, q => condWrap c p s n x a (append r q)

instance : Append Prog := ⟨append⟩

/-- A single instruction. -/
def one (i : Op) : Prog := .op i .nil
end Prog

/-! ## Generator -/

/-- `self.instructions.push(Eval(r, arg, map))` for each argument (`coder/decode/field.rs` 97-106,
`coder/decode/mod.rs` 137-146). -/
def genArgs (m : RegMap) : Nat → List Expr → Nat × Prog × List Nat
  | c, [] => (c, .nil, [])
  | c, e :: es =>
    let (c', p, rs) := genArgs m (c + 1) es
    (c', .op (.eval c e m) p, c :: rs)

/-- `coder/decode/mod.rs` 65-162 (`decode_type`) with `coder/decode/array.rs` 4-98 (`decode_array`).
Returns the register counter, the instructions and the register of the value. -/
def genLeaf (m : RegMap) (src : Target) : LTy → Nat → Nat × Prog × Nat
  | .prim p, c => (c + 1, .one (.prim src c p), c)
  | .ref target foreign _ args, c =>
    let (c', p, rs) := genArgs m (c + 1) args
    if foreign then (c', p ++ .one (.foreign src c target rs), c)
    else (c', p ++ .one (.ref src c target rs), c)
  | .array elem len, c =>
    -- register `c` is allocated by `decode_type` and stays unused
    match len with
    | .term e =>
      let r := c + 1
      let out := c + 2
      let (c', p, item) := genLeaf m src elem (c + 3)
      (c', .op (.eval r e m) (.loop src none (some r) out (p ++ .one (.loopOutput out item)) .nil), out)
    | .fixed e =>
      let r := c + 1
      let out := c + 2
      match elem.resolved with
      | .prim p => (c + 3, .op (.eval r e m) (.one (.primArray src out p (some r))), out)
      | .repr t => (c + 3, .op (.eval r e m) (.one (.reprArray src out t (some r))), out)
      | .other =>
        let (c', p, item) := genLeaf m src elem (c + 3)
        (c', .op (.eval r e m) (.loop src (some r) none out (p ++ .one (.loopOutput out item)) .nil), out)
    | .unbounded =>
      let out := c + 1
      match elem.resolved with
      | .prim p => (c + 2, .one (.primArray src out p none), out)
      | .repr t => (c + 2, .one (.reprArray src out t none), out)
      | .other =>
        let (c', p, item) := genLeaf m src elem (c + 2)
        (c', .loop src none none out (p ++ .one (.loopOutput out item)) .nil, out)

/-- `coder/decode/field.rs` 77-128: the loop over the transforms, given in the order it visits them
(last declared first). -/
def genXforms (m : RegMap) : Target → Nat → List XformUse → Nat × Prog × Target
  | src, c, [] => (c, .nil, src)
  | src, c, x :: xs =>
    match x.cond with
    | some e =>
      let (c1, p, rs) := genArgs m (c + 1) x.args
      let (c2, q, src') := genXforms m (.stream c1) (c1 + 1) xs
      (c2, .op (.eval c e m) (.condWrap c p src c1 x.name rs q), src')
    | none =>
      let (c1, p, rs) := genArgs m c x.args
      let (c2, q, src') := genXforms m (.stream c1) (c1 + 1) xs
      (c2, p ++ .op (.wrap src c1 x.name rs) q, src')

/-- `coder/decode/field.rs` 36-48 (`decode_field_condition`). -/
def genCond (m : RegMap) (cond : Option Expr) (c : Nat) : Nat × Prog × Option Nat :=
  match cond with
  | some e => (c + 1, .one (.eval c e m), some c)
  | none => (c, .nil, none)

/-- `coder/decode/field.rs` 51-74, the part after the field body: wraps it in a `Conditional`. -/
def wrapCond (cr : Option Nat) (emitted : List Nat) (p : Prog) : Prog :=
  match cr with
  | some r => .cond emitted r p .nil
  | none => p

/-- `coder/decode/container.rs` 10-27: the `Constrict` of a container with a length. -/
def genConstrict (m : RegMap) (src : Target) (len : Option Expr) (c : Nat) : Nat × Prog × Target :=
  match len with
  | some e => (c + 2, .op (.eval c e m) (.one (.constrict src (c + 1) c)), .stream (c + 1))
  | none => (c, .nil, src)

/-- `coder/decode/container.rs` 35-49: the loop over the items, with `decode_field`
(`coder/decode/field.rs` 51-74) and `decode_complex_type` (`coder/decode/mod.rs` 41-63) inlined.
Returns the counter, the register map, the instructions and the decoded registers. -/
def genItems (src : Target) : Fields → RegMap → Nat → Nat × RegMap × Prog × List Nat
  | .nil, m, c => (c, m, .nil, [])
  | .pad _ e rest, m, c =>
    let (c', m', p, em) := genItems src rest m (c + 1)
    (c', m', .op (.eval c e m) (.op (.skip src c) p), em)
  | .leaf a ty rest, m, c =>
    let (c1, p1, cr) := genCond m a.cond c
    let (c2, p2, src') := genXforms m src c1 a.xfs.reverse
    let (c3, p3, r) := genLeaf m src' ty c2
    let (c4, m4, p4, em) := genItems src rest (upd m a.name (some r)) c3
    (c4, m4, p1 ++ wrapCond cr [r] (p2 ++ p3) ++ p4, r :: em)
  | .cont a len items rest, m, c =>
    let (c1, p1, cr) := genCond m a.cond c
    let (c2, p2, src') := genXforms m src c1 a.xfs.reverse
    let (c3, p3, src'') := genConstrict m src' len c2
    let (c4, m4, p4, em4) := genItems src'' items m c3
    let (c5, m5, p5, em5) := genItems src rest m4 c4
    (c5, m5, p1 ++ wrapCond cr em4 (p2 ++ p3 ++ p4) ++ p5, em4 ++ em5)

/-- The `(name, register)` list of a constructed value (`coder/decode/container.rs` 54-66, 97-113);
a missing name is a panic of protospec, here it drops out (it never happens). -/
def namedRegs (m : RegMap) (names : List String) : List (String × Nat) :=
  names.filterMap fun n => (m n).map fun r => (n, r)

/-- `coder/decode/container.rs` 92-129: the value of one arm and how it is constructed. -/
def genArm (tyName : String) (src : Target) (arm : Arm) (m : RegMap) (c : Nat) :
    Nat × RegMap × Prog × Construct :=
  match arm.body with
  | .leaf ty =>
    let (c3, p3, r) := genLeaf m src ty c
    (c3, m, p3, .taggedEnum tyName arm.attr.name r)
  | .cont len items =>
    let (c3, p3, src') := genConstrict m src len c
    let (c4, m4, p4, _) := genItems src' items m c3
    (c4, m4, p3 ++ p4, .taggedEnumStruct tyName arm.attr.name (namedRegs m4 items.names))

/-- `coder/decode/container.rs` 77-146 (`decode_enum_container`). The register map keeps the fields of
earlier arms, as the code does. Returns the register of the value if the last arm is unconditional. -/
def genArms (tyName : String) (src : Target) : List Arm → RegMap → Nat → Nat × Prog × Option Nat
  | [], _, c => (c, .one (.error ("no enum conditions matched for " ++ tyName)), none)
  | arm :: arms, m, c =>
    let (c1, p1, cr) := genCond m arm.attr.cond c
    let (c2, p2, src') := genXforms m src c1 arm.attr.xfs.reverse
    let (c3, m3, p3, ctor) := genArm tyName src' arm m c2
    let body := p2 ++ p3 ++ .one (.construct c3 ctor)
    match cr with
    | some r =>
      let (c5, q, res) := genArms tyName src arms m3 (c3 + 1)
      (c5, p1 ++ .condPred r (body ++ .one (.ret c3)) q, res)
    | none => (c3 + 1, p1 ++ body, some c3)

/-- `coder/decode/field.rs` 4-33 (`decode_field_top`). -/
def genDecl (d : Decl) : Prog :=
  let m : RegMap := fun _ => none
  match d.body with
  | .leaf cond ty =>
    let (c1, p1, cr) := genCond m cond 0
    let (c2, p2, src) := genXforms m .direct c1 d.xfs.reverse
    let (c3, p3, r) := genLeaf m src ty c2
    p1 ++ wrapCond cr [r] (p2 ++ p3) ++
      .op (.construct c3 (.taggedTuple d.name r)) (.one (.ret c3))
  | .repr t =>
    let (c2, p2, src) := genXforms m .direct 0 d.xfs.reverse
    p2 ++ .op (.repr t c2 src) (.one (.ret c2))
  | .struct len items =>
    let (c2, p2, src) := genXforms m .direct 0 d.xfs.reverse
    let (c3, p3, src') := genConstrict m src len c2
    let (c4, m4, p4, _) := genItems src' items m c3
    p2 ++ p3 ++ p4 ++
      .op (.construct c4 (.struct d.name (namedRegs m4 items.names))) (.one (.ret c4))
  | .tagged len arms =>
    let (c2, p2, src) := genXforms m .direct 0 d.xfs.reverse
    let (c3, p3, src') := genConstrict m src len c2
    let (_, p4, res) := genArms d.name src' arms m c3
    p2 ++ p3 ++ p4 ++ (match res with | some r => .one (.ret r) | none => .nil)

/-! ## Meaning of the instructions -/

/-- A reader variable: a window on a base reader. `std::io::Take` over a reader whose remaining bytes
are `b` shows a prefix of `b`; `stop` is the number of bytes of the base beyond that prefix.
(`Verif.Props.take_is_window` relates this to nested `Take` adapters.) -/
structure Win where
  base : Nat
  stop : Nat
  deriving DecidableEq, Repr

/-- Registers, reader variables, and the remaining bytes of the base readers. Base 0 is the `reader`
argument, further ones belong to transforms and to the cursors of unbounded loops. -/
structure State where
  regs : Nat → Option Val
  strm : Target → Option Win
  mem : Nat → Bytes
  nb : Nat

/-- How a block of statements ends. -/
inductive Out
  | next (s : State)
  | ret (v : Val) (s : State)
  | fault (f : Fault)

/-- What the generated code calls: `decode_sync` of other declared types, foreign types, transforms. -/
structure Ext where
  oc : Bool
  input : String → Option Val
  call : String → List Val → Bytes → Res (Val × Bytes)
  foreign : String → List Val → Bytes → Res (Val × Bytes)
  /-- A transform reads some input and presents the decoded bytes; reading all of it at creation
  instead of on demand is a simplification. -/
  xform : String → List Val → Bytes → Res (Bytes × Bytes)

def State.vis (s : State) (w : Win) : Bytes := (s.mem w.base).take ((s.mem w.base).length - w.stop)
def State.hid (s : State) (w : Win) : Bytes := (s.mem w.base).drop ((s.mem w.base).length - w.stop)

/-- Runs a reading function on what a reader variable shows and stores what is left. -/
def State.onStream {α} (s : State) (t : Target) (f : Bytes → Res (α × Bytes)) : Res (α × State) := do
  let w ← optRes (s.strm t)
  let (a, rest) ← f (s.vis w)
  .ok (a, { s with mem := upd s.mem w.base (rest ++ s.hid w) })

def State.reg (s : State) (r : Nat) : Res Val := optRes (s.regs r)
def State.setReg (s : State) (r : Nat) (v : Val) : State := { s with regs := upd s.regs r (some v) }

def State.args (s : State) (rs : List Nat) : Res (List Val) := rs.mapM s.reg

def State.named (s : State) (items : List (String × Nat)) : Res (List (String × Val)) :=
  items.mapM fun p => (s.reg p.2).map fun v => (p.1, v)

/-- A new base reader with the given bytes, as reader variable `t`. -/
def State.newStream (s : State) (t : Target) (bs : Bytes) : State :=
  { s with strm := upd s.strm t (some ⟨s.nb, 0⟩), mem := upd s.mem s.nb bs, nb := s.nb + 1 }

/-- `let new = transform(src)` (`compiler/decoder.rs` 164-173). -/
def State.wrapStream (X : Ext) (s : State) (src : Target) (new : Nat) (xf : String) (args : List Val) :
    Res State := do
  let (dec, s') ← s.onStream src (X.xform xf args)
  .ok (s'.newStream (.stream new) dec)

def optLen (s : State) : Option Nat → Res (Option Nat)
  | none => .ok none
  | some r => do let v ← s.reg r; let n ← asUsize v; .ok (some n)

/-- `compiler/decoder.rs` 58-154. -/
def State.build (s : State) : Construct → Res Val
  | .struct n items => do let fs ← s.named items; .ok (.struct n fs)
  | .taggedTuple n r => do let v ← s.reg r; .ok (.newtype n v)
  | .taggedEnum n d r => do let v ← s.reg r; .ok (.variant n d v)
  | .taggedEnumStruct n d items => do let fs ← s.named items; .ok (.variantS n d fs)

/-- Reads into a register. -/
def State.decInto (s : State) (t : Target) (out : Nat) (f : Bytes → Res (Val × Bytes)) : Res State := do
  let (v, s') ← s.onStream t f
  .ok (s'.setReg out v)

/-- One statement without blocks; `ret` and `error` leave the function. -/
def execOp (X : Ext) (s : State) : Op → Out
  | .ret r => match s.reg r with | .ok v => .ret v s | .error f => .fault f
  | .error m => .fault (.err m)
  | i =>
    let res : Res State :=
      match i with
      | .eval r e m => do
        let v ← runE X.oc ⟨fun n => (m n).bind s.regs, X.input⟩ e
        .ok (s.setReg r v)
      | .construct r c => do let v ← s.build c; .ok (s.setReg r v)
      | .constrict src new len => do
        let v ← s.reg len
        let k ← asUsize v
        let w ← optRes (s.strm src)
        -- `take(k)`: everything beyond the first `k` visible bytes is out of reach
        let w' : Win := ⟨w.base, max w.stop ((s.mem w.base).length - k)⟩
        .ok { s with strm := upd s.strm (.stream new) (some w') }
      | .wrap src new xf args => do let vs ← s.args args; s.wrapStream X src new xf vs
      | .foreign src out n args => do let vs ← s.args args; s.decInto src out (X.foreign n vs)
      | .ref src out n args => do let vs ← s.args args; s.decInto src out (X.call n vs)
      | .repr t out src => s.decInto src out (decRepr t)
      | .prim src out p => s.decInto src out (decPrim p)
      | .primArray src out p len => do let k ← optLen s len; s.decInto src out (decPrimArray X.oc p k)
      | .reprArray src out t len => do let k ← optLen s len; s.decInto src out (decReprArray X.oc t k)
      | .skip src len => do
        let v ← s.reg len
        let k ← asUsize v
        let (_, s') ← s.onStream src (skipBytes k)
        .ok s'
      | .loopOutput out item => do
        let v ← s.reg item
        let o ← s.reg out
        match o with
        | .arr vs => .ok (s.setReg out (.arr (vs ++ [v])))
        | _ => .error .ill
      | .ret _ | .error _ => .error .ill
    match res with
    | .ok s' => .next s'
    | .error f => .fault f

/-- After a block, the variables declared in it are gone; the readers stay where they are. -/
def State.leave (s s' : State) : State := { s with mem := s'.mem, nb := s'.nb }

/-- One loop iteration: its variables are local except the output vector. -/
def iter (body : State → Out) (out : Nat) (s : State) : Out :=
  match body s with
  | .next s' => .next { (s.leave s') with regs := upd s.regs out (s'.regs out) }
  | o => o

def loopN (body : State → Out) : Nat → State → Out
  | 0, s => .next s
  | n + 1, s =>
    match body s with
    | .next s' => loopN body n s'
    | o => o

/-- `while position < r_len` on the cursor (`compiler/decoder.rs` 414-419). A body that consumes
nothing runs forever. -/
def loopWhile (body : State → Out) (w : Win) : Nat → State → Out
  | fuel, s =>
    if s.vis w = [] then .next s
    else
      match fuel with
      | 0 => .fault .diverge
      | fuel + 1 =>
        match body s with
        | .next s' =>
          if (s'.vis w).length < (s.vis w).length then loopWhile body w fuel s' else .fault .diverge
        | o => o

/-- The loop with a terminator (`compiler/decoder.rs` 386-404). `fill_buf` is taken to return all
remaining bytes; `continue` with fewer bytes than the terminator then spins forever. -/
def loopTerm (body : State → Out) (w : Win) (t : Bytes) : Nat → State → Out
  | fuel, s =>
    if s.vis w = [] then .next s
    else if (s.vis w).length < t.length then .fault .diverge
    else if (s.vis w).take t.length = t then
      .next { s with mem := upd s.mem w.base ((s.vis w).drop t.length ++ s.hid w) }
    else
      match fuel with
      | 0 => .fault .diverge
      | fuel + 1 =>
        match body s with
        | .next s' =>
          if (s'.vis w).length < (s.vis w).length then loopTerm body w t fuel s' else .fault .diverge
        | o => o

def Res.out (r : Res State) : Out :=
  match r with
  | .ok s => .next s
  | .error f => .fault f

/-- `compiler/decoder.rs` 373-424. -/
def execLoop (body : State → Out) (src : Target) (len term : Option Nat) (out : Nat) (s : State) : Out :=
  let s0 := s.setReg out (.arr [])
  match len, term with
  | some l, _ =>
    match (s.reg l).bind loopCount with
    | .ok n => loopN (iter body out) n s0
    | .error f => .fault f
  | none, some t =>
    match s.reg t, s.strm src with
    | .ok v, some w =>
      match v.toBytes with
      | some tb => loopTerm (iter body out) w tb (s.vis w).length s0
      | none => .fault .ill
    | _, _ => .fault .ill
  | none, none =>
    match s0.onStream src (fun bs => .ok (bs, [])) with
    | .ok (r, s1) =>
      let s2 := s1.newStream src r
      match loopWhile (iter body out) ⟨s1.nb, 0⟩ r.length s2 with
      | .next s3 => .next { s3 with strm := s.strm }
      | o => o
    | .error f => .fault f

/-- Rebinding the registers of a conditional block to `Some(..)` (`compiler/decoder.rs` 444-479). -/
def somes (regs inner : Nat → Option Val) : List Nat → Nat → Option Val
  | [] => regs
  | r :: rs => upd (somes regs inner rs) r ((inner r).map fun v => .opt (some v))

def nones (regs : Nat → Option Val) : List Nat → Nat → Option Val
  | [] => regs
  | r :: rs => upd (nones regs rs) r (some (.opt none))

/-- Runs an instruction list. -/
def exec (X : Ext) : Prog → State → Out
  | .nil, s => .next s
  | .op i rest, s =>
    match execOp X s i with
    | .next s' => exec X rest s'
    | o => o
  | .loop src len term out inner rest, s =>
    match execLoop (exec X inner) src len term out s with
    | .next s' => exec X rest s'
    | o => o
  | .cond regs c inner rest, s =>
    match s.regs c with
    | some (.bool true) =>
      match exec X inner s with
      | .next s' => exec X rest { (s.leave s') with regs := somes s.regs s'.regs regs }
      | o => o
    | some (.bool false) => exec X rest { s with regs := nones s.regs regs }
    | _ => .fault .ill
  | .condPred c inner rest, s =>
    match s.regs c with
    | some (.bool true) =>
      match exec X inner s with
      | .next s' => exec X rest (s.leave s')
      | o => o
    | some (.bool false) => exec X rest s
    | _ => .fault .ill
  | .condWrap c prelude src new xf args rest, s =>
    match s.regs c with
    | some (.bool true) =>
      match exec X prelude s with
      | .next s' =>
        match (s'.args args).bind (fun vs => (s.leave s').wrapStream X src new xf vs) with
        | .ok s'' => exec X rest s''
        | .error f => .fault f
      | o => o
    | some (.bool false) => exec X rest { s with strm := upd s.strm (.stream new) (s.strm src) }
    | _ => .fault .ill

/-- The function entry: registers empty, the `reader` argument shows `bs`. -/
def initState (bs : Bytes) : State :=
  { regs := fun _ => none, strm := fun t => if t = .direct then some ⟨0, 0⟩ else none,
    mem := fun b => if b = 0 then bs else [], nb := 1 }

/-- `Name::decode_sync(reader, args..)`: the value and the bytes left in the reader. -/
def runProg (X : Ext) (p : Prog) (bs : Bytes) : Res (Val × Bytes) :=
  match exec X p (initState bs) with
  | .ret v s => .ok (v, s.mem 0)
  | .next _ => .error .ill
  | .fault f => .error f

end Verif.Dec
