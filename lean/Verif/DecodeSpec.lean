import Verif.DecodeVM
/-!
# What decoding a declaration means

A decoder reads the fields one after the other from the bytes it is given. Nothing here knows about
registers, instructions, windows or stores: this file is the specification the generated decoders are
compared with (`Verif.Props.decode_refines`).

`Ext` only supplies the outside world: other declared types, foreign types, transforms, arguments.
-/
namespace Verif.Dec

/-- The fields decoded so far, by name. -/
abbrev Env := String → Option Val

def Env.empty : Env := fun _ => none

/-- Adds decoded fields in order. -/
def Env.bindAll (env : Env) (vs : List (String × Val)) : Env :=
  vs.foldl (fun e p => upd e p.1 (some p.2)) env

/-- The value of an expression over the fields decoded so far. -/
def ev (X : Ext) (env : Env) (e : Expr) : Res Val := runE X.oc ⟨env, X.input⟩ e

/-- `n` items one after the other. -/
def decN (f : Bytes → Res (Val × Bytes)) : Nat → Bytes → Res (List Val × Bytes)
  | 0, bs => .ok ([], bs)
  | n + 1, bs => do
    let (v, bs1) ← f bs
    let (vs, bs2) ← decN f n bs1
    .ok (v :: vs, bs2)

/-- Items until the bytes run out; an item that consumes nothing makes this endless. -/
def decAll (f : Bytes → Res (Val × Bytes)) : Nat → Bytes → Res (List Val × Bytes)
  | fuel, bs =>
    if bs = [] then .ok ([], bs)
    else
      match fuel with
      | 0 => .error .diverge
      | fuel + 1 => do
        let (v, bs1) ← f bs
        if bs1.length < bs.length then do
          let (vs, bs2) ← decAll f fuel bs1
          .ok (v :: vs, bs2)
        else .error .diverge

/-- Items until the terminator `t` is next, or the bytes run out. Fewer remaining bytes than the
terminator has: the generated loop never ends. -/
def decUntil (f : Bytes → Res (Val × Bytes)) (t : Bytes) : Nat → Bytes → Res (List Val × Bytes)
  | fuel, bs =>
    if bs = [] then .ok ([], bs)
    else if bs.length < t.length then .error .diverge
    else if bs.take t.length = t then .ok ([], bs.drop t.length)
    else
      match fuel with
      | 0 => .error .diverge
      | fuel + 1 => do
        let (v, bs1) ← f bs
        if bs1.length < bs.length then do
          let (vs, bs2) ← decUntil f t fuel bs1
          .ok (v :: vs, bs2)
        else .error .diverge

/-- A non-container type. -/
def decLeaf (X : Ext) (env : Env) : LTy → Bytes → Res (Val × Bytes)
  | .prim p, bs => decPrim p bs
  | .ref target foreign _ args, bs => do
    let vs ← args.mapM (ev X env)
    if foreign then X.foreign target vs bs else X.call target vs bs
  | .array elem len, bs =>
    match len with
    | .fixed e => do
      let v ← ev X env e
      match elem.resolved with
      | .prim p => do let n ← asUsize v; decPrimArray X.oc p (some n) bs
      | .repr t => do let n ← asUsize v; decReprArray X.oc t (some n) bs
      | .other => do
        let n ← loopCount v
        let (vs, rest) ← decN (decLeaf X env elem) n bs
        .ok (.arr vs, rest)
    | .unbounded =>
      match elem.resolved with
      | .prim p => decPrimArray X.oc p none bs
      | .repr t => decReprArray X.oc t none bs
      | .other => do
        let (vs, _) ← decAll (decLeaf X env elem) bs.length bs
        .ok (.arr vs, [])
    | .term e => do
      let v ← ev X env e
      let t ← optRes v.toBytes
      let (vs, rest) ← decUntil (decLeaf X env elem) t bs.length bs
      .ok (.arr vs, rest)

/-- Runs `k` on what the transforms make of the bytes. The list is in the order in which the wrappers
are put around the reader (last declared first): each one replaces the bytes by their decoding, what
`k` leaves of the decoded bytes is dropped, and decoding goes on after the transform's own input. -/
def decXforms {α} (X : Ext) (env : Env) : List XformUse → Bytes → (Bytes → Res (α × Bytes)) →
    Res (α × Bytes)
  | [], bs, k => k bs
  | x :: xs, bs, k =>
    match x.cond with
    | some e => do
      let c ← ev X env e
      let b ← c.toBool
      if b then do
        let vs ← x.args.mapM (ev X env)
        let (dec, rest) ← X.xform x.name vs bs
        let (a, _) ← decXforms X env xs dec k
        .ok (a, rest)
      else decXforms X env xs bs k
    | none => do
      let vs ← x.args.mapM (ev X env)
      let (dec, rest) ← X.xform x.name vs bs
      let (a, _) ← decXforms X env xs dec k
      .ok (a, rest)

/-- Runs `k` on at most the first `len` bytes; decoding goes on with what `k` left of them. -/
def decLimited {α} (X : Ext) (env : Env) (len : Option Expr) (bs : Bytes)
    (k : Bytes → Res (α × Bytes)) : Res (α × Bytes) :=
  match len with
  | none => k bs
  | some e => do
    let v ← ev X env e
    let n ← asUsize v
    let (a, rest) ← k (bs.take n)
    .ok (a, rest ++ bs.drop n)

/-- Runs `k` only if the condition holds, and marks every field it decoded as present; all the
`names` are absent otherwise. -/
def decCond (X : Ext) (env : Env) (cond : Option Expr) (names : List String) (bs : Bytes)
    (k : Bytes → Res (List (String × Val) × Bytes)) : Res (List (String × Val) × Bytes) :=
  match cond with
  | none => k bs
  | some e => do
    let c ← ev X env e
    let b ← c.toBool
    if b then do
      let (vs, rest) ← k bs
      .ok (vs.map fun p => (p.1, .opt (some p.2)), rest)
    else .ok (names.map fun n => (n, .opt none), bs)

/-- The fields of a container in declaration order; nested containers contribute their fields. -/
def decItems (X : Ext) : Fields → Env → Bytes → Res (List (String × Val) × Bytes)
  | .nil, _, bs => .ok ([], bs)
  | .pad _ e rest, env, bs => do
    let v ← ev X env e
    let n ← asUsize v
    let (_, bs1) ← skipBytes n bs
    decItems X rest env bs1
  | .leaf a ty rest, env, bs => do
    let (vs, bs1) ← decCond X env a.cond [a.name] bs fun b =>
      decXforms X env a.xfs.reverse b fun b' => do
        let (v, r) ← decLeaf X env ty b'
        .ok ([(a.name, v)], r)
    let (ws, bs2) ← decItems X rest (env.bindAll vs) bs1
    .ok (vs ++ ws, bs2)
  | .cont a len items rest, env, bs => do
    let (vs, bs1) ← decCond X env a.cond items.names bs fun b =>
      decXforms X env a.xfs.reverse b fun b' => decLimited X env len b' (decItems X items env)
    let (ws, bs2) ← decItems X rest (env.bindAll vs) bs1
    .ok (vs ++ ws, bs2)

/-- One arm of a tagged enum. -/
def decArm (X : Ext) (tyName : String) (arm : Arm) (bs : Bytes) : Res (Val × Bytes) :=
  decXforms X .empty arm.attr.xfs.reverse bs fun b =>
    match arm.body with
    | .leaf ty => do
      let (v, r) ← decLeaf X .empty ty b
      .ok (.variant tyName arm.attr.name v, r)
    | .cont len items => do
      let (vs, r) ← decLimited X .empty len b (decItems X items .empty)
      .ok (.variantS tyName arm.attr.name vs, r)

/-- The first arm whose condition holds. -/
def decArms (X : Ext) (tyName : String) : List Arm → Bytes → Res (Val × Bytes)
  | [], _ => .error (.err ("no enum conditions matched for " ++ tyName))
  | arm :: arms, bs =>
    match arm.attr.cond with
    | none => decArm X tyName arm bs
    | some e => do
      let c ← ev X .empty e
      let b ← c.toBool
      if b then decArm X tyName arm bs else decArms X tyName arms bs

/-- A declared type. -/
def decDecl (X : Ext) (d : Decl) (bs : Bytes) : Res (Val × Bytes) :=
  match d.body with
  | .leaf cond ty => do
    let (vs, r) ← decCond X .empty cond [d.name] bs fun b =>
      decXforms X .empty d.xfs.reverse b fun b' => do
        let (v, r) ← decLeaf X .empty ty b'
        .ok ([(d.name, v)], r)
    match vs with
    | [(_, v)] => .ok (.newtype d.name v, r)
    | _ => .error .ill
  | .repr t => decXforms X .empty d.xfs.reverse bs (decRepr t)
  | .struct len items =>
    decXforms X .empty d.xfs.reverse bs fun b => do
      let (vs, r) ← decLimited X .empty len b (decItems X items .empty)
      .ok (.struct d.name vs, r)
  | .tagged len arms =>
    decXforms X .empty d.xfs.reverse bs fun b =>
      decLimited X .empty len b (decArms X d.name arms)

/-- Foreign types and transforms a schema uses, as decoders. -/
structure Lib where
  oc : Bool
  foreign : String → List Val → Bytes → Res (Val × Bytes)
  xform : String → List Val → Bytes → Res (Bytes × Bytes)

/-- Arguments by parameter name. -/
def bindArgs : List String → List Val → String → Option Val
  | p :: ps, v :: vs => upd (bindArgs ps vs) p (some v)
  | _, _ => fun _ => none

/-- Calls a declared type through its definition `run`. References nest at most `fuel` deep; a deeper
recursion is the stack overflow of the generated code. -/
def callDecl (sch : Schema) (L : Lib) (run : Ext → Decl → Bytes → Res (Val × Bytes)) :
    Nat → String → List Val → Bytes → Res (Val × Bytes)
  | 0, _, _, _ => .error .diverge
  | fuel + 1, n, args, bs =>
    match sch.find n with
    | none => .error .ill
    | some d =>
      if d.params.length ≠ args.length then .error .ill
      else run ⟨L.oc, bindArgs d.params args, callDecl sch L run fuel, L.foreign, L.xform⟩ d bs

/-- `Name::decode_sync(reader, args)` of the code generated for a schema. -/
def runDecode (sch : Schema) (L : Lib) := callDecl sch L fun X d bs => runProg X (genDecl d) bs

/-- What decoding a declared type means. -/
def specDecode (sch : Schema) (L : Lib) := callDecl sch L decDecl

end Verif.Dec
