import Verif.Sem.Lower
import Verif.DecodeSpec
import Verif.EncodeSpec
import Verif.ExprLemmas
/-!
# Parameters with default values

`compiler/mod.rs` 187-226: what the generated functions of a type do about a parameter with a default value
(`type a(n: u8 ? 4u8) = …`): they take an `Option`, and begin with
`let n: T = if let Some(n) = n { n } else { … };`.
-/
namespace Verif

/-- The parameters an expression mentions. The values of variants, flags and constants are not emitted with it. -/
def Expr.inputs : Expr → List String
  | .binary _ l r => l.inputs ++ r.inputs
  | .unary _ e => e.inputs
  | .cast _ e _ => e.inputs
  | .index a i => a.inputs ++ i.inputs
  | .enumAccess _ _ _ => []
  | .int _ => []
  | .constRef _ _ => []
  | .inputRef n => [n]
  | .fieldRef _ => []
  | .str _ => []
  | .ternary c t f => c.inputs ++ t.inputs ++ f.inputs
  | .bool _ => []
  | .len _ e => e.inputs
  | .blen _ => []
  | .sum e => e.inputs
  | .bits e => e.inputs
  | .pad p b => p.inputs ++ b.inputs
  | .member e _ _ => e.inputs

/-- The declared types whose decoders the emitted code calls (`compiler/decoder.rs` 231-250). -/
def Dec.Prog.callees : Dec.Prog → List String
  | .nil => []
  | .op (.ref _ _ n _) rest => n :: rest.callees
  | .op _ rest => rest.callees
  | .loop _ _ _ _ inner rest => inner.callees ++ rest.callees
  | .cond _ _ inner rest => inner.callees ++ rest.callees
  | .condPred _ inner rest => inner.callees ++ rest.callees
  | .condWrap _ prelude _ _ _ _ rest => prelude.callees ++ rest.callees

/-- The declared types whose encoders the emitted code calls (`compiler/encoder.rs` 190-212). -/
def Enc.Prog.callees : Enc.Prog → List String
  | .nil => []
  | .op (.ref _ _ n _) rest => n :: rest.callees
  | .op _ rest => rest.callees
  | .loop _ _ inner rest => inner.callees ++ rest.callees
  | .cond _ inner rest => inner.callees ++ rest.callees
  | .condWrap _ prelude _ _ _ _ _ rest => prelude.callees ++ rest.callees
  | .block inner rest => inner.callees ++ rest.callees

/-- The declared types that the functions of a declaration call. -/
def Decl.callees (d : Decl) : List String := (Dec.genDecl d).callees ++ (Enc.genDecl d).2.callees

/-- The generated functions of a type: what they do once all parameters have values, and the default value of each
parameter (`compiler/mod.rs` 203-226). -/
structure Entry where
  decl : Decl
  defaults : List (Option Expr)
  deriving DecidableEq, Repr

/-- Where the default of a parameter is evaluated that parameter is still an `Option`, so the default must not mention
it (`compiler/mod.rs` 217-221); two parameters of one name are refused by rustc (E0415). -/
def Entry.legal (e : Entry) : Bool :=
  decide e.decl.params.Nodup && (e.decl.params.zip e.defaults).all fun p =>
    match p.2 with
    | some d => decide (p.1 ∉ d.inputs)
    | none => true

/-- What rustc accepts. The generated code calls the functions of a declared type with one plain value for each argument
the specification writes (`compiler/decoder.rs` 231-250, `compiler/encoder.rs` 190-212), never with an `Option` and never with one
for an argument that is left out, so a type with default values must not be called. (Other reasons for rustc to
refuse the code are the subject of `RustNames.lean` and `RustTypes.lean`.) -/
def legalModule (M : List Entry) : Bool :=
  M.all Entry.legal && M.all fun e => e.decl.callees.all fun n =>
    M.all fun f => f.decl.name != n || f.defaults.all Option.isNone

/-- One of the lines `let n: T = …;` (`compiler/mod.rs` 216-222); a parameter without a default value is passed as it is. -/
def argValue (oc : Bool) (d : Option Expr) (seen : String → Option Val) : Option Val → Res Val
  | some v => .ok v
  | none => match d with
    | some e => evalE true oc ⟨fun _ => none, seen⟩ e
    | none => .error .ill

/-- The lines `let n: T = if let Some(n) = n { n } else { … };` (`compiler/mod.rs` 214-222), one after the other; each sees
the parameters before it with their final values. -/
def fillArgs (oc : Bool) : List String → List (Option Expr) → (String → Option Val) → List (Option Val) → Res (List Val)
  | p :: ps, d :: ds, seen, g :: gs => do
    let v ← argValue oc d seen g
    let vs ← fillArgs oc ps ds (upd seen p (some v)) gs
    .ok (v :: vs)
  | [], [], _, [] => .ok []
  | _, _, _, _ => .error .ill

/-- The generated functions of a type. -/
def findEntry (M : List Entry) (n : String) : Option Entry := M.find? fun e => e.decl.name == n

/-- The types without their default values. -/
def declsOf (M : List Entry) : Schema := M.map (·.decl)

/-- `Name::decode_sync(reader, …)` (`compiler/mod.rs` 256-261), where `none` stands for a parameter with a default value that
is left out. References nest at most `fuel` deep. -/
def decodeEntry (M : List Entry) (L : Dec.Lib) (fuel : Nat) (n : String) (given : List (Option Val)) (bs : Bytes) :
    Res (Val × Bytes) :=
  if legalModule M then
    match findEntry M n with
    | none => .error .ill
    | some e => do
      let vs ← fillArgs L.oc e.decl.params e.defaults (fun _ => none) given
      Dec.runDecode (declsOf M) L fuel n vs bs
  else .error .ill

/-- `value.encode_sync(writer, …)` (`compiler/mod.rs` 263-266) likewise. -/
def encodeEntry (M : List Entry) (L : Enc.Lib) (fuel : Nat) (n : String) (given : List (Option Val)) (v : Val) :
    Res Bytes :=
  if legalModule M then
    match findEntry M n with
    | none => .error .ill
    | some e => do
      let vs ← fillArgs L.oc e.decl.params e.defaults (fun _ => none) given
      Enc.runEncode (declsOf M) L fuel n vs v
  else .error .ill

namespace Sem

/-- The parameters (`compiler/mod.rs` 204-213). -/
def lowerParamNames : List AArg → G (List String)
  | [] => .ok []
  | a :: rest =>
    if emitsType a.type then (lowerParamNames rest).map (a.name :: ·)
    else .error (.panic .typeRef)

/-- A default value (`compiler/mod.rs` 214-215). `ref_resolver` (187-189) is `unimplemented!` when a field is mentioned. -/
def lowerDefault (h : Heap) : Option AExpr → G (Option Expr)
  | none => .ok none
  | some e => do
    let e' ← lowerE h e
    if e'.refs.isEmpty then .ok (some e') else .error .shape

/-- The default values (`compiler/mod.rs` 205-223). -/
def lowerDefaults (h : Heap) : List AArg → G (List (Option Expr))
  | [] => .ok []
  | a :: rest => do
    let d ← lowerDefault h a.default
    let ds ← lowerDefaults h rest
    .ok (d :: ds)

/-- A type declaration with the default values of its parameters (`compiler/mod.rs` 135-290). Apart from these it is
`lowerDecl`. -/
def lowerEntry (oc : Bool) (h : Heap) (n : Nat) (f : FId) : G Entry := do
  let x ← ofR (deref h f)
  let ps ← lowerParamNames x.arguments
  let ds ← lowerDefaults h x.arguments
  let xs ← lowerXforms h x.transforms
  let b ← lowerBody oc h n x
  if x.calculated.isSome then .error .outside
  else .ok ⟨⟨x.name, ps, xs, b⟩, ds⟩

/-- The types of a module (`compiler/mod.rs` 135-168) with the default values of their parameters; see `lowerTypes`. -/
def lowerEntries (oc : Bool) (h : Heap) (n : Nat) : List (String × FId) → G (List Entry)
  | [] => .ok []
  | (name, f) :: rest => do
    let x ← ofR (deref h f)
    match x.type with
    | .foreign _ => lowerEntries oc h n rest
    | _ => do
      if x.name ≠ name then .error .outside
      else do
        let d ← lowerEntry oc h n f
        let r ← lowerEntries oc h n rest
        .ok (d :: r)

end Sem
end Verif
