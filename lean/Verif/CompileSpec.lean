import Verif.Sem.PreludeEnv
import Verif.Parser
/-!
# `compile_spec`

Models `/repo/protospec-build/src/lib.rs` 77-114 and the resolver it hands to the converter. The text that is emitted for a program, rustfmt, the environment variable `OUT_DIR` and the file system
are parameters: what is modelled is which of them is asked for what, in which order.
-/
namespace Verif
open Sem

/-- An answer of the inner resolver is found only if the prelude has none (`prelude/resolver.rs` 16-45): `NullImportResolver` answers with an error (`import.rs` 26-40). -/
def orNull {α} : R (Option α) → R (Option α)
  | .ok none => .error (.asg .unknown)
  | r => r

/-- `PreludeImportResolver(NullImportResolver)` (`lib.rs` 91, `prelude/resolver.rs`, `import.rs` 18-45); an error of a resolver becomes `AsgError::Unknown` (`semantics/error.rs` 88-89). -/
def shippedEnv : Env :=
  { preludeEnv [] with
    load := fun _ => .error (.asg .unknown)
    ffiType := fun n => orNull ((preludeEnv []).ffiType n)
    ffiTransform := fun n => orNull ((preludeEnv []).ffiTransform n)
    ffiFunction := fun n => orNull ((preludeEnv []).ffiFunction n) }

/-- What `compile_spec` runs in. -/
structure World where
  /-- the environment variable `OUT_DIR` -/
  outDir : Option (List Char)
  /-- what `rustfmt` prints for a text; none: it cannot be started, or does not take its input -/
  rustfmt : List Char → Option (List Char)
  /-- whether the file can be written -/
  canWrite : List Char → Bool

/-- What `compile_spec` does: `Ok` after writing a file, `Err`, a panic, or no end. -/
inductive Ran
  | written (path content : List Char)
  | refused
  | panics
  | hangs
  deriving DecidableEq

/-- `PathBuf::push` on Unix, as its documentation says (used in `lib.rs` 110). -/
def pushPath (dir name : List Char) : List Char :=
  if name.head? = some '/' then name
  else if dir = [] ∨ dir.getLast? = some '/' then dir ++ name
  else dir ++ '/' :: name

/-- `lib.rs` 106-114: the target path and the file. -/
def writeOut (w : World) (name content : List Char) : Ran :=
  match w.outDir with
  | none => .panics
  | some dir =>
    if w.canWrite (pushPath dir (name ++ ".rs".toList)) then .written (pushPath dir (name ++ ".rs".toList)) content else .panics

/-- `lib.rs` 76-88 (`rustfmt`) and 103-105: its exit status is not looked at. -/
def formatted (w : World) (format : Bool) (text : List Char) : Option (List Char) := if format then w.rustfmt text else some text

/-- `lib.rs` 90-114 (`compile_spec`); `emit` is `compile_program` followed by `to_string` (101-102), none if it panics. No module can be imported, so no import is nested. -/
def compileSpec (w : World) (emit : Prog → Heap → Option (List Char)) (name : List Char) (spec : Text) (format : Bool) : Ran :=
  match parse spec with
  | .error .panic | .error (.token .panic) => .panics
  | .error .diverge | .error (.token .diverge) => .hangs
  | .error _ => .refused
  | .ok ast => match convert shippedEnv 1 ast with
    | .error (.asg _) => .refused
    | .error (.panic _) => .panics
    | .error _ => .hangs
    | .ok (p, h, _) => match emit p h with
      | none => .panics
      | some text => match formatted w format text with
        | none => .panics
        | some content => writeOut w name content

end Verif
