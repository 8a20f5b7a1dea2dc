import Verif.Props.Writer
import Verif.Uses
/-!
# C63: the async functions do what the sync functions do

`encode_sync` and `encode_async` of a type are emitted from the same instruction list, `decode_sync` and `decode_async` as well
(`compiler/mod.rs` 190-262: `new_context`, `decode_context`); every statement is the same but for `.await` (`prelude/mod.rs` 44-50, `map_async`), foreign types
included (`prelude/var.rs`, `utf8.rs`, `utf16.rs`). Only the writers and readers of transforms are others (`prelude/gzip.rs` 12-20, 29-37). So
the model of the async functions is the one of the sync functions with another library. How `await` cuts the input is C60.
-/
namespace Verif.Props
open Verif

/-- **C63, decoding (partial).** If the async readers of the transforms that a specification names do what the sync ones do, the async
decoders do what the sync decoders do: same values, same errors, same bytes left.

Missing: transforms that differ; those protospec comes with do, `overread_finding`. -/
theorem async_decodes_the_same_partial (sch : Schema) (hnd : ∀ d ∈ sch, d.FieldsNodup) (S A : Dec.Lib) (ho : S.oc = A.oc) (hf : S.foreign = A.foreign)
    (hx : ∀ n ∈ sch.xforms, S.xform n = A.xform n) (fuel : Nat) (name : String) (args : List Val) (input : Bytes) :
    Dec.runDecode sch A fuel name args input = Dec.runDecode sch S fuel name args input := by
  rw [decode_refines sch S hnd, decode_refines sch A hnd, Dec.specDecode_uses ho hf hx]

/-- **C63, encoding (partial).** Likewise for encoders.

Missing: transforms that differ; those protospec comes with do, `async_trailer_finding`. -/
theorem async_encodes_the_same_partial (sch : Schema) (S A : Enc.Lib) (ho : S.oc = A.oc) (hf : S.foreign = A.foreign)
    (hx : ∀ n ∈ sch.xforms, S.xform n = A.xform n) (fuel : Nat) (name : String) (args : List Val) (v : Val) :
    Enc.runEncode sch A fuel name args v = Enc.runEncode sch S fuel name args v := by
  rw [encode_refines, encode_refines, Enc.specEncode_uses ho hf hx]

/-- **C63, without transforms.** A specification that names no transform: whatever the transforms are. -/
theorem async_same_without_transforms (sch : Schema) (hnd : ∀ d ∈ sch, d.FieldsNodup) (hx : sch.xforms = [])
    (S A : Dec.Lib) (T B : Enc.Lib) (h1 : S.oc = A.oc) (h2 : S.foreign = A.foreign) (h3 : T.oc = B.oc) (h4 : T.foreign = B.foreign)
    (fuel : Nat) (name : String) (args : List Val) :
    (∀ input, Dec.runDecode sch A fuel name args input = Dec.runDecode sch S fuel name args input) ∧
    (∀ v, Enc.runEncode sch B fuel name args v = Enc.runEncode sch T fuel name args v) :=
  ⟨fun input => async_decodes_the_same_partial sch hnd S A h1 h2 (by simp [hx]) fuel name args input,
   fun v => async_encodes_the_same_partial sch T B h3 h4 (by simp [hx]) fuel name args v⟩

/-! ### Cases -/

example : ((specOf packetModules packetText).map Schema.xforms) = some [] := by decide +kernel
example : zipSchema.xforms = ["gzip"] := by decide +kernel

/-- A reader for what `zipLib` writes: exactly that, and not more. -/
def unzip : Bytes → Res (Bytes × Bytes)
  | 31 :: n :: rest =>
    match rest.drop n.toNat with
    | 99 :: tail => .ok (rest.take n.toNat, tail)
    | _ => .error (.err "unexpected end of file")
  | _ => .error (.err "invalid gzip header")

def unzipLib : Dec.Lib := ⟨true, fun _ _ _ => .error .ill, fun _ _ bs => unzip bs⟩

/-- What the async writer does: `flush` as the sync one, but nothing when it is dropped (`async_compression` writes the trailer on `shutdown`, which the
generated code does not call: `compiler/encoder.rs` 178-184). -/
def asyncZip : Enc.Lib := ⟨true, fun _ _ _ => .error .ill, fun n vs d => (zipW.xform n vs d).map (·.1)⟩

/-- Finding: `encode_async` leaves out the trailer of gzip. What it writes is not what `encode_sync` writes, and no decoder accepts it. -/
theorem async_trailer_finding :
    Enc.runEncode zipSchema zipLib 1 "a" [] (.struct "a" [("d", .arr [vu8 7])]) = .ok [31, 1, 7, 99] ∧
    Enc.runEncode zipSchema asyncZip 1 "a" [] (.struct "a" [("d", .arr [vu8 7])]) = .ok [31, 1, 7] ∧
    Dec.runDecode zipSchema unzipLib 1 "a" [] [31, 1, 7, 99] = .ok (.struct "a" [("d", .arr [vu8 7])], []) ∧
    Dec.runDecode zipSchema unzipLib 1 "a" [] [31, 1, 7] = .error (.err "unexpected end of file") :=
  ⟨by rfl, by rfl, by rfl, by rfl⟩

/-- What the sync reader does: `flate2::read::GzDecoder` puts a buffer of its own around the reader and fills it, so that the bytes behind the compressed data
are gone with it. -/
def greedyUnzip : Dec.Lib := ⟨true, fun _ _ _ => .error .ill, fun _ _ bs => (unzip bs).map fun r => (r.1, r.2.drop 32768)⟩

def zipBehindSource : String := "import_ffi gzip as transform; type a = container { d: u8[..] -> gzip, e: u8 };"
def zipBehindSchema : Schema := [⟨"a", [], [], .struct none
  (.leaf ⟨"d", none, [⟨"gzip", none, []⟩], none⟩ (.array u8T .unbounded) (.leaf (plain "e") u8T .nil))⟩]
theorem zip_behind_spec : specOf [] zipBehindSource = some zipBehindSchema := by decide +kernel

/-- Finding: `decode_sync` does not read back what `encode_sync` writes if a field follows one with gzip; `decode_async`, whose reader takes only what
belongs to it, does. -/
theorem overread_finding :
    Enc.runEncode zipBehindSchema zipLib 1 "a" [] (.struct "a" [("d", .arr [vu8 7]), ("e", vu8 5)]) = .ok [31, 1, 7, 99, 5] ∧
    Dec.runDecode zipBehindSchema unzipLib 1 "a" [] [31, 1, 7, 99, 5] = .ok (.struct "a" [("d", .arr [vu8 7]), ("e", vu8 5)], []) ∧
    Dec.runDecode zipBehindSchema greedyUnzip 1 "a" [] [31, 1, 7, 99, 5] = .error (.err "unexpected end of file") :=
  ⟨by rfl, by rfl, by rfl⟩

end Verif.Props
