import Verif.Tokenizer
/-!
# Derive lists

Models `/repo/protospec-build/src/compiler/mod.rs` 50-88: the names in the `#[derive(..)]` of a
generated item. Names are byte strings, ordered as `str` is. Turning a name into an identifier
(which panics for names that are none) is not modelled.
-/
namespace Verif

/-- `Ord for str`: lexicographic order of bytes. -/
def leText : Text → Text → Bool
  | [], _ => true
  | _ :: _, [] => false
  | a :: as, b :: bs => a < b || (a == b && leText as bs)

/-- `Vec::dedup`: drop each element equal to the one kept before it. -/
def dedup : List Text → List Text
  | [] => []
  | [a] => [a]
  | a :: b :: l => if a = b then dedup (b :: l) else a :: dedup (b :: l)

/-- `Vec::sort` (stable) and `dedup`. -/
def sortDedup (l : List Text) : List Text := dedup (l.mergeSort leText)

/-- `compiler/mod.rs` 51-58 (`emit_struct_derives`). -/
def structDerives (options extra : List Text) : List Text := sortDedup (options ++ extra)

/-- `compiler/mod.rs` 60-68 (`emit_enum_derives`). -/
def enumDerives (options extra : List Text) : List Text :=
  sortDedup ((options ++ extra).filter fun x => x ≠ ascii "Default")

end Verif
