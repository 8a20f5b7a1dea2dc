import Verif.Props.Scalars
import Verif.Props.EndToEnd
/-!
# C01: the number types of the language, from their names to their bytes
-/
namespace Verif.Props
open Verif

/-- Spec: a number type as it is written: its size in bytes, its least and its greatest value, the order of its bytes. -/
structure NumberRow where
  word : String
  bytes : Nat
  least : Int
  greatest : Int
  little : Bool

/-- Spec: the number types of the language. -/
def numberTable : List NumberRow :=
  [⟨"u8", 1, 0, 255, false⟩, ⟨"i8", 1, -128, 127, false⟩,
   ⟨"u16", 2, 0, 65535, false⟩, ⟨"i16", 2, -32768, 32767, false⟩,
   ⟨"u32", 4, 0, 4294967295, false⟩, ⟨"i32", 4, -2147483648, 2147483647, false⟩,
   ⟨"u64", 8, 0, 18446744073709551615, false⟩, ⟨"i64", 8, -9223372036854775808, 9223372036854775807, false⟩,
   ⟨"u128", 16, 0, 340282366920938463463374607431768211455, false⟩,
   ⟨"i128", 16, -170141183460469231731687303715884105728, 170141183460469231731687303715884105727, false⟩,
   ⟨"u16le", 2, 0, 65535, true⟩, ⟨"i16le", 2, -32768, 32767, true⟩,
   ⟨"u32le", 4, 0, 4294967295, true⟩, ⟨"i32le", 4, -2147483648, 2147483647, true⟩,
   ⟨"u64le", 8, 0, 18446744073709551615, true⟩, ⟨"i64le", 8, -9223372036854775808, 9223372036854775807, true⟩,
   ⟨"u128le", 16, 0, 340282366920938463463374607431768211455, true⟩,
   ⟨"i128le", 16, -170141183460469231731687303715884105728, 170141183460469231731687303715884105727, true⟩]

/-- Spec: the bytes of a number: the digits of its two's complement representation to the base 256, in the order of the type. -/
def numberBytes (row : NumberRow) (v : Int) : List UInt8 :=
  let digits := (List.range row.bytes).map fun i => UInt8.ofNat (specByte v i)
  if row.little then digits else digits.reverse

/-- The type that the word means. -/
def numberOf (row : NumberRow) : Option EScalar :=
  match specOf [] ("type t = " ++ row.word ++ ";") with
  | some [⟨"t", [], [], .leaf none (.prim (.scalar s))⟩] => some s
  | _ => none

theorem numberOf_spec {row : NumberRow} {s : EScalar} (h : numberOf row = some s) :
    specOf [] ("type t = " ++ row.word ++ ";") = some [⟨"t", [], [], .leaf none (.prim (.scalar s))⟩] := by
  unfold numberOf at h
  split at h
  · rename_i e
    cases h
    exact e
  · cases h

theorem numberTable_ok : ∀ row ∈ numberTable, (match numberOf row with
    | some s => decide (s.scalar.size = row.bytes ∧ s.scalar.min = row.least ∧ s.scalar.max = row.greatest ∧ s.endian = if row.little then .little else .big)
    | none => false) = true := by decide +kernel

/-- **C01.** Every number type of the language, from its name in a specification: it becomes an integer of the stated size and range, and a value is encoded into the digits of its two's
complement representation, most significant first, or last if the name ends in `le`; and is decoded from them, whatever follows. -/
theorem number_types (row : NumberRow) (hr : row ∈ numberTable) :
    ∃ s : EScalar, specOf [] ("type t = " ++ row.word ++ ";") = some [⟨"t", [], [], .leaf none (.prim (.scalar s))⟩] ∧
      (∀ v, s.scalar.InRange v ↔ row.least ≤ v ∧ v ≤ row.greatest) ∧
      ∀ v, intBytes s v = numberBytes row v ∧
        (row.least ≤ v → v ≤ row.greatest → ∀ rest, decPrim (.scalar s) (numberBytes row v ++ rest) = .ok (.int ⟨s.scalar, v⟩, rest)) := by
  have h := numberTable_ok row hr
  split at h
  · rename_i s hs
    obtain ⟨h1, h2, h3, h4⟩ := of_decide_eq_true h
    have hrange : ∀ v, s.scalar.InRange v ↔ row.least ≤ v ∧ v ≤ row.greatest := fun v => by rw [Scalar.InRange, h2, h3]
    have hbytes : ∀ v, intBytes s v = numberBytes row v := by
      intro v
      obtain ⟨hl, hb⟩ := scalar_wire_format s v
      have hb : ∀ i, i < s.scalar.size → (if row.little then intBytes s v else (intBytes s v).reverse)[i]? = some (UInt8.ofNat (specByte v i)) := by
        intro i hi
        have := hb i hi
        rw [h4] at this
        cases hw : row.little <;> simpa [hw] using this
      have key : (if row.little then intBytes s v else (intBytes s v).reverse) =
          (List.range row.bytes).map fun i => UInt8.ofNat (specByte v i) := by
        apply List.ext_getElem?
        intro i
        by_cases hi : i < s.scalar.size
        · rw [hb i hi, List.getElem?_map, List.getElem?_range (by omega)]
          rfl
        · rw [List.getElem?_eq_none, List.getElem?_eq_none]
          · simp only [List.length_map, List.length_range]
            omega
          · split <;> first | omega | (rw [List.length_reverse]; omega)
      unfold numberBytes
      rw [← key]
      cases row.little <;> simp
    refine ⟨s, numberOf_spec hs, hrange, fun v => ⟨hbytes v, fun hv1 hv2 rest => ?_⟩⟩
    obtain ⟨r1, r2⟩ := scalar_round_trip s v rest ((hrange v).2 ⟨hv1, hv2⟩)
    have hlen : ¬ (intBytes s v ++ rest).length < s.scalar.size := by
      rw [List.length_append, (scalar_wire_format s v).1]
      omega
    rw [← hbytes v]
    unfold decPrim readExact
    simp only [Prim.size, hlen, if_false, bind, Except.bind, primOfBytes, r1, r2]
  · cases h

/-- Spec: the other primitive types: their size, all of whose bit patterns are values. -/
theorem float_and_bool_types :
    specOf [] "type t = f32;" = some [⟨"t", [], [], .leaf none (.prim .f32)⟩] ∧ Prim.size .f32 = 4 ∧
    specOf [] "type t = f64;" = some [⟨"t", [], [], .leaf none (.prim .f64)⟩] ∧ Prim.size .f64 = 8 ∧
    specOf [] "type t = bool;" = some [⟨"t", [], [], .leaf none (.prim .bool)⟩] ∧ Prim.size .bool = 1 := by decide +kernel

example : numberBytes ⟨"i16le", 2, -32768, 32767, true⟩ (-2) = [254, 255] ∧ numberBytes ⟨"u32", 4, 0, 4294967295, false⟩ 258 = [0, 0, 1, 2] := by decide +kernel

end Verif.Props
