import Verif.ConstInt
/-!
# Prelude types and functions

Models `/repo/protospec-build/src/prelude/*.rs`: the code those files make the generated codec run.
A Rust `String` is a Lean `String` (both are valid UTF-8 by construction). `none` results of the
decoders are `Err` values of the generated code (unexpected end of input, invalid UTF-8/UTF-16).
gzip and base64 are external crates and stay parameters of the codec model (`Verif.Codec`).
-/
namespace Verif

/-! ## Variable-length integers -/

/-- `(self.scalar_type.size() as f64 / 7.0).ceil()` (`prelude/var.rs` 73); `size` is in bytes. -/
def varEnd (k : Scalar) : Nat := (k.size + 6) / 7

/-- The loop of `encoding_gen` (`prelude/var.rs` 103-113) on the unsigned value. -/
def varEncNat (n : Nat) : List UInt8 :=
  if n < 128 then [UInt8.ofNat n]
  else UInt8.ofNat (n % 128 + 128) :: varEncNat (n / 128)
termination_by n

/-- `prelude/var.rs` 93-115: the value is first cast to the unsigned type of the same width. -/
def varEncode (k : Scalar) (v : Int) : List UInt8 := varEncNat (k.toPat v)

/-- The loop of `decoding_gen` (`prelude/var.rs` 76-91): `i` bytes read so far, `out` is the bit
pattern of `output`. -/
def varDecLoop (k : Scalar) : Nat → Nat → List UInt8 → Option (Nat × List UInt8)
  | _, _, [] => none
  | i, out, b :: bs =>
    let out := out ||| ((b.toNat % 128) <<< (i * 7)) % 2 ^ k.bits
    if i + 1 > varEnd k then some (out, bs)
    else if b.toNat / 128 = 1 then varDecLoop k (i + 1) out bs
    else some (out, bs)

/-- `prelude/var.rs` 66-92. -/
def varDecode (k : Scalar) (bs : List UInt8) : Option (Int × List UInt8) :=
  (varDecLoop k 0 0 bs).map fun p => (k.ofPat p.1, p.2)

/-! ## Strings -/

/-- The UTF-8 bytes of a string (`as_bytes`). -/
def strBytes (s : String) : List UInt8 := s.toByteArray.data.toList

/-- `String::from_utf8`. -/
def strOfBytes (bs : List UInt8) : Option String := String.fromUTF8? ⟨bs.toArray⟩

/-- `utf8(len)` encoding (`prelude/utf8.rs` 68-73): the length argument is ignored. -/
def utf8EncodeLen (s : String) : List UInt8 := strBytes s

/-- `utf8(len)` decoding (`prelude/utf8.rs` 31-46). -/
def utf8DecodeLen (len : Nat) (bs : List UInt8) : Option (String × List UInt8) :=
  if bs.length < len then none
  else (strOfBytes (bs.take len)).map fun s => (s, bs.drop len)

/-- `utf8` without argument, encoding (`prelude/utf8.rs` 74-81). -/
def utf8EncodeNul (s : String) : List UInt8 := strBytes s ++ [0]

/-- `read_until(0)` followed by dropping the terminator (`prelude/utf8.rs` 50-54): at the end of
input it stops without an error. -/
def readUntilNul : List UInt8 → List UInt8 × List UInt8
  | [] => ([], [])
  | b :: bs => if b = 0 then ([], bs) else let p := readUntilNul bs; (b :: p.1, p.2)

/-- `utf8` without argument, decoding (`prelude/utf8.rs` 47-58). -/
def utf8DecodeNul (bs : List UInt8) : Option (String × List UInt8) :=
  (strOfBytes (readUntilNul bs).1).map fun s => (s, (readUntilNul bs).2)

/-- `str::encode_utf16` on one character. -/
def charUnits (c : Char) : List Nat :=
  if c.toNat < 0x10000 then [c.toNat]
  else [0xD800 + (c.toNat - 0x10000) / 0x400, 0xDC00 + (c.toNat - 0x10000) % 0x400]

/-- `String::from_utf16`: fails on unpaired surrogates. -/
def charsOfUnits : List Nat → Option (List Char)
  | [] => some []
  | u :: us =>
    if 0xD800 ≤ u ∧ u < 0xDC00 then
      match us with
      | [] => none
      | w :: us' =>
        if 0xDC00 ≤ w ∧ w < 0xE000 then
          (charsOfUnits us').map (Char.ofNat (0x10000 + (u - 0xD800) * 0x400 + (w - 0xDC00)) :: ·)
        else none
    else if 0xDC00 ≤ u ∧ u < 0xE000 then none
    else (charsOfUnits us).map (Char.ofNat u :: ·)

/-- `prelude/utf16.rs` 53-59: each unit is written big endian. -/
def utf16Encode (s : String) : List UInt8 :=
  (s.toList.flatMap charUnits).flatMap fun (u : Nat) => intBytes ⟨.u16, .big⟩ (u : Int)

/-- Splits bytes into 16-bit units in the byte order of the host. -/
def unitsOf (native : Endian) : List UInt8 → List Nat
  | a :: b :: rest => (bytesInt ⟨.u16, native⟩ [a, b]).toNat :: unitsOf native rest
  | _ => []

/-- `prelude/utf16.rs` 27-46: the bytes are read straight into a `Vec<u16>`, that is in the byte
order of the machine that runs the decoder (`native`). -/
def utf16Decode (native : Endian) (len : Nat) (bs : List UInt8) : Option (String × List UInt8) :=
  if bs.length < 2 * len then none
  else (charsOfUnits (unitsOf native (bs.take (2 * len)))).map fun cs =>
    (String.ofList cs, bs.drop (2 * len))

/-! ## Functions -/

/-- `prelude/pad.rs` 25-35 on `u64` values; `x % 0` panics. -/
def padFn (pad base : Nat) : CRes Nat :=
  if pad = 0 then .error .panic
  else if base % pad = 0 then .ok 0 else .ok (pad - base % pad)

/-- `u64::count_ones`. -/
def popcount : Nat → Nat → Nat
  | 0, _ => 0
  | w + 1, n => n % 2 + popcount w (n / 2)

/-- `prelude/bits.rs` 18-23: the argument has been converted to `u64`, the result is a `u8`. -/
def bitsFn (v : Int) : Int := Scalar.u8.wrap (popcount 64 (Scalar.u64.toPat v))

/-- `prelude/sum.rs` 19-31: each element `as u64`, then `Iterator::sum`, which overflows like `+`. -/
def sumFn (oc : Bool) (xs : List Int) : CRes Int :=
  (xs.foldlM (fun acc x => CInt.arith oc .u64 (acc + Scalar.u64.wrap x) |>.map CInt.val) (0 : Int))

end Verif
