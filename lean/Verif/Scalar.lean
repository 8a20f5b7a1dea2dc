/-!
# Scalars: widths, ranges, two's complement, byte order

Models `/repo/protospec-build/src/ast/types/scalar.rs` and the integer/byte conversions
(`to_be_bytes`, `to_le_bytes`, `from_be_bytes`, `from_le_bytes`, `as`) that
`compiler/encoder.rs` and `compiler/decoder.rs` emit calls to.
-/

deriving instance DecidableEq for Except

namespace Verif

/-- `ast/types/scalar.rs` 3-7. -/
inductive Endian
  | big
  | little
  deriving DecidableEq, Repr

/-- `ast/types/scalar.rs` 9-21. -/
inductive Scalar
  | u8 | u16 | u32 | u64 | u128
  | i8 | i16 | i32 | i64 | i128
  deriving DecidableEq, Repr

/-- `ast/types/scalar.rs` 23-27. -/
structure EScalar where
  scalar : Scalar
  endian : Endian
  deriving DecidableEq, Repr

namespace Scalar

/-- The finite table of all scalar types (used to decide closed statements about all of them). -/
def all : List Scalar := [.u8, .u16, .u32, .u64, .u128, .i8, .i16, .i32, .i64, .i128]

theorem mem_all (k : Scalar) : k ∈ all := by cases k <;> simp [all]

/-- `ast/types/scalar.rs` 46-55 (`is_signed`). -/
def signed : Scalar → Bool
  | .i8 | .i16 | .i32 | .i64 | .i128 => true
  | _ => false

/-- `ast/types/scalar.rs` 57-65 (`size`), in bytes. -/
def size : Scalar → Nat
  | .u8 | .i8 => 1
  | .u16 | .i16 => 2
  | .u32 | .i32 => 4
  | .u64 | .i64 => 8
  | .u128 | .i128 => 16

/-- `ast/types/scalar.rs` 36-44 (`can_implicit_cast_to`). -/
def canImplicitCastTo (self to : Scalar) : Bool :=
  if self.signed != to.signed then false
  else if self.size > to.size then false
  else true

/-- `ast/types/scalar.rs` 110-117 (`Into<EndianScalarType>`): big endian is the default. -/
def toE (k : Scalar) : EScalar := ⟨k, .big⟩

/-- Width in bits of the Rust integer type. -/
def bits (k : Scalar) : Nat := 8 * k.size

/-- `T::MIN` of the Rust integer type. -/
def min (k : Scalar) : Int := if k.signed then -(2 ^ (k.bits - 1) : Int) else 0

/-- `T::MAX` of the Rust integer type. -/
def max (k : Scalar) : Int := if k.signed then (2 ^ (k.bits - 1) : Int) - 1 else (2 ^ k.bits : Int) - 1

/-- `n` is a value of the Rust integer type `k`. -/
def InRange (k : Scalar) (n : Int) : Prop := k.min ≤ n ∧ n ≤ k.max

instance (k : Scalar) (n : Int) : Decidable (k.InRange n) := by unfold InRange; infer_instance

/-- Rust `n as k` for integers: keep the low `bits` bits, reinterpret in two's complement. -/
def wrap (k : Scalar) (n : Int) : Int :=
  if k.signed then Int.bmod n (2 ^ k.bits) else n % (2 ^ k.bits : Int)

/-- The bit pattern of `v` as a natural number (what `to_*_bytes` serialises). -/
def toPat (k : Scalar) (v : Int) : Nat := (v % (2 ^ k.bits : Int)).toNat

/-- Reads a bit pattern back as a value of type `k` (what `from_*_bytes` does). -/
def ofPat (k : Scalar) (n : Nat) : Int := k.wrap n

end Scalar

/-- Little-endian digits: `to_le_bytes` on an `n`-byte pattern. -/
def leBytes : Nat → Nat → List UInt8
  | 0, _ => []
  | n + 1, x => UInt8.ofNat (x % 256) :: leBytes n (x / 256)

/-- `from_le_bytes`. -/
def leNat : List UInt8 → Nat
  | [] => 0
  | b :: bs => b.toNat + 256 * leNat bs

/-- `to_le_bytes` / `to_be_bytes`, selected by endianness
(`compiler/encoder.rs` 235-262: little only for `Endian::Little`, big otherwise). -/
def intBytes (t : EScalar) (v : Int) : List UInt8 :=
  match t.endian with
  | .little => leBytes t.scalar.size (t.scalar.toPat v)
  | .big => (leBytes t.scalar.size (t.scalar.toPat v)).reverse

/-- `from_le_bytes` / `from_be_bytes` (`compiler/decoder.rs` 285-304). -/
def bytesInt (t : EScalar) (bs : List UInt8) : Int :=
  match t.endian with
  | .little => t.scalar.ofPat (leNat bs)
  | .big => t.scalar.ofPat (leNat bs.reverse)

end Verif
