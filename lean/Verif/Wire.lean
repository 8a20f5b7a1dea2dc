import Verif.Schema
/-!
# Reading and writing single items

What one statement of the generated code does to the bytes in front of it: the snippets of
`compiler/decoder.rs` 251-372, 501-508 and `compiler/encoder.rs` 211-319, 422-429.
A reader is the list of bytes it still has to deliver; `usize` is 64 bits wide.
-/
namespace Verif

abbrev Bytes := List UInt8

/-- `read_exact`: all of them or an error. -/
def readExact (n : Nat) (bs : Bytes) : Res (Bytes × Bytes) :=
  if bs.length < n then .error (.err "unexpected end of file") else .ok (bs.take n, bs.drop n)

/-- `T::from_le_bytes` / `from_be_bytes` (`compiler/decoder.rs` 289-302); floats are big endian and
kept as their bit pattern. -/
def primOfBytes : Prim → Bytes → Val
  | .bool, bs => .bool (decide (leNat bs ≠ 0))
  | .f32, bs => .flt false (leNat bs.reverse)
  | .f64, bs => .flt true (leNat bs.reverse)
  | .scalar s, bs => .int ⟨s.scalar, bytesInt s bs⟩

/-- `compiler/decoder.rs` 273-304 (`DecodePrimitive`). -/
def decPrim (p : Prim) (bs : Bytes) : Res (Val × Bytes) := do
  let (raw, rest) ← readExact p.size bs
  .ok (primOfBytes p raw, rest)

/-- `from_repr` on the decoded number. -/
def ofRepr (t : ReprTy) (x : Int) : Res Val :=
  match t with
  | .enum n d =>
    match d.fromRepr x with
    | some v => .ok (.enm n v ⟨d.rep.scalar, x⟩)
    | none => .error (.err "invalid enum value")
  | .bitfield n d =>
    match d.fromRepr x with
    | some v => .ok (.bits n ⟨d.rep.scalar, v⟩)
    | none => .error (.err "invalid bitfield value")

/-- `compiler/decoder.rs` 251-272 (`DecodeRepr`). -/
def decRepr (t : ReprTy) (bs : Bytes) : Res (Val × Bytes) := do
  let (raw, rest) ← readExact t.rep.scalar.size bs
  let v ← ofRepr t (bytesInt t.rep raw)
  .ok (v, rest)

/-- `n` consecutive chunks. -/
def chunksN (size : Nat) : Nat → Bytes → List Bytes
  | 0, _ => []
  | n + 1, bs => bs.take size :: chunksN size n (bs.drop size)

/-- `chunks_exact(size)`: whole chunks only, an incomplete last one is dropped. -/
def chunksExact (size : Nat) (bs : Bytes) : List Bytes := chunksN size (bs.length / size) bs

/-- `x as usize`. -/
def asUsize (v : Val) : Res Nat := do
  let i ← v.toInt
  .ok (Scalar.u64.wrap i.val).toNat

/-- `t_count * size` on `usize` (`compiler/decoder.rs` 318-321): an overflow panics, or wraps in builds
without overflow checks. -/
def usizeMul (oc : Bool) (n size : Nat) : Res Nat :=
  if n * size < 2 ^ 64 then .ok (n * size) else if oc then .error .panic else .ok (n * size % 2 ^ 64)

/-- `Vec::with_capacity(n)` of bytes, `vec![0u8; n]`: more than `isize::MAX` bytes panic. Running out of memory is
not modelled. -/
def allocBytes (n : Nat) : Res Unit := if 2 ^ 63 ≤ n then .error .panic else .ok ()

/-- The bytes of `count` items of `size` bytes, or of the whole rest: the first half of
`compiler/decoder.rs` 315-336. -/
def readItems (oc : Bool) (size : Nat) (count : Option Nat) (bs : Bytes) : Res (Bytes × Bytes) :=
  match count with
  | some n => do
    let total ← usizeMul oc n size
    allocBytes total
    readExact total bs
  | none => .ok (bs, [])

theorem readItems_small (oc : Bool) {size n : Nat} (h : n * size < 2 ^ 63) (bs : Bytes) :
    readItems oc size (some n) bs = readExact (n * size) bs := by
  unfold readItems usizeMul allocBytes
  simp only
  rw [if_pos (by omega)]
  simp only [ok_bind]
  rw [if_neg (by omega)]
  rfl

theorem readItems_big {oc : Bool} {size n : Nat} (ho : oc = true ∨ n * size < 2 ^ 64) (h : 2 ^ 63 ≤ n * size)
    (bs : Bytes) : readItems oc size (some n) bs = .error .panic := by
  unfold readItems usizeMul allocBytes
  simp only
  split
  · simp only [ok_bind]
    rw [if_pos h]
    rfl
  · rcases ho with rfl | ho
    · rfl
    · omega

/-- `compiler/decoder.rs` 305-337 (`DecodePrimitiveArray`). `bool` has no `from_be_bytes`, so rustc
rejects arrays of `bool`. -/
def decPrimArray (oc : Bool) (p : Prim) (count : Option Nat) (bs : Bytes) : Res (Val × Bytes) :=
  if p = .bool then .error .ill
  else do
    let (raw, rest) ← readItems oc p.size count bs
    .ok (.arr ((chunksExact p.size raw).map (primOfBytes p)), rest)

/-- `compiler/decoder.rs` 338-372 (`DecodeReprArray`). -/
def decReprArray (oc : Bool) (t : ReprTy) (count : Option Nat) (bs : Bytes) : Res (Val × Bytes) := do
  let (raw, rest) ← readItems oc t.rep.scalar.size count bs
  let vs ← (chunksExact t.rep.scalar.size raw).mapM fun c => ofRepr t (bytesInt t.rep c)
  .ok (.arr vs, rest)

/-- `compiler/decoder.rs` 501-508 (`Skip`). -/
def skipBytes (n : Nat) (bs : Bytes) : Res (Unit × Bytes) := do
  allocBytes n
  let (_, rest) ← readExact n bs
  .ok ((), rest)

/-- `for _ in 0..n` after `Vec::with_capacity(n as usize)` (`compiler/decoder.rs` 379-385): a negative
`n` and one from `2 ^ 63` on ask for more than `isize::MAX` elements. Simplification: elements of a type without
fields take no memory and are not subject to this limit; larger elements reach the limit earlier. -/
def loopCount (v : Val) : Res Nat := do
  let i ← v.toInt
  if i.val < 0 ∨ 2 ^ 63 ≤ i.val then .error .panic else .ok i.val.toNat

end Verif
