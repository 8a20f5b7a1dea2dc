import Verif.Scalar
/-! Helper lemmas about `Verif.Scalar`. -/
namespace Verif

@[simp] theorem leBytes_length (n x : Nat) : (leBytes n x).length = n := by
  induction n generalizing x with
  | zero => rfl
  | succ n ih => simp [leBytes, ih]

theorem leNat_lt (bs : List UInt8) : leNat bs < 256 ^ bs.length := by
  induction bs with
  | nil => simp [leNat]
  | cons b bs ih =>
    simp only [leNat, List.length_cons, Nat.pow_succ]
    have := b.toNat_lt
    omega

theorem leNat_leBytes (n x : Nat) : leNat (leBytes n x) = x % 256 ^ n := by
  induction n generalizing x with
  | zero => simp [leBytes, leNat, Nat.mod_one]
  | succ n ih =>
    simp only [leBytes, leNat, ih]
    have h : (UInt8.ofNat (x % 256)).toNat = x % 256 := by
      simp [UInt8.toNat_ofNat']
    rw [h, Nat.pow_succ, Nat.mul_comm (256 ^ n) 256, Nat.mod_mul]

theorem leBytes_leNat (bs : List UInt8) : leBytes bs.length (leNat bs) = bs := by
  induction bs with
  | nil => rfl
  | cons b bs ih =>
    simp only [List.length_cons, leBytes, leNat]
    have hb := b.toNat_lt
    have h1 : (b.toNat + 256 * leNat bs) % 256 = b.toNat := by omega
    have h2 : (b.toNat + 256 * leNat bs) / 256 = leNat bs := by omega
    rw [h1, h2, ih]
    simp

namespace Scalar

theorem size_pos (k : Scalar) : 0 < k.size := by cases k <;> decide

theorem pow_bits (k : Scalar) : 2 ^ k.bits = 256 ^ k.size := by
  unfold bits; rw [Nat.pow_mul]

theorem pow_bits_half (k : Scalar) : (2 : Int) ^ k.bits = 2 * 2 ^ (k.bits - 1) := by
  have : k.bits = (k.bits - 1) + 1 := by have := k.size_pos; unfold bits; omega
  rw [this, Int.pow_succ]; simp [Int.mul_comm]

theorem toPat_lt (k : Scalar) (v : Int) : k.toPat v < 2 ^ k.bits := by
  unfold toPat
  have h : (0 : Int) < 2 ^ k.bits := Int.pow_pos (by decide)
  have := Int.emod_lt_of_pos v h
  have h0 := Int.emod_nonneg v (by omega : (2 ^ k.bits : Int) ≠ 0)
  have h2 : ((2 ^ k.bits : Nat) : Int) = (2 : Int) ^ k.bits := by push_cast; rfl
  omega

theorem wrap_inRange (k : Scalar) (n : Int) : k.InRange (k.wrap n) := by
  unfold InRange wrap min max
  have hp : (0 : Int) < 2 ^ (k.bits - 1) := Int.pow_pos (by decide)
  have hh := k.pow_bits_half
  have hc : ((2 ^ k.bits : Nat) : Int) = (2 : Int) ^ k.bits := by push_cast; rfl
  cases hs : k.signed
  · simp only [Bool.false_eq_true, if_false]
    have := Int.emod_lt_of_pos n (by omega : (0 : Int) < 2 ^ k.bits)
    have := Int.emod_nonneg n (by omega : (2 ^ k.bits : Int) ≠ 0)
    omega
  · simp only [if_true]
    have h1 := @Int.le_bmod n (2 ^ k.bits) (by exact Nat.pow_pos (by decide))
    have h2 := @Int.bmod_lt n (2 ^ k.bits) (by exact Nat.pow_pos (by decide))
    omega

theorem wrap_eq_self (k : Scalar) (n : Int) (h : k.InRange n) : k.wrap n = n := by
  unfold InRange min max at h
  unfold wrap
  have hp : (0 : Int) < 2 ^ (k.bits - 1) := Int.pow_pos (by decide)
  have hh := k.pow_bits_half
  have hc : ((2 ^ k.bits : Nat) : Int) = (2 : Int) ^ k.bits := by push_cast; rfl
  cases hs : k.signed
  · simp only [hs, Bool.false_eq_true, if_false] at h ⊢
    exact Int.emod_eq_of_lt (by omega) (by omega)
  · simp only [hs, if_true] at h ⊢
    rw [Int.bmod_eq_of_le (by omega) (by omega)]

theorem wrap_emod (k : Scalar) (n : Int) : k.wrap (n % (2 ^ k.bits : Int)) = k.wrap n := by
  unfold wrap
  have hc : ((2 ^ k.bits : Nat) : Int) = (2 : Int) ^ k.bits := by push_cast; rfl
  split
  · rw [← hc, Int.emod_bmod]
  · rw [Int.emod_emod]

theorem wrap_mod (k : Scalar) (n : Int) : k.wrap n % (2 ^ k.bits : Int) = n % (2 ^ k.bits : Int) := by
  unfold wrap
  have hc : ((2 ^ k.bits : Nat) : Int) = (2 : Int) ^ k.bits := by push_cast; rfl
  split
  · rw [← hc, Int.bmod_emod]
  · rw [Int.emod_emod]

theorem ofPat_toPat (k : Scalar) (v : Int) (h : k.InRange v) : k.ofPat (k.toPat v) = v := by
  unfold ofPat toPat
  have h0 : (0 : Int) < 2 ^ k.bits := Int.pow_pos (by decide)
  rw [Int.toNat_of_nonneg (Int.emod_nonneg v (by omega)), wrap_emod, wrap_eq_self k v h]

theorem toPat_ofPat (k : Scalar) (n : Nat) (h : n < 2 ^ k.bits) : k.toPat (k.ofPat n) = n := by
  unfold ofPat toPat wrap
  have h0 : (0 : Int) < 2 ^ k.bits := Int.pow_pos (by decide)
  have hc : ((2 ^ k.bits : Nat) : Int) = (2 : Int) ^ k.bits := by push_cast; rfl
  split
  · rw [← hc, Int.bmod_emod, Int.emod_eq_of_lt (by omega) (by omega)]; omega
  · rw [Int.emod_emod, Int.emod_eq_of_lt (by omega) (by omega)]; omega

theorem ofPat_inRange (k : Scalar) (n : Nat) : k.InRange (k.ofPat n) := wrap_inRange k _

end Scalar

@[simp] theorem intBytes_length (t : EScalar) (v : Int) : (intBytes t v).length = t.scalar.size := by
  unfold intBytes; split <;> simp

theorem bytesInt_intBytes (t : EScalar) (v : Int) (h : t.scalar.InRange v) :
    bytesInt t (intBytes t v) = v := by
  have hp : t.scalar.toPat v % 256 ^ t.scalar.size = t.scalar.toPat v := by
    rw [← Scalar.pow_bits]; exact Nat.mod_eq_of_lt (Scalar.toPat_lt _ _)
  unfold bytesInt intBytes
  cases t.endian <;> simp [leNat_leBytes, hp, Scalar.ofPat_toPat _ _ h]

theorem intBytes_bytesInt (t : EScalar) (bs : List UInt8) (h : bs.length = t.scalar.size) :
    intBytes t (bytesInt t bs) = bs := by
  have hl := leNat_lt bs
  have hl' := leNat_lt bs.reverse
  rw [h, ← Scalar.pow_bits] at hl
  simp only [List.length_reverse] at hl'
  rw [h, ← Scalar.pow_bits] at hl'
  unfold bytesInt intBytes
  cases t.endian
  · simp only []
    rw [Scalar.toPat_ofPat _ _ hl']
    have := leBytes_leNat bs.reverse
    rw [List.length_reverse, h] at this
    rw [this, List.reverse_reverse]
  · simp only []
    rw [Scalar.toPat_ofPat _ _ hl, ← h, leBytes_leNat]

theorem bytesInt_inRange (t : EScalar) (bs : List UInt8) : t.scalar.InRange (bytesInt t bs) := by
  unfold bytesInt; split <;> exact Scalar.ofPat_inRange _ _

end Verif
