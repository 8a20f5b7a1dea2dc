import Verif.ScalarLemmas
/-!
# Properties C01 and C36: scalars on the wire, implicit widening

Specification used here (independent of the model): `digits256 n x` are the base-256 digits of the
mathematical residue of the value, least significant first.
-/
namespace Verif.Props

/-- Spec: the `i`-th least significant byte of the two's complement representation of `v`. -/
def specByte (v : Int) (i : Nat) : Nat := ((v / 256 ^ i) % 256).toNat

private theorem leBytes_get (n x i : Nat) (h : i < n) :
    (leBytes n x)[i]? = some (UInt8.ofNat (x / 256 ^ i % 256)) := by
  induction n generalizing x i with
  | zero => omega
  | succ n ih =>
    cases i with
    | zero => simp [leBytes]
    | succ i =>
      simp only [leBytes, List.getElem?_cons_succ]
      rw [ih _ _ (by omega), Nat.div_div_eq_div_mul, Nat.pow_succ, Nat.mul_comm 256]

private theorem emod_digit (v P Q : Int) (hP : 0 < P) :
    (v % (P * 256 * Q)) / P % 256 = v / P % 256 := by
  have e : v % (P * 256 * Q) = v + P * (256 * -(Q * (v / (P * 256 * Q)))) := by
    rw [Int.emod_def, Int.mul_neg, Int.mul_neg, ← Int.sub_eq_add_neg,
      Int.mul_assoc, Int.mul_assoc, Int.mul_assoc]
  rw [e, Int.add_mul_ediv_left _ _ (by omega), Int.add_mul_emod_self_left]

private theorem pat_byte (k : Scalar) (v : Int) (i : Nat) (h : i < k.size) :
    k.toPat v / 256 ^ i % 256 = specByte v i := by
  have hb : (2 : Int) ^ k.bits = 256 ^ i * 256 * 256 ^ (k.size - i - 1) := by
    have : (2 : Int) ^ k.bits = (256 : Int) ^ k.size := by
      unfold Scalar.bits
      rw [Int.pow_mul]; rfl
    rw [this]
    have e : k.size = i + 1 + (k.size - i - 1) := by omega
    conv => lhs; rw [e]
    rw [Int.pow_add, Int.pow_succ]
  have hp : (0 : Int) < 256 ^ i := Int.pow_pos (by decide)
  have h2 : (0 : Int) < 2 ^ k.bits := Int.pow_pos (by decide)
  have hn : 0 ≤ v % (2 ^ k.bits) := Int.emod_nonneg _ (by omega)
  unfold Scalar.toPat specByte
  rw [← emod_digit v (256 ^ i) (256 ^ (k.size - i - 1)) hp, ← hb]
  generalize v % (2 ^ k.bits) = x at hn
  obtain ⟨n, rfl⟩ := Int.eq_ofNat_of_zero_le hn
  have hc : (256 : Int) ^ i = ((256 ^ i : Nat) : Int) := by rw [Int.natCast_pow]; rfl
  rw [hc]
  generalize 256 ^ i = m
  rw [Int.toNat_natCast, ← Int.natCast_ediv]
  omega

/-- C01, wire format: the encoding of a scalar has exactly `size` bytes and byte `i` counted from
the least significant end is the `i`-th base-256 digit of the two's complement value; big endian
is the reverse of little endian. -/
theorem scalar_wire_format (t : EScalar) (v : Int) :
    (intBytes t v).length = t.scalar.size ∧
    ∀ i, i < t.scalar.size →
      (match t.endian with
        | .little => intBytes t v
        | .big => (intBytes t v).reverse)[i]? = some (UInt8.ofNat (specByte v i)) := by
  refine ⟨intBytes_length t v, ?_⟩
  intro i hi
  unfold intBytes
  cases t.endian <;> simp [leBytes_get _ _ _ hi, pat_byte _ _ _ hi]

example : intBytes ⟨.i32, .little⟩ (-2) = [0xfe, 0xff, 0xff, 0xff] ∧
    intBytes ⟨.u16, .big⟩ 0x1234 = [0x12, 0x34] := by decide

/-- C01, round trip in the presence of trailing bytes: the first `size` bytes decode to the value
and what is left is exactly the trailing bytes. -/
theorem scalar_round_trip (t : EScalar) (v : Int) (rest : List UInt8) (h : t.scalar.InRange v) :
    bytesInt t ((intBytes t v ++ rest).take t.scalar.size) = v ∧
    (intBytes t v ++ rest).drop t.scalar.size = rest := by
  have hl := intBytes_length t v
  constructor
  · rw [List.take_left' hl, bytesInt_intBytes t v h]
  · rw [List.drop_left' hl]

example : Scalar.InRange .i64 (-5000000000) ∧ Scalar.InRange .u128 (2 ^ 128 - 1) := by decide

/-- C01, the other direction: every `size`-byte string is the encoding of exactly one value, which
is in range. So no wire value is lost or ambiguous. -/
theorem scalar_wire_bijective (t : EScalar) (bs : List UInt8) (h : bs.length = t.scalar.size) :
    t.scalar.InRange (bytesInt t bs) ∧ intBytes t (bytesInt t bs) = bs ∧
    ∀ v, t.scalar.InRange v → intBytes t v = bs → v = bytesInt t bs := by
  refine ⟨bytesInt_inRange t bs, intBytes_bytesInt t bs h, ?_⟩
  intro v hv he
  rw [← he, bytesInt_intBytes t v hv]

example : ([0x80, 0x00] : List UInt8).length = (⟨.i16, .big⟩ : EScalar).scalar.size := by decide

/-- C36: an implicit integer conversion never changes a value: every value of the source type is a
value of the target type, and the conversion the compiler emits (`as`) returns it unchanged. -/
theorem implicit_cast_preserves_value (a b : Scalar) (v : Int)
    (h : a.canImplicitCastTo b = true) (hv : a.InRange v) : b.InRange v ∧ b.wrap v = v := by
  have : b.InRange v := by
    revert hv
    unfold Scalar.InRange
    cases a <;> cases b <;> first
      | (exfalso; revert h; decide)
      | (simp [Scalar.min, Scalar.max, Scalar.signed, Scalar.bits, Scalar.size] <;> omega)
  exact ⟨this, Scalar.wrap_eq_self _ _ this⟩

example : Scalar.canImplicitCastTo .i16 .i64 = true ∧ Scalar.InRange .i16 (-32768) := by decide

/-- C36: implicit convertibility is a partial order, and it is exactly "same signedness and the
range of the source is contained in the range of the target". -/
theorem implicit_cast_partial_order :
    (∀ a : Scalar, a.canImplicitCastTo a = true) ∧
    (∀ a b c : Scalar, a.canImplicitCastTo b = true → b.canImplicitCastTo c = true →
      a.canImplicitCastTo c = true) ∧
    (∀ a b : Scalar, a.canImplicitCastTo b = true → b.canImplicitCastTo a = true → a = b) ∧
    (∀ a b : Scalar, a.canImplicitCastTo b = true ↔
      (a.signed = b.signed ∧ ∀ v, a.InRange v → b.InRange v)) := by
  refine ⟨by intro a; cases a <;> rfl, by intro a b c; cases a <;> cases b <;> cases c <;> decide,
    by intro a b; cases a <;> cases b <;> decide, ?_⟩
  intro a b
  constructor
  · intro h
    refine ⟨?_, fun v hv => (implicit_cast_preserves_value a b v h hv).1⟩
    revert h; cases a <;> cases b <;> decide
  · rintro ⟨h1, h2⟩
    have h3 := h2 a.max (by cases a <;> decide)
    revert h1 h3
    cases a <;> cases b <;> decide

example : Scalar.canImplicitCastTo .u8 .u128 = true ∧ Scalar.canImplicitCastTo .u8 .i16 = false := by
  decide

end Verif.Props
