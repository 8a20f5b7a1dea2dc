import Verif.Expr
import Verif.ScalarLemmas
/-! Helper lemmas about constant integers and constant evaluation. -/
namespace Verif

namespace CInt

theorem arith_ok {oc k n r} (h : arith oc k n = .ok r) : r.kind = k ∧ r.Ok := by
  unfold arith at h
  split at h
  · cases h; exact ⟨rfl, by assumption⟩
  · split at h
    · cases h
    · cases h; exact ⟨rfl, Scalar.wrap_inRange _ _⟩

theorem shr_inRange (k : Scalar) (v : Int) (s : Nat) (h : k.InRange v) : k.InRange (v / 2 ^ s) := by
  have hp : (0 : Int) < 2 ^ s := Int.pow_pos (by decide)
  have hmin : k.min ≤ 0 := by
    unfold Scalar.min; split
    · have : (0 : Int) < 2 ^ (k.bits - 1) := Int.pow_pos (by decide)
      omega
    · omega
  have hmax : 0 ≤ k.max := by
    unfold Scalar.max; split
    · have : (0 : Int) < 2 ^ (k.bits - 1) := Int.pow_pos (by decide)
      omega
    · have : (0 : Int) < 2 ^ k.bits := Int.pow_pos (by decide)
      omega
  obtain ⟨h1, h2⟩ := h
  constructor
  · rw [Int.le_ediv_iff_mul_le hp]
    have : k.min * 2 ^ s ≤ k.min * 1 := Int.mul_le_mul_of_nonpos_left hmin (by omega)
    omega
  · by_cases hv : 0 ≤ v
    · exact Int.le_trans (Int.ediv_le_self _ hv) h2
    · have : v / 2 ^ s < 0 := Int.ediv_neg_of_neg_of_pos (by omega) hp
      omega

theorem tmod_inRange (k : Scalar) (a b : Int) (h : k.InRange a) (hb : b ≠ 0) :
    k.InRange (a.tmod b) := by
  have hmin : k.min ≤ 0 := by
    unfold Scalar.min; split
    · have : (0 : Int) < 2 ^ (k.bits - 1) := Int.pow_pos (by decide)
      omega
    · omega
  have hmax : 0 ≤ k.max := by
    unfold Scalar.max; split
    · have : (0 : Int) < 2 ^ (k.bits - 1) := Int.pow_pos (by decide)
      omega
    · have : (0 : Int) < 2 ^ k.bits := Int.pow_pos (by decide)
      omega
  obtain ⟨h1, h2⟩ := h
  rcases Int.le_total 0 a with ha | ha
  · have h3 := Int.tmod_nonneg b ha
    have h4 : a.tmod b ≤ a := by
      have := Int.tmod_eq_emod_of_nonneg (b := b) ha
      rw [this]
      have := Int.emod_nonneg a hb
      obtain ⟨m, rfl⟩ := Int.eq_ofNat_of_zero_le ha
      have := Int.natAbs_emod_of_nonneg ha b
      have h5 := Nat.mod_le m b.natAbs
      simp at this
      omega
    constructor <;> omega
  · have h3 : (-a).tmod b = -(a.tmod b) := Int.neg_tmod a b
    have h4 := Int.tmod_nonneg b (by omega : 0 ≤ -a)
    have h5 : (-a).tmod b ≤ -a := by
      have := Int.tmod_eq_emod_of_nonneg (b := b) (by omega : 0 ≤ -a)
      rw [this]
      obtain ⟨m, hm⟩ := Int.eq_ofNat_of_zero_le (by omega : 0 ≤ -a)
      have := Int.natAbs_emod_of_nonneg (by omega : 0 ≤ -a) b
      rw [hm] at this ⊢
      have h5 := Nat.mod_le m b.natAbs
      simp at this
      have := Int.emod_nonneg (m : Int) hb
      omega
    constructor <;> omega

theorem add_ok {oc a b r} (h : add oc a b = .ok r) : r.Ok ∧ r.kind = a.kind := by
  unfold add at h; split at h
  · have := arith_ok h; exact ⟨this.2, this.1⟩
  · cases h
theorem sub_ok {oc a b r} (h : sub oc a b = .ok r) : r.Ok ∧ r.kind = a.kind := by
  unfold sub at h; split at h
  · have := arith_ok h; exact ⟨this.2, this.1⟩
  · cases h
theorem mul_ok {oc a b r} (h : mul oc a b = .ok r) : r.Ok ∧ r.kind = a.kind := by
  unfold mul at h; split at h
  · have := arith_ok h; exact ⟨this.2, this.1⟩
  · cases h
theorem div_ok {a b r} (h : div a b = .ok r) : r.Ok ∧ r.kind = a.kind := by
  unfold div at h
  split at h
  · split at h
    · cases h
    · split at h
      · cases h; exact ⟨by assumption, rfl⟩
      · cases h
  · cases h
theorem rem_ok {a b r} (h : rem a b = .ok r) (ha : a.Ok) : r.Ok ∧ r.kind = a.kind := by
  unfold rem at h
  split at h
  · split at h
    · cases h
    · split at h
      · cases h; exact ⟨tmod_inRange _ _ _ ha (by assumption), rfl⟩
      · cases h
  · cases h
theorem shl_ok {oc a b r} (h : shl oc a b = .ok r) : r.Ok ∧ r.kind = a.kind := by
  unfold shl at h; split at h
  · simp only [bind, Except.bind] at h
    split at h
    · cases h
    · cases h; exact ⟨Scalar.wrap_inRange _ _, rfl⟩
  · cases h
theorem shr_ok {oc a b r} (h : shr oc a b = .ok r) (ha : a.Ok) : r.Ok ∧ r.kind = a.kind := by
  unfold shr at h; split at h
  · simp only [bind, Except.bind] at h
    split at h
    · cases h
    · cases h; exact ⟨shr_inRange _ _ _ ha, rfl⟩
  · cases h
theorem bitop_ok {f a b r} (h : bitop f a b = .ok r) : r.Ok ∧ r.kind = a.kind := by
  unfold bitop at h; split at h
  · cases h; exact ⟨Scalar.ofPat_inRange _ _, rfl⟩
  · cases h
theorem neg_ok {oc a r} (h : neg oc a = .ok r) : r.Ok ∧ r.kind = a.kind := by
  unfold neg at h; split at h
  · have := arith_ok h; exact ⟨this.2, this.1⟩
  · cases h
theorem not_ok {a r} (h : CInt.not a = .ok r) : r.Ok ∧ r.kind = a.kind := by
  unfold CInt.not at h; cases h; exact ⟨Scalar.wrap_inRange _ _, rfl⟩
theorem castTo_ok (a : CInt) (k : Scalar) : (a.castTo k).Ok := Scalar.wrap_inRange _ _

theorem shiftAmount_nm (oc k n) : shiftAmount oc k n ≠ .error .mismatch := by
  unfold shiftAmount
  split
  · simp
  · split <;> simp
theorem arith_nm (oc k n) : arith oc k n ≠ .error .mismatch := by
  unfold arith
  split
  · simp
  · split <;> simp
theorem div_nm (k a b) : div ⟨k, a⟩ ⟨k, b⟩ ≠ .error .mismatch := by
  simp only [div, if_true]
  split
  · simp
  · split <;> simp
theorem rem_nm (k a b) : rem ⟨k, a⟩ ⟨k, b⟩ ≠ .error .mismatch := by
  simp only [rem, if_true]
  split
  · simp
  · split <;> simp
theorem shl_nm (oc k a b) : shl oc ⟨k, a⟩ ⟨k, b⟩ ≠ .error .mismatch := by
  have h := shiftAmount_nm oc k b
  simp only [shl, if_true, bind, Except.bind]
  split
  · rename_i e he; intro hc; cases hc; exact h he
  · simp
theorem shr_nm (oc k a b) : shr oc ⟨k, a⟩ ⟨k, b⟩ ≠ .error .mismatch := by
  have h := shiftAmount_nm oc k b
  simp only [shr, if_true, bind, Except.bind]
  split
  · rename_i e he; intro hc; cases hc; exact h he
  · simp

end CInt

theorem bind_ok {ε α β} {x : Except ε α} {f : α → Except ε β} {r : β} :
    (x >>= f) = .ok r ↔ ∃ a, x = .ok a ∧ f a = .ok r := by
  cases x with
  | error e => simp [bind, Except.bind]
  | ok a => simp [bind, Except.bind]

theorem bind_error {ε α β} {x : Except ε α} {f : α → Except ε β} {e : ε} :
    (x >>= f) = .error e ↔ x = .error e ∨ ∃ a, x = .ok a ∧ f a = .error e := by
  cases x with
  | error e => simp [bind, Except.bind]
  | ok a => simp [bind, Except.bind]

end Verif
