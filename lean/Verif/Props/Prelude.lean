import Verif.Prelude
import Verif.ScalarLemmas
import Verif.Props.Const
/-!
# Properties C21-C25 and C48: prelude types and functions
-/
namespace Verif.Props

/-! ## C22: LEB128 -/

/-- Spec: the value denoted by a list of 7-bit groups, least significant first. -/
def groupsValue : List UInt8 → Nat
  | [] => 0
  | b :: bs => b.toNat % 128 + 128 * groupsValue bs

/-- Spec: continuation bit set on all bytes but the last. -/
def continued : List UInt8 → Prop
  | [] => False
  | [b] => b.toNat < 128
  | b :: bs => 128 ≤ b.toNat ∧ continued bs

private theorem u8_toNat_ofNat (n : Nat) (h : n < 256) : (UInt8.ofNat n).toNat = n := by
  simp [UInt8.toNat_ofNat', Nat.mod_eq_of_lt h]

theorem varEncNat_ne_nil (n : Nat) : varEncNat n ≠ [] := by
  unfold varEncNat; split <;> simp

private theorem continued_cons (b : UInt8) (bs : List UInt8) (h : bs ≠ []) :
    continued (b :: bs) ↔ 128 ≤ b.toNat ∧ continued bs := by
  cases bs with
  | nil => exact absurd rfl h
  | cons c cs => simp [continued]

/-- C22: the encoder writes the base-128 digits of the unsigned value, least significant first,
with continuation bits on all bytes but the last, and the last group is nonzero unless it is the
only one (so no shorter encoding exists). -/
theorem varint_is_minimal_leb128 (k : Scalar) (v : Int) :
    let bs := varEncode k v
    groupsValue bs = k.toPat v ∧ continued bs ∧
    (∀ last, bs.getLast? = some last → last = 0 → bs = [0]) ∧
    ∀ cs : List UInt8, groupsValue cs = k.toPat v → cs ≠ [] → bs.length ≤ cs.length := by
  simp only [varEncode]
  generalize k.toPat v = n
  induction n using Nat.strongRecOn with
  | _ n ih =>
    unfold varEncNat
    split
    · rename_i h
      have h1 := u8_toNat_ofNat n (by omega)
      refine ⟨by simp [groupsValue, h1]; omega, by simp [continued, h1]; omega, ?_, ?_⟩
      · intro last hl h0
        simp at hl
        rw [← h0, hl]
      · intro cs _ hc
        cases cs with
        | nil => exact absurd rfl hc
        | cons => simp
    · rename_i h
      obtain ⟨i1, i2, i3, i4⟩ := ih (n / 128) (by omega)
      have h1 := u8_toNat_ofNat (n % 128 + 128) (by omega)
      refine ⟨?_, ?_, ?_, ?_⟩
      · simp only [groupsValue, h1, i1]; omega
      · rw [continued_cons _ _ (varEncNat_ne_nil _)]; exact ⟨by omega, i2⟩
      · intro last hl h0
        have hne := varEncNat_ne_nil (n / 128)
        rw [List.getLast?_cons, ] at hl
        have : (varEncNat (n / 128)).getLast? = some last := by
          rw [List.getLast?_eq_some_getLast hne] at hl ⊢
          simpa using hl
        have h3 := i3 last this h0
        rw [h3] at i1
        simp [groupsValue] at i1
        omega
      · intro cs hc hne
        cases cs with
        | nil => exact absurd rfl hne
        | cons c cs =>
          simp only [groupsValue] at hc
          simp only [List.length_cons, Nat.add_le_add_iff_right]
          cases cs with
          | nil => simp [groupsValue] at hc; omega
          | cons d ds => exact i4 _ (by omega) (by simp)

example : varEncode .i32 300 = [0xAC, 0x02] ∧ varEncode .i16 (-1) = [0xFF, 0xFF, 0x03] := by
  have h1 : Scalar.toPat .i32 300 = 300 := by decide
  have h2 : Scalar.toPat .i16 (-1) = 65535 := by decide
  simp [varEncode, h1, h2, varEncNat]

/-! ## C21: round trip and its limit -/

private theorem varEncNat_length (n m : Nat) (hm : 0 < m) : (varEncNat n).length ≤ m ↔ n < 128 ^ m := by
  induction m generalizing n with
  | zero => omega
  | succ m ih =>
    unfold varEncNat
    split
    · rename_i h
      simp
      have : 128 ^ 1 ≤ 128 ^ (m + 1) := Nat.pow_le_pow_right (by decide) (by omega)
      omega
    · rename_i h
      cases m with
      | zero =>
        simp
        have := varEncNat_ne_nil (n / 128)
        constructor
        · intro h; exact absurd h this
        · omega
      | succ m =>
        have := ih (n / 128) (by omega)
        simp only [List.length_cons, Nat.add_le_add_iff_right]
        rw [this, Nat.pow_succ 128 (m + 1), Nat.div_lt_iff_lt_mul (by decide)]

private theorem or_shift (a b s : Nat) (h : a < 2 ^ s) : a ||| (b <<< s) = a + b * 2 ^ s := by
  rw [Nat.or_comm, ← Nat.shiftLeft_add_eq_or_of_lt h, Nat.shiftLeft_eq, Nat.add_comm]

private theorem pow128 (i : Nat) : 128 ^ i = 2 ^ (i * 7) := by
  rw [Nat.mul_comm, Nat.pow_mul]

/-- Decoding loop on an encoding that is short enough. -/
private theorem varDecLoop_enc (k : Scalar) (n i out : Nat) (rest : List UInt8)
    (hl : i + (varEncNat n).length ≤ varEnd k + 1) (ho : out < 128 ^ i)
    (hf : out + n * 128 ^ i < 2 ^ k.bits) :
    varDecLoop k i out (varEncNat n ++ rest) = some (out + n * 128 ^ i, rest) := by
  induction n using Nat.strongRecOn generalizing i out with
  | _ n ih =>
    unfold varEncNat at hl ⊢
    split
    · rename_i h
      rw [if_pos h] at hl
      have h1 := u8_toNat_ofNat n (by omega)
      have hs : (n <<< (i * 7)) % 2 ^ k.bits = n <<< (i * 7) := by
        apply Nat.mod_eq_of_lt
        rw [Nat.shiftLeft_eq, ← pow128]; omega
      simp only [List.cons_append, List.nil_append, varDecLoop, h1, Nat.mod_eq_of_lt h, hs]
      rw [or_shift _ _ _ (by rw [← pow128]; exact ho), ← pow128]
      have : ¬ (n / 128 = 1) := by omega
      simp [this]
    · rename_i h
      rw [if_neg h] at hl
      have hpos : 0 < (varEncNat (n / 128)).length := List.length_pos_iff.mpr (varEncNat_ne_nil _)
      simp only [List.length_cons] at hl
      have h1 := u8_toNat_ofNat (n % 128 + 128) (by omega)
      have hm : (n % 128 + 128) % 128 = n % 128 := by omega
      have hle : n % 128 * 128 ^ i ≤ n * 128 ^ i := Nat.mul_le_mul_right _ (Nat.mod_le _ _)
      have hs : ((n % 128) <<< (i * 7)) % 2 ^ k.bits = (n % 128) <<< (i * 7) := by
        apply Nat.mod_eq_of_lt
        rw [Nat.shiftLeft_eq, ← pow128]; omega
      simp only [List.cons_append, varDecLoop, h1, hm, hs]
      rw [or_shift _ _ _ (by rw [← pow128]; exact ho), ← pow128]
      have h2 : ¬ (i + 1 > varEnd k) := by omega
      have h3 : (n % 128 + 128) / 128 = 1 := by omega
      simp only [h2, if_false, h3, if_true]
      have hdec : n * 128 ^ i = n % 128 * 128 ^ i + n / 128 * 128 ^ (i + 1) := by
        conv => lhs; rw [← Nat.mod_add_div n 128]
        rw [Nat.add_mul, Nat.pow_succ]
        congr 1
        rw [Nat.mul_comm 128, Nat.mul_assoc, Nat.mul_comm 128]
      rw [ih (n / 128) (by omega) (i + 1) _ (by omega) ?_ (by omega)]
      · congr 2; omega
      · rw [Nat.pow_succ]
        have : n % 128 * 128 ^ i ≤ 127 * 128 ^ i := Nat.mul_le_mul_right _ (by omega)
        omega

/-- The loop reads at most `varEnd + 1` bytes. -/
private theorem varDecLoop_reads (k : Scalar) (i out : Nat) (bs : List UInt8) (hi : i ≤ varEnd k)
    (p : Nat × List UInt8) (h : varDecLoop k i out bs = some p) :
    bs.length ≤ p.2.length + (varEnd k + 1 - i) := by
  induction bs generalizing i out with
  | nil => simp [varDecLoop] at h
  | cons b bs ih =>
    simp only [varDecLoop] at h
    split at h
    · cases h; simp; omega
    · split at h
      · have := ih (i + 1) _ (by omega) h
        simp only [List.length_cons]
        omega
      · cases h; simp; omega

/-- C21, exact limit: decoding the encoding of `v` followed by anything gives back `v` and leaves
the trailing bytes, exactly when the unsigned value needs at most `varEnd + 1` groups. The bound
is 2 bytes for v8, v16, v32, 3 for v64 and 4 for v128. -/
theorem varint_round_trip_partial (k : Scalar) (v : Int) (hv : k.InRange v) (rest : List UInt8) :
    varDecode k (varEncode k v ++ rest) = some (v, rest) ↔ k.toPat v < 128 ^ (varEnd k + 1) := by
  rw [← varEncNat_length _ _ (by omega)]
  unfold varDecode varEncode
  constructor
  · intro h
    simp only [Option.map_eq_some_iff] at h
    obtain ⟨p, hp, hr⟩ := h
    have := varDecLoop_reads k 0 0 _ (by omega) p hp
    simp only [Prod.mk.injEq] at hr
    rw [hr.2] at this
    simp at this
    omega
  · intro h
    rw [varDecLoop_enc k _ 0 0 rest (by omega) (by decide) (by simpa using Scalar.toPat_lt k v)]
    simp [Scalar.ofPat_toPat k v hv]

/-- Finding: full C21 fails for every width above 8 bits, e.g. `v32` cannot carry 16384 and `v64`
cannot carry 2097152; the decoder then also leaves a byte unread. -/
theorem varint_round_trip_fails :
    (∀ k ∈ [Scalar.i16, .i32, .i64, .i128], ∃ v, k.InRange v ∧
      ∀ rest, varDecode k (varEncode k v ++ rest) ≠ some (v, rest)) ∧
    (∀ v, Scalar.i8.InRange v → ∀ rest, varDecode .i8 (varEncode .i8 v ++ rest) = some (v, rest)) := by
  constructor
  · intro k hk
    have hm : k.InRange (-1) := by
      simp at hk
      rcases hk with rfl | rfl | rfl | rfl <;> decide
    refine ⟨-1, hm, ?_⟩
    intro rest h
    rw [varint_round_trip_partial k _ hm rest] at h
    simp at hk
    rcases hk with rfl | rfl | rfl | rfl <;> revert h <;> decide
  · intro v hv rest
    rw [varint_round_trip_partial .i8 v hv rest]
    have := Scalar.toPat_lt .i8 v
    have e1 : 2 ^ Scalar.bits .i8 = 256 := by decide
    have e2 : 128 ^ (varEnd .i8 + 1) = 16384 := by decide
    omega

example : Scalar.InRange .i32 16383 ∧ Scalar.toPat .i32 16383 < 128 ^ (varEnd .i32 + 1) := by decide

/-! ## C23, C24: strings -/

theorem strOfBytes_strBytes (s : String) : strOfBytes (strBytes s) = some s := by
  unfold strOfBytes strBytes
  simp only [Array.toArray_toList]
  unfold String.fromUTF8?
  have : ByteArray.IsValidUTF8 ⟨s.toByteArray.data⟩ := s.isValidUTF8
  rw [dif_pos this]
  rfl

theorem strBytes_strOfBytes (bs : List UInt8) (s : String) (h : strOfBytes bs = some s) :
    strBytes s = bs := by
  unfold strOfBytes String.fromUTF8? at h
  split at h
  · simp only [Option.some.injEq] at h
    subst h
    simp [strBytes, String.fromUTF8]
  · cases h

private theorem readUntilNul_append (xs rest : List UInt8) (h : (0 : UInt8) ∉ xs) :
    readUntilNul (xs ++ 0 :: rest) = (xs, rest) := by
  induction xs with
  | nil => simp [readUntilNul]
  | cons x xs ih =>
    simp only [List.mem_cons, not_or] at h
    simp [readUntilNul, Ne.symm h.1, ih h.2]

/-- C23, NUL-terminated: a string without a NUL byte comes back, and the trailing bytes are left. -/
theorem utf8_nul_round_trip (s : String) (rest : List UInt8) (h : (0 : UInt8) ∉ strBytes s) :
    utf8DecodeNul (utf8EncodeNul s ++ rest) = some (s, rest) := by
  unfold utf8DecodeNul utf8EncodeNul
  rw [List.append_assoc, List.singleton_append, readUntilNul_append _ _ h, strOfBytes_strBytes]
  rfl

/-- C23, length-prefixed: with the byte length of the string as argument it comes back, whatever it
contains. -/
theorem utf8_len_round_trip (s : String) (rest : List UInt8) :
    utf8DecodeLen (strBytes s).length (utf8EncodeLen s ++ rest) = some (s, rest) := by
  unfold utf8DecodeLen utf8EncodeLen
  simp [strOfBytes_strBytes]

/-- C23, the other direction: whatever the length-prefixed decoder accepts is the encoding of the
string it returns. -/
theorem utf8_len_decode_exact (n : Nat) (bs rest : List UInt8) (s : String)
    (h : utf8DecodeLen n bs = some (s, rest)) : bs = utf8EncodeLen s ++ rest ∧ (strBytes s).length = n := by
  unfold utf8DecodeLen at h
  split at h
  · cases h
  · rename_i hl
    simp only [Option.map_eq_some_iff, Prod.mk.injEq] at h
    obtain ⟨t, ht, rfl, rfl⟩ := h
    have := strBytes_strOfBytes _ _ ht
    unfold utf8EncodeLen
    rw [this]
    simp
    omega

example : (0 : UInt8) ∉ strBytes "héllo" := by decide +kernel

/-- Finding: a NUL character inside a NUL-terminated utf8 string cuts it (the encoder does not
refuse it), and a missing terminator at the end of input is accepted. -/
theorem utf8_nul_finding :
    utf8DecodeNul (utf8EncodeNul "a\x00b") ≠ some ("a\x00b", []) ∧
    utf8DecodeNul (strBytes "ab") = some ("ab", []) := by
  constructor
  · intro h
    have h1 : utf8EncodeNul "a\x00b" = [97, 0, 98, 0] := by decide +kernel
    rw [h1] at h
    have h2 : readUntilNul [97, 0, 98, 0] = ([97], [98, 0]) := by decide
    simp [utf8DecodeNul, h2] at h
  · have h1 : readUntilNul (strBytes "ab") = (strBytes "ab", []) := by decide +kernel
    unfold utf8DecodeNul
    rw [h1, strOfBytes_strBytes]
    rfl

private theorem char_range (c : Char) : c.toNat < 0xD800 ∨ (0xE000 ≤ c.toNat ∧ c.toNat < 0x110000) := by
  have := c.valid
  simp only [UInt32.isValidChar, Nat.isValidChar] at this
  show c.val.toNat < _ ∨ _ ≤ c.val.toNat ∧ c.val.toNat < _
  omega

private theorem charsOfUnits_append (c : Char) (us : List Nat) :
    charsOfUnits (charUnits c ++ us) = (charsOfUnits us).map (c :: ·) := by
  have hr := char_range c
  unfold charUnits
  split
  · rename_i h
    rw [List.cons_append, List.nil_append, charsOfUnits.eq_def]
    have h1 : ¬ (0xD800 ≤ c.toNat ∧ c.toNat < 0xDC00) := by omega
    have h2 : ¬ (0xDC00 ≤ c.toNat ∧ c.toNat < 0xE000) := by omega
    simp only [h1, h2, if_false, Char.ofNat_toNat]
  · rename_i h
    rw [List.cons_append, List.cons_append, List.nil_append, charsOfUnits.eq_def]
    have h1 : 0xD800 ≤ 0xD800 + (c.toNat - 0x10000) / 0x400 ∧
        0xD800 + (c.toNat - 0x10000) / 0x400 < 0xDC00 := by omega
    have h2 : 0xDC00 ≤ 0xDC00 + (c.toNat - 0x10000) % 0x400 ∧
        0xDC00 + (c.toNat - 0x10000) % 0x400 < 0xE000 := by omega
    have h3 : 0x10000 + (0xD800 + (c.toNat - 0x10000) / 0x400 - 0xD800) * 0x400 +
        (0xDC00 + (c.toNat - 0x10000) % 0x400 - 0xDC00) = c.toNat := by omega
    simp only [h1, h2, and_self, if_true, h3, Char.ofNat_toNat]

/-- UTF-16 itself is invertible. -/
theorem utf16_units_round_trip (cs : List Char) : charsOfUnits (cs.flatMap charUnits) = some cs := by
  induction cs with
  | nil => rfl
  | cons c cs ih => rw [List.flatMap_cons, charsOfUnits_append, ih]; rfl

private theorem charUnits_lt (c : Char) : ∀ u ∈ charUnits c, u < 65536 := by
  have hr := char_range c
  unfold charUnits
  split <;> simp <;> omega

private theorem unitsOf_be (us : List Nat) (h : ∀ u ∈ us, u < 65536) :
    unitsOf .big (us.flatMap fun (u : Nat) => intBytes ⟨.u16, .big⟩ (u : Int)) = us := by
  induction us with
  | nil => rfl
  | cons u us ih =>
    have hlen := intBytes_length ⟨.u16, .big⟩ (u : Int)
    have hin : Scalar.InRange .u16 (u : Int) := by
      have := h u (by simp)
      constructor
      · show (0 : Int) ≤ u; omega
      · show (u : Int) ≤ 2 ^ 16 - 1; omega
    have hb := bytesInt_intBytes ⟨.u16, .big⟩ (u : Int) hin
    rw [List.flatMap_cons]
    match he : intBytes ⟨.u16, .big⟩ (u : Int), hlen with
    | [a, b], _ =>
      rw [he] at hb
      simp only [List.cons_append, List.nil_append, unitsOf, hb, ih (fun u hu => h u (by simp [hu]))]
      simp

/-- C24 on hosts whose byte order is the wire byte order (big endian): a utf16 field whose length
argument is the number of 16-bit units comes back and the trailing bytes are left. -/
theorem utf16_round_trip_partial (s : String) (rest : List UInt8) :
    utf16Decode .big (s.toList.flatMap charUnits).length (utf16Encode s ++ rest) = some (s, rest) := by
  have hl : (utf16Encode s).length = 2 * (s.toList.flatMap charUnits).length := by
    unfold utf16Encode
    generalize s.toList.flatMap charUnits = us
    induction us with
    | nil => rfl
    | cons u us ih =>
      rw [List.flatMap_cons, List.length_append, ih, List.length_cons, intBytes_length]
      show 2 + _ = _
      omega
  unfold utf16Decode
  rw [List.length_append, hl]
  rw [if_neg (by omega), List.take_left' hl, List.drop_left' hl]
  unfold utf16Encode
  rw [unitsOf_be _ (by
    intro u hu
    obtain ⟨c, _, hc⟩ := List.mem_flatMap.mp hu
    exact charUnits_lt c u hc)]
  rw [utf16_units_round_trip]
  simp

/-- Finding: on little-endian hosts (every mainstream target) full C24 fails: the encoder writes big
endian, the decoder reads native order. -/
theorem utf16_round_trip_fails :
    utf16Decode .little 1 (utf16Encode "A") ≠ some ("A", []) := by decide +kernel

example : (("A😀".toList.flatMap charUnits).length = 3) ∧ utf16Encode "A" = [0, 0x41] := by decide +kernel

/-! ## C25: pad -/

/-- C25: `base + pad(p, base)` is the least multiple of `p` that is at least `base`, for every
`p > 0`; for `p = 0` the call panics. -/
theorem pad_aligns (p base : Nat) :
    (p = 0 → padFn p base = .error .panic) ∧
    (0 < p → ∃ r, padFn p base = .ok r ∧ p ∣ base + r ∧ ∀ m, p ∣ m → base ≤ m → base + r ≤ m) := by
  constructor
  · rintro rfl; simp [padFn]
  · intro hp
    have hne : p ≠ 0 := by omega
    have hlt := Nat.mod_lt base hp
    by_cases h : base % p = 0
    · refine ⟨0, by simp [padFn, hne, h], ?_, ?_⟩
      · simpa using Nat.dvd_of_mod_eq_zero h
      · intro m _ hm; simpa using hm
    · refine ⟨p - base % p, by simp [padFn, hne, h], ?_, ?_⟩
      · have e : base + (p - base % p) = p * (base / p + 1) := by
          have := Nat.div_add_mod base p
          rw [Nat.mul_add]; omega
        rw [e]; exact Nat.dvd_mul_right _ _
      · rintro m ⟨q, rfl⟩ hm
        have h1 := Nat.div_add_mod base p
        have hq : base / p < q := by
          rw [Nat.div_lt_iff_lt_mul hp]
          rcases Nat.lt_or_eq_of_le hm with h2 | h2
          · rwa [Nat.mul_comm] at h2
          · exfalso; apply h; rw [h2]; simp
        have : p * (base / p + 1) ≤ p * q := Nat.mul_le_mul_left _ hq
        rw [Nat.mul_add] at this
        omega

example : padFn 4 13 = .ok 3 ∧ padFn 4 16 = .ok 0 := by decide

/-! ## C48: bits and sum -/

/-- Spec: number of one bits below `w`. -/
def onesBelow (w n : Nat) : Nat := ((List.range w).filter fun i => n.testBit i).length

private theorem popcount_eq (w n : Nat) : popcount w n = onesBelow w n := by
  induction w generalizing n with
  | zero => rfl
  | succ w ih =>
    rw [popcount, ih]
    unfold onesBelow
    rw [List.range_succ_eq_map, List.filter_cons, List.filter_map]
    have h2 : (fun i => n.testBit i) ∘ Nat.succ = fun i => (n / 2).testBit i := by
      funext i; simp [Nat.testBit_succ]
    rw [h2]
    have h0 : n.testBit 0 = decide (n % 2 = 1) := Nat.testBit_zero n
    rw [h0]
    rcases Nat.mod_two_eq_zero_or_one n with h | h <;> simp [h]
    omega

/-- C48: `bits` of a `u64` value is the number of its one bits. -/
theorem bits_counts_ones (n : Nat) (h : n < 2 ^ 64) : bitsFn (n : Int) = onesBelow 64 n := by
  unfold bitsFn
  have hp : Scalar.toPat .u64 (n : Int) = n := by
    unfold Scalar.toPat
    have : (2 : Int) ^ Scalar.bits .u64 = ((2 ^ 64 : Nat) : Int) := by decide
    rw [this, ← Int.natCast_emod, Int.toNat_natCast, Nat.mod_eq_of_lt h]
  rw [hp, popcount_eq]
  apply Scalar.wrap_eq_self
  have : onesBelow 64 n ≤ 64 := by
    unfold onesBelow
    exact Nat.le_trans (List.length_filter_le _ _) (by simp)
  constructor
  · show (0 : Int) ≤ _; omega
  · show _ ≤ (2 ^ 8 - 1 : Int); omega

example : bitsFn 0xF0F1 = 9 := by decide +kernel

private theorem sum_loop (xs : List Nat) (acc : Nat) (hx : ∀ x ∈ xs, x < 2 ^ 64) (ha : acc < 2 ^ 64) :
    (xs.map Int.ofNat).foldlM (fun acc x => CInt.arith true .u64 (acc + Scalar.u64.wrap x) |>.map CInt.val)
      (acc : Int) = if acc + xs.sum < 2 ^ 64 then .ok ((acc + xs.sum : Nat) : Int) else .error CFault.panic := by
  have wrapid : ∀ x : Nat, x < 2 ^ 64 → Scalar.u64.wrap (x : Int) = x := by
    intro x h
    apply Scalar.wrap_eq_self
    constructor
    · show (0 : Int) ≤ _; omega
    · show _ ≤ (2 ^ 64 - 1 : Int); omega
  induction xs generalizing acc with
  | nil => simp [ha, pure, Except.pure]
  | cons x xs ih =>
    have h1 := wrapid x (hx x (by simp))
    rw [List.map_cons, List.foldlM_cons]
    show (CInt.arith true .u64 ((acc : Int) + Scalar.u64.wrap (x : Int)) |>.map CInt.val) >>= _ = _
    rw [h1]
    by_cases h : acc + x < 2 ^ 64
    · have hin : Scalar.u64.InRange ((acc : Int) + x) := by
        constructor
        · show (0 : Int) ≤ _; omega
        · show _ ≤ (2 ^ 64 - 1 : Int); omega
      have : (CInt.arith true .u64 ((acc : Int) + x)).map CInt.val = .ok (((acc + x : Nat)) : Int) := by
        simp [CInt.arith, hin, Except.map]
      rw [this]
      show List.foldlM _ ((acc + x : Nat) : Int) _ = _
      rw [ih (acc + x) (fun y hy => hx y (by simp [hy])) h, List.sum_cons, Nat.add_assoc]
    · have hin : ¬ Scalar.u64.InRange ((acc : Int) + x) := by
        intro hc
        have : (acc : Int) + x ≤ 2 ^ 64 - 1 := hc.2
        omega
      have : (CInt.arith true .u64 ((acc : Int) + x)).map CInt.val = .error CFault.panic := by
        simp [CInt.arith, hin, Except.map]
      rw [this, List.sum_cons]
      rw [if_neg (by omega)]
      rfl

/-- C48: `sum` over unsigned elements is their exact sum, or panics when it does not fit 64 bits
(builds with overflow checks). -/
theorem sum_exact (xs : List Nat) (h : ∀ x ∈ xs, x < 2 ^ 64) :
    sumFn true (xs.map Int.ofNat) =
      if xs.sum < 2 ^ 64 then .ok (xs.sum : Int) else .error CFault.panic := by
  have := sum_loop xs 0 h (by decide)
  simpa [sumFn] using this

/-- Finding: negative elements are reinterpreted as huge unsigned ones: `sum([-1, 1])` overflows. -/
theorem sum_negative_finding : sumFn true [-1, 1] = .error CFault.panic ∧
    sumFn true [-1] = .ok (2 ^ 64 - 1) := by decide

end Verif.Props
