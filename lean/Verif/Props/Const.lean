import Verif.ConstLemmas
/-!
# Properties C34 and C35: constant arithmetic and integer literals

The specification is stated over mathematical integers: `Exact op k a b r` says what the operator
means, `Means e v` gives the natural (short-circuiting, lazy) meaning of a constant expression.
-/
namespace Verif.Props

/-- Spec: bit `i` of the infinite two's complement expansion of `v`. -/
def bitAt (v : Int) (i : Nat) : Bool := decide (v / 2 ^ i % 2 = 1)

/-- Spec: `r` is the exact result of `a op b` in the integer type `k`. -/
def Exact (op : BinOp) (k : Scalar) (a b r : Int) : Prop :=
  k.InRange r ∧
  match op with
  | .add => r = a + b
  | .sub => r = a - b
  | .mul => r = a * b
  | .div => b ≠ 0 ∧ r = a.tdiv b
  | .mod => b ≠ 0 ∧ k.InRange (a.tdiv b) ∧ r = a - b * a.tdiv b
  | .shl => 0 ≤ b ∧ b < k.bits ∧ ∃ m : Int, r = a * 2 ^ b.toNat + m * 2 ^ k.bits
  | .shr | .shrSigned => 0 ≤ b ∧ b < k.bits ∧ r * 2 ^ b.toNat ≤ a ∧ a < (r + 1) * 2 ^ b.toNat
  | .bitOr => ∀ i < k.bits, bitAt r i = (bitAt a i || bitAt b i)
  | .bitAnd => ∀ i < k.bits, bitAt r i = (bitAt a i && bitAt b i)
  | .bitXor => ∀ i < k.bits, bitAt r i = (bitAt a i != bitAt b i)
  | _ => False

/-- Spec: the integer-valued operators. -/
def IntOp : BinOp → Prop
  | .add | .sub | .mul | .div | .mod | .shl | .shr | .shrSigned | .bitOr | .bitAnd | .bitXor => True
  | _ => False

theorem testBit_toPat (k : Scalar) (v : Int) (i : Nat) (h : i < k.bits) :
    (k.toPat v).testBit i = bitAt v i := by
  have hp : (0 : Int) < 2 ^ k.bits := Int.pow_pos (by decide)
  have hn : 0 ≤ v % (2 ^ k.bits) := Int.emod_nonneg _ (by omega)
  have hb : (2 : Int) ^ k.bits = 2 ^ i * 2 * 2 ^ (k.bits - i - 1) := by
    have e : k.bits = i + 1 + (k.bits - i - 1) := by omega
    conv => lhs; rw [e]
    rw [Int.pow_add, Int.pow_succ]
  have key : ∀ P Q : Int, 0 < P → (v % (P * 2 * Q)) / P % 2 = v / P % 2 := by
    intro P Q hP
    have e : v % (P * 2 * Q) = v + P * (2 * -(Q * (v / (P * 2 * Q)))) := by
      rw [Int.emod_def, Int.mul_neg, Int.mul_neg, ← Int.sub_eq_add_neg,
        Int.mul_assoc, Int.mul_assoc, Int.mul_assoc]
    rw [e, Int.add_mul_ediv_left _ _ (by omega), Int.add_mul_emod_self_left]
  unfold Scalar.toPat bitAt
  rw [← key (2 ^ i) (2 ^ (k.bits - i - 1)) (Int.pow_pos (by decide)), ← hb]
  generalize v % (2 ^ k.bits) = x at hn
  obtain ⟨n, rfl⟩ := Int.eq_ofNat_of_zero_le hn
  have hc : (2 : Int) ^ i = ((2 ^ i : Nat) : Int) := by rw [Int.natCast_pow]; rfl
  rw [hc, Int.toNat_natCast, ← Int.natCast_ediv, Nat.testBit_eq_decide_div_mod_eq]
  generalize n / 2 ^ i = m
  apply decide_eq_decide.mpr
  omega

/-- Two values of a type with the same bits are the same value. -/
theorem eq_of_bits (k : Scalar) (v w : Int) (hv : k.InRange v) (hw : k.InRange w)
    (h : ∀ i < k.bits, bitAt v i = bitAt w i) : v = w := by
  have : k.toPat v = k.toPat w := by
    apply Nat.eq_of_testBit_eq
    intro i
    by_cases hi : i < k.bits
    · rw [testBit_toPat k v i hi, testBit_toPat k w i hi, h i hi]
    · have hp : ∀ x, (k.toPat x).testBit i = false := by
        intro x
        apply Nat.testBit_lt_two_pow
        exact Nat.lt_of_lt_of_le (Scalar.toPat_lt k x) (Nat.pow_le_pow_right (by decide) (by omega))
      rw [hp, hp]
  rw [← Scalar.ofPat_toPat k v hv, ← Scalar.ofPat_toPat k w hw, this]

theorem bitAt_ofPat (k : Scalar) (n : Nat) (hn : n < 2 ^ k.bits) (i : Nat) (hi : i < k.bits) :
    bitAt (k.ofPat n) i = n.testBit i := by
  rw [← testBit_toPat k _ i hi, Scalar.toPat_ofPat k n hn]

private theorem bitop_iff (f : Nat → Nat → Nat) (g : Bool → Bool → Bool)
    (hf : ∀ x y i, (f x y).testBit i = g (x.testBit i) (y.testBit i))
    (hlt : ∀ x y n, x < 2 ^ n → y < 2 ^ n → f x y < 2 ^ n)
    (k : Scalar) (a b : Int) (r : CInt) :
    CInt.bitop f ⟨k, a⟩ ⟨k, b⟩ = .ok r ↔
      r.kind = k ∧ k.InRange r.val ∧ ∀ i < k.bits, bitAt r.val i = g (bitAt a i) (bitAt b i) := by
  have hl := hlt _ _ _ (Scalar.toPat_lt k a) (Scalar.toPat_lt k b)
  simp only [CInt.bitop, if_true]
  constructor
  · intro h
    cases h
    refine ⟨rfl, Scalar.ofPat_inRange _ _, ?_⟩
    intro i hi
    rw [bitAt_ofPat k _ hl i hi, hf, testBit_toPat k a i hi, testBit_toPat k b i hi]
  · rintro ⟨h1, h2, h3⟩
    obtain ⟨rk, rv⟩ := r
    simp only at h1 h2 h3
    subst h1
    congr 2
    apply eq_of_bits rk _ _ (Scalar.ofPat_inRange _ _) h2
    intro i hi
    rw [h3 i hi, bitAt_ofPat rk _ hl i hi, hf, testBit_toPat rk a i hi, testBit_toPat rk b i hi]

/-- C34, one operation: evaluating `a op b` on two constants yields the integer `r` exactly when
both operands have one kind and `r` is the exact mathematical result, representable in that kind.
In particular overflow, division by zero and oversized shifts never yield a value. -/
theorem const_op_exact_or_refused (op : BinOp) (hop : IntOp op) (a b : CInt) (ha : a.Ok) (r : CInt) :
    constBin true op (.int a) (.int b) = .ok (.int r) ↔
      a.kind = b.kind ∧ r.kind = a.kind ∧ Exact op a.kind a.val b.val r.val := by
  obtain ⟨k, a⟩ := a; obtain ⟨k', b⟩ := b; obtain ⟨kr, r⟩ := r
  by_cases hk : ¬ k = k'
  · cases op <;> simp [IntOp] at hop <;>
      simp [constBin, CVal.toInt, bind, Except.bind, CInt.add, CInt.sub, CInt.mul, CInt.div, CInt.rem,
        CInt.shl, CInt.shr, CInt.bor, CInt.band, CInt.bxor, CInt.bitop, hk]
  have hk := Decidable.not_not.mp hk
  subst hk
  have lift : ∀ (x : CRes CInt), ((x >>= fun v => Except.ok (CVal.int v)) = Except.ok (CVal.int ⟨kr, r⟩)) ↔
      x = .ok ⟨kr, r⟩ := by
    intro x; cases x <;> simp [bind, Except.bind]
  have ar : ∀ n : Int, CInt.arith true k n = .ok ⟨kr, r⟩ ↔ kr = k ∧ k.InRange r ∧ r = n := by
    intro n
    unfold CInt.arith
    by_cases h : k.InRange n <;> simp [h]
    · constructor
      · rintro ⟨rfl, rfl⟩; simp [h]
      · rintro ⟨rfl, _, rfl⟩; simp
    · rintro rfl h1 rfl; exact h h1
  have sh : ∀ n : Int, ∀ g : Nat → Int,
      ((CInt.shiftAmount true k n >>= fun s => Except.ok (CInt.mk k (g s))) = Except.ok (CInt.mk kr r)) ↔
        kr = k ∧ 0 ≤ n ∧ n < k.bits ∧ r = g n.toNat := by
    intro n g
    unfold CInt.shiftAmount
    by_cases h : 0 ≤ n ∧ n < k.bits
    · simp only [h, and_self, if_true, bind, Except.bind]
      constructor
      · intro h; cases h; simp
      · rintro ⟨rfl, _, _, rfl⟩; rfl
    · simp only [h, if_false, bind, Except.bind, if_true]
      constructor
      · intro h; cases h
      · rintro ⟨_, h1, h2, _⟩; exact absurd ⟨h1, h2⟩ h
  cases op <;> simp only [IntOp] at hop
  case bitOr =>
    show (CInt.bitop Nat.lor _ _ >>= fun v => Except.ok (CVal.int v)) = _ ↔ _
    rw [lift, bitop_iff Nat.lor (· || ·) (fun x y i => Nat.testBit_or x y i)
      (fun x y n => Nat.or_lt_two_pow)]
    simp [Exact]
  case bitAnd =>
    show (CInt.bitop Nat.land _ _ >>= fun v => Except.ok (CVal.int v)) = _ ↔ _
    rw [lift, bitop_iff Nat.land (· && ·) (fun x y i => Nat.testBit_and x y i)
      (fun x y n h _ => Nat.lt_of_le_of_lt Nat.and_le_left h)]
    simp [Exact]
  case bitXor =>
    show (CInt.bitop Nat.xor _ _ >>= fun v => Except.ok (CVal.int v)) = _ ↔ _
    rw [lift, bitop_iff Nat.xor (· != ·) (fun x y i => Nat.testBit_xor x y i)
      (fun x y n => Nat.xor_lt_two_pow)]
    simp [Exact]
  case add =>
    show (CInt.add true _ _ >>= fun v => Except.ok (CVal.int v)) = _ ↔ _
    rw [lift]; simp only [CInt.add, if_true, ar, Exact, true_and]
  case sub =>
    show (CInt.sub true _ _ >>= fun v => Except.ok (CVal.int v)) = _ ↔ _
    rw [lift]; simp only [CInt.sub, if_true, ar, Exact, true_and]
  case mul =>
    show (CInt.mul true _ _ >>= fun v => Except.ok (CVal.int v)) = _ ↔ _
    rw [lift]; simp only [CInt.mul, if_true, ar, Exact, true_and]
  case div =>
    show (CInt.div _ _ >>= fun v => Except.ok (CVal.int v)) = _ ↔ _
    rw [lift]; simp only [CInt.div, if_true, Exact, true_and]
    by_cases h0 : b = 0
    · simp [h0]
    · by_cases h1 : k.InRange (a.tdiv b)
      · simp only [h0, h1, if_false, if_true, Except.ok.injEq, CInt.mk.injEq, ne_eq, not_false_eq_true, true_and]
        constructor
        · rintro ⟨rfl, rfl⟩; exact ⟨rfl, h1, rfl⟩
        · rintro ⟨rfl, _, rfl⟩; exact ⟨rfl, rfl⟩
      · simp only [h0, h1, if_false, ne_eq, not_false_eq_true, true_and]
        constructor
        · intro h; cases h
        · rintro ⟨_, h2, rfl⟩; exact absurd h2 h1
  case mod =>
    show (CInt.rem _ _ >>= fun v => Except.ok (CVal.int v)) = _ ↔ _
    rw [lift]; simp only [CInt.rem, if_true, Exact, true_and]
    have hm : a.tmod b = a - b * a.tdiv b := by have := Int.mul_tdiv_add_tmod a b; omega
    by_cases h0 : b = 0
    · simp [h0]
    · by_cases h1 : k.InRange (a.tdiv b)
      · simp only [h0, h1, if_false, if_true, Except.ok.injEq, CInt.mk.injEq, ne_eq, not_false_eq_true, true_and, ← hm]
        constructor
        · rintro ⟨rfl, rfl⟩; exact ⟨rfl, CInt.tmod_inRange _ _ _ ha h0, rfl⟩
        · rintro ⟨rfl, _, rfl⟩; exact ⟨rfl, rfl⟩
      · simp [h0, h1]
  case shl =>
    show (CInt.shl true _ _ >>= fun v => Except.ok (CVal.int v)) = _ ↔ _
    rw [lift]; simp only [CInt.shl, if_true]
    rw [sh b (fun s => k.wrap (a * 2 ^ s))]
    simp only [Exact, true_and]
    constructor
    · rintro ⟨rfl, h1, h2, rfl⟩
      refine ⟨rfl, Scalar.wrap_inRange _ _, h1, h2, ?_⟩
      have := Scalar.wrap_mod kr (a * 2 ^ b.toNat)
      refine ⟨(kr.wrap (a * 2 ^ b.toNat) - a * 2 ^ b.toNat) / 2 ^ kr.bits, ?_⟩
      rw [Int.ediv_mul_cancel]
      · omega
      · exact Int.dvd_of_emod_eq_zero (Int.emod_eq_emod_iff_emod_sub_eq_zero.mp this)
    · rintro ⟨rfl, h0, h1, h2, m, hm⟩
      refine ⟨rfl, h1, h2, ?_⟩
      rw [← Scalar.wrap_eq_self kr r h0]
      have e : r % 2 ^ kr.bits = (a * 2 ^ b.toNat) % 2 ^ kr.bits := by
        rw [hm, Int.add_mul_emod_self_right]
      unfold Scalar.wrap
      split
      · have hc : ((2 ^ kr.bits : Nat) : Int) = (2 : Int) ^ kr.bits := by rw [Int.natCast_pow]; rfl
        rw [Int.bmod_def, Int.bmod_def, hc, e]
      · exact e
  case shr =>
    show (CInt.shr true _ _ >>= fun v => Except.ok (CVal.int v)) = _ ↔ _
    rw [lift]; simp only [CInt.shr, if_true]
    rw [sh b (fun s => a / 2 ^ s)]
    exact shrIff k kr a b r ha
  case shrSigned =>
    show (CInt.shr true _ _ >>= fun v => Except.ok (CVal.int v)) = _ ↔ _
    rw [lift]; simp only [CInt.shr, if_true]
    rw [sh b (fun s => a / 2 ^ s)]
    exact shrIff k kr a b r ha
where
  shrIff (k kr : Scalar) (a b r : Int) (ha : (CInt.mk k a).Ok) :
    (kr = k ∧ 0 ≤ b ∧ b < k.bits ∧ r = a / 2 ^ b.toNat) ↔
      (True ∧ kr = k ∧ k.InRange r ∧ 0 ≤ b ∧ b < k.bits ∧ r * 2 ^ b.toNat ≤ a ∧ a < (r + 1) * 2 ^ b.toNat) := by
    have hp : (0 : Int) < 2 ^ b.toNat := Int.pow_pos (by decide)
    constructor
    · rintro ⟨rfl, h1, h2, rfl⟩
      refine ⟨trivial, rfl, CInt.shr_inRange _ _ _ ha, h1, h2, Int.ediv_mul_le _ (by omega), Int.lt_ediv_add_one_mul_self _ hp⟩
    · rintro ⟨_, rfl, h0, h1, h2, h3, h4⟩
      refine ⟨rfl, h1, h2, ?_⟩
      have := (Int.le_ediv_iff_mul_le hp).mpr h3
      have h5 := (Int.ediv_lt_iff_lt_mul hp).mpr h4
      omega

example : constBin true .mul (.int ⟨.i8, -16⟩) (.int ⟨.i8, 8⟩) = .ok (.int ⟨.i8, -128⟩) ∧
    constBin true .mul (.int ⟨.i8, 16⟩) (.int ⟨.i8, 8⟩) = .error .panic ∧
    constBin true .bitXor (.int ⟨.i8, -1⟩) (.int ⟨.i8, 5⟩) = .ok (.int ⟨.i8, -6⟩) := by decide

/-! ## Whole expressions -/

/-- Spec: static kinds of constant expressions. -/
inductive CTy
  | int (k : Scalar)
  | bool
  | str
  deriving DecidableEq

/-- Spec: the value belongs to the static kind. -/
def HasTy : CVal → CTy → Prop
  | .int i, .int k => i.kind = k ∧ k.InRange i.val
  | .bool _, .bool => True
  | .str _, .str => True
  | _, _ => False

/-- Spec: well-kinded constant expressions (what semantic analysis lets through): operands of a
binary operator have one kind, literals fit their kind, casts only between integers. -/
inductive Kinded : Expr → CTy → Prop
  | int {v : CInt} : v.Ok → Kinded (.int v) (.int v.kind)
  | bool {b} : Kinded (.bool b) .bool
  | str {s} : Kinded (.str s) .str
  | intop {op l r k} : IntOp op → Kinded l (.int k) → Kinded r (.int k) →
      Kinded (.binary op l r) (.int k)
  | rel {op l r k} : op = .lt ∨ op = .gt ∨ op = .lte ∨ op = .gte → Kinded l (.int k) →
      Kinded r (.int k) → Kinded (.binary op l r) .bool
  | equ {op l r t} : op = .eq ∨ op = .ne → Kinded l t → Kinded r t → Kinded (.binary op l r) .bool
  | logic {op l r} : op = .or ∨ op = .and → Kinded l .bool → Kinded r .bool →
      Kinded (.binary op l r) .bool
  | neg {e k} : Kinded e (.int k) → Kinded (.unary .negate e) (.int k)
  | not {e} : Kinded e .bool → Kinded (.unary .not e) .bool
  | bitNot {e k} : Kinded e (.int k) → Kinded (.unary .bitNot e) (.int k)
  | cast {src e k k'} : Kinded e (.int k) → Kinded (.cast src e (.scalar k')) (.int k')
  | enumAccess {en vn e t} : Kinded e t → Kinded (.enumAccess en vn e) t
  | constRef {n e t} : Kinded e t → Kinded (.constRef n e) t
  | ternary {c a b t} : Kinded c .bool → Kinded a t → Kinded b t → Kinded (.ternary c a b) t
  | member {e f v k} : Kinded e (.int k) → Kinded v (.int k) → Kinded (.member e f v) .bool

/-- Spec: the natural meaning of a constant expression. `&&`, `||` and `?:` are lazy; arithmetic is
exact in the operand type (`Exact`), casts keep the value modulo `2^bits`. -/
inductive Means : Expr → CVal → Prop
  | int {v} : Means (.int v) (.int v)
  | bool {b} : Means (.bool b) (.bool b)
  | str {s} : Means (.str s) (.str s)
  | intop {op l r k a b n} : IntOp op → Means l (.int ⟨k, a⟩) → Means r (.int ⟨k, b⟩) →
      Exact op k a b n → Means (.binary op l r) (.int ⟨k, n⟩)
  | lt {l r k a b} : Means l (.int ⟨k, a⟩) → Means r (.int ⟨k, b⟩) →
      Means (.binary .lt l r) (.bool (decide (a < b)))
  | gt {l r k a b} : Means l (.int ⟨k, a⟩) → Means r (.int ⟨k, b⟩) →
      Means (.binary .gt l r) (.bool (decide (a > b)))
  | lte {l r k a b} : Means l (.int ⟨k, a⟩) → Means r (.int ⟨k, b⟩) →
      Means (.binary .lte l r) (.bool (decide (a ≤ b)))
  | gte {l r k a b} : Means l (.int ⟨k, a⟩) → Means r (.int ⟨k, b⟩) →
      Means (.binary .gte l r) (.bool (decide (a ≥ b)))
  | eq {l r x y} : Means l x → Means r y → Means (.binary .eq l r) (.bool (decide (x = y)))
  | ne {l r x y} : Means l x → Means r y → Means (.binary .ne l r) (.bool (decide (x ≠ y)))
  | orTrue {l r} : Means l (.bool true) → Means (.binary .or l r) (.bool true)
  | orFalse {l r b} : Means l (.bool false) → Means r (.bool b) → Means (.binary .or l r) (.bool b)
  | andFalse {l r} : Means l (.bool false) → Means (.binary .and l r) (.bool false)
  | andTrue {l r b} : Means l (.bool true) → Means r (.bool b) → Means (.binary .and l r) (.bool b)
  | neg {e k a} : Means e (.int ⟨k, a⟩) → k.signed = true → k.InRange (-a) →
      Means (.unary .negate e) (.int ⟨k, -a⟩)
  | not {e b} : Means e (.bool b) → Means (.unary .not e) (.bool (!b))
  | bitNot {e k a n} : Means e (.int ⟨k, a⟩) → k.InRange n →
      (∀ i < k.bits, bitAt n i = !bitAt a i) → Means (.unary .bitNot e) (.int ⟨k, n⟩)
  | cast {src e k a k' n} : Means e (.int ⟨k, a⟩) → k'.InRange n →
      (∃ m : Int, n = a + m * 2 ^ k'.bits) → Means (.cast src e (.scalar k')) (.int ⟨k', n⟩)
  | enumAccess {en vn e v} : Means e v → Means (.enumAccess en vn e) v
  | constRef {n e v} : Means e v → Means (.constRef n e) v
  | ternaryTrue {c a b v} : Means c (.bool true) → Means a v → Means (.ternary c a b) v
  | ternaryFalse {c a b v} : Means c (.bool false) → Means b v → Means (.ternary c a b) v
  | member {e f v k a b x} : Means e (.int ⟨k, a⟩) → Means v (.int ⟨k, b⟩) →
      (x = true ↔ ∃ i < k.bits, bitAt a i = true ∧ bitAt b i = true) → Means (.member e f v) (.bool x)

/-- Spec: all subexpressions, including the expression itself. -/
def subs : Expr → List Expr
  | e@(.binary _ l r) => e :: (subs l ++ subs r)
  | e@(.unary _ a) => e :: subs a
  | e@(.cast _ a _) => e :: subs a
  | e@(.index a i) => e :: (subs a ++ subs i)
  | e@(.enumAccess _ _ a) => e :: subs a
  | e@(.constRef _ a) => e :: subs a
  | e@(.ternary c t f) => e :: (subs c ++ subs t ++ subs f)
  | e@(.len _ a) => e :: subs a
  | e@(.sum a) => e :: subs a
  | e@(.bits a) => e :: subs a
  | e@(.pad p b) => e :: (subs p ++ subs b)
  | e@(.member a _ v) => e :: (subs a ++ subs v)
  | e => [e]

theorem hasTy_int {v k} (h : HasTy v (.int k)) : ∃ n, v = .int ⟨k, n⟩ ∧ k.InRange n := by
  cases v <;> simp [HasTy] at h
  rename_i i
  obtain ⟨ki, n⟩ := i
  obtain ⟨rfl, h⟩ := h
  exact ⟨n, rfl, h⟩

theorem hasTy_bool {v} (h : HasTy v .bool) : ∃ b, v = .bool b := by
  cases v <;> simp [HasTy] at h
  exact ⟨_, rfl⟩

private theorem constBin_int {op k a b v} (hop : IntOp op)
    (h : constBin true op (.int ⟨k, a⟩) (.int ⟨k, b⟩) = .ok v) : ∃ r, v = .int r := by
  cases op <;> simp [IntOp] at hop <;>
    simp only [constBin, CVal.toInt, bind_ok, Except.ok.injEq] at h <;>
    (obtain ⟨_, rfl, _, rfl, r, _, rfl⟩ := h; exact ⟨r, rfl⟩)

theorem bitAt_not (a : Int) (i : Nat) : bitAt (-a - 1) i = !bitAt a i := by
  unfold bitAt
  have hp : (0 : Int) < 2 ^ i := Int.pow_pos (by decide)
  generalize (2 : Int) ^ i = P at hp
  have h1 : (-a - 1) / P = -(a / P) - 1 := by
    have e1 := Int.mul_ediv_add_emod a P
    have e2 := Int.emod_nonneg a (by omega : P ≠ 0)
    have e3 := Int.emod_lt_of_pos a hp
    have : -a - 1 = (P - 1 - a % P) + P * (-(a / P) - 1) := by
      rw [Int.mul_sub, Int.mul_neg]; omega
    rw [this, Int.add_mul_ediv_left _ _ (by omega), Int.ediv_eq_zero_of_lt (by omega) (by omega)]
    omega
  rw [h1]
  generalize a / P = q
  rw [← decide_not]
  apply decide_eq_decide.mpr
  omega

theorem bitAt_wrap (k : Scalar) (n : Int) (i : Nat) (h : i < k.bits) :
    bitAt (k.wrap n) i = bitAt n i := by
  rw [← testBit_toPat k _ i h, ← testBit_toPat k _ i h]
  unfold Scalar.toPat
  rw [Scalar.wrap_mod]

theorem wrap_congr (k : Scalar) (a n : Int) (h : k.InRange n) (hm : ∃ m : Int, n = a + m * 2 ^ k.bits) :
    k.wrap a = n := by
  obtain ⟨m, hm⟩ := hm
  rw [← Scalar.wrap_eq_self k n h, ← Scalar.wrap_emod k a, ← Scalar.wrap_emod k n, hm,
    Int.add_mul_emod_self_right]

theorem wrap_diff (k : Scalar) (a : Int) : ∃ m : Int, k.wrap a = a + m * 2 ^ k.bits := by
  refine ⟨(k.wrap a - a) / 2 ^ k.bits, ?_⟩
  rw [Int.ediv_mul_cancel]
  · omega
  · exact Int.dvd_of_emod_eq_zero (Int.emod_eq_emod_iff_emod_sub_eq_zero.mp (Scalar.wrap_mod k a))

theorem member_bit (k : Scalar) (a b : Int) :
    (k.ofPat (Nat.land (k.toPat a) (k.toPat b)) ≠ 0) ↔
      ∃ i < k.bits, bitAt a i = true ∧ bitAt b i = true := by
  have hl : Nat.land (k.toPat a) (k.toPat b) < 2 ^ k.bits :=
    Nat.lt_of_le_of_lt Nat.and_le_left (Scalar.toPat_lt k a)
  constructor
  · intro h
    refine Classical.byContradiction fun hc => h ?_
    have hz : k.InRange 0 := by cases k <;> decide
    apply eq_of_bits k _ _ (Scalar.ofPat_inRange _ _) hz
    intro i hi
    rw [bitAt_ofPat k _ hl i hi]
    have h0 : bitAt 0 i = false := by simp [bitAt]
    rw [h0]
    show Nat.testBit (_ &&& _) i = false
    rw [Nat.testBit_and, testBit_toPat k a i hi, testBit_toPat k b i hi]
    cases ha : bitAt a i <;> cases hb : bitAt b i <;> try rfl
    exact absurd ⟨i, hi, ha, hb⟩ hc
  · rintro ⟨i, hi, ha, hb⟩ h
    have h1 : bitAt (k.ofPat (Nat.land (k.toPat a) (k.toPat b))) i = true := by
      rw [bitAt_ofPat k _ hl i hi]
      show Nat.testBit (_ &&& _) i = true
      rw [Nat.testBit_and, testBit_toPat k a i hi, testBit_toPat k b i hi, ha, hb]; rfl
    rw [h] at h1
    simp [bitAt] at h1

private theorem member_eval (k : Scalar) (a b : Int) :
    ((CInt.band ⟨k, a⟩ ⟨k, b⟩ >>= fun x => CInt.sub true ⟨k, b⟩ ⟨k, b⟩ >>= fun z =>
      Except.ok (CVal.bool (decide (x ≠ z)))) : CRes CVal) =
      .ok (.bool (decide (k.ofPat (Nat.land (k.toPat a) (k.toPat b)) ≠ 0))) := by
  have hz : k.InRange 0 := by cases k <;> decide
  simp [CInt.band, CInt.bitop, CInt.sub, CInt.arith, hz, bind, Except.bind]

/-- C34: whenever a well-kinded constant expression evaluates, the result is its natural meaning
and has the static kind. -/
theorem const_eval_sound {e : Expr} {t : CTy} (hk : Kinded e t) {v : CVal}
    (h : constEval true e = .ok v) : Means e v ∧ HasTy v t := by
  induction hk generalizing v with
  | int hv => simp [constEval] at h; subst h; exact ⟨.int, rfl, hv⟩
  | bool => simp [constEval] at h; subst h; exact ⟨.bool, trivial⟩
  | str => simp [constEval] at h; subst h; exact ⟨.str, trivial⟩
  | @intop op l r k hop _ _ ihl ihr =>
    simp only [constEval, bind_ok] at h
    obtain ⟨x, hx, y, hy, h⟩ := h
    obtain ⟨m1, t1⟩ := ihl hx; obtain ⟨m2, t2⟩ := ihr hy
    obtain ⟨a, rfl, ha⟩ := hasTy_int t1; obtain ⟨b, rfl, hb⟩ := hasTy_int t2
    obtain ⟨⟨kr, n⟩, rfl⟩ := constBin_int hop h
    obtain ⟨_, h2, h3⟩ := (const_op_exact_or_refused op hop ⟨k, a⟩ ⟨k, b⟩ ha _).mp h
    simp only at h2 h3
    subst h2
    exact ⟨.intop hop m1 m2 h3, rfl, h3.1⟩
  | @rel op l r k hop _ _ ihl ihr =>
    simp only [constEval, bind_ok] at h
    obtain ⟨x, hx, y, hy, h⟩ := h
    obtain ⟨m1, t1⟩ := ihl hx; obtain ⟨m2, t2⟩ := ihr hy
    obtain ⟨a, rfl, ha⟩ := hasTy_int t1; obtain ⟨b, rfl, hb⟩ := hasTy_int t2
    rcases hop with rfl | rfl | rfl | rfl <;>
      (simp only [constBin, CVal.cmp, CInt.cmp, if_true, Except.ok.injEq] at h; subst h)
    · refine ⟨?_, trivial⟩
      have := Means.lt m1 m2
      rwa [show (some (compare a b) == some Ordering.lt) = decide (a < b) by
        rw [Bool.eq_iff_iff]; simp [Int.compare_eq_lt]]
    · refine ⟨?_, trivial⟩
      have := Means.gt m1 m2
      rwa [show (some (compare a b) == some Ordering.gt) = decide (a > b) by
        rw [Bool.eq_iff_iff]; simp [Int.compare_eq_gt]]
    · refine ⟨?_, trivial⟩
      have := Means.lte m1 m2
      rwa [show ((some (compare a b) == some Ordering.lt) || (some (compare a b) == some Ordering.eq)) = decide (a ≤ b) by
        rw [Bool.eq_iff_iff]; simp [Int.compare_eq_lt]; omega]
    · refine ⟨?_, trivial⟩
      have := Means.gte m1 m2
      rwa [show ((some (compare a b) == some Ordering.gt) || (some (compare a b) == some Ordering.eq)) = decide (a ≥ b) by
        rw [Bool.eq_iff_iff]; simp [Int.compare_eq_gt]; omega]
  | @equ op l r t hop _ _ ihl ihr =>
    simp only [constEval, bind_ok] at h
    obtain ⟨x, hx, y, hy, h⟩ := h
    obtain ⟨m1, t1⟩ := ihl hx; obtain ⟨m2, t2⟩ := ihr hy
    rcases hop with rfl | rfl <;> (simp only [constBin, Except.ok.injEq] at h; subst h)
    · exact ⟨.eq m1 m2, trivial⟩
    · exact ⟨.ne m1 m2, trivial⟩
  | @logic op l r hop _ _ ihl ihr =>
    simp only [constEval, bind_ok] at h
    obtain ⟨x, hx, y, hy, h⟩ := h
    obtain ⟨m1, t1⟩ := ihl hx; obtain ⟨m2, t2⟩ := ihr hy
    obtain ⟨a, rfl⟩ := hasTy_bool t1; obtain ⟨b, rfl⟩ := hasTy_bool t2
    rcases hop with rfl | rfl <;> cases a <;>
      simp [constBin, CVal.toBool, bind, Except.bind] at h <;> subst h
    · exact ⟨.orFalse m1 m2, trivial⟩
    · exact ⟨.orTrue m1, trivial⟩
    · exact ⟨.andFalse m1, trivial⟩
    · exact ⟨.andTrue m1 m2, trivial⟩
  | @neg e k _ ih =>
    simp only [constEval, bind_ok] at h
    obtain ⟨x, hx, h⟩ := h
    obtain ⟨m, t⟩ := ih hx
    obtain ⟨a, rfl, ha⟩ := hasTy_int t
    simp only [bind_ok, CVal.toInt, CInt.neg, Except.ok.injEq] at h
    obtain ⟨_, rfl, w, hw, rfl⟩ := h
    simp only at hw
    cases hs : k.signed with
    | false => simp [hs] at hw
    | true =>
      simp only [hs, if_true, CInt.arith] at hw
      split at hw
      · rename_i hr
        cases hw
        exact ⟨.neg m hs hr, rfl, hr⟩
      · cases hw
  | not _ ih =>
    simp only [constEval, bind_ok] at h
    obtain ⟨x, hx, h⟩ := h
    obtain ⟨m, t⟩ := ih hx
    obtain ⟨b, rfl⟩ := hasTy_bool t
    simp [CVal.toBool, bind, Except.bind] at h
    subst h
    exact ⟨.not m, trivial⟩
  | @bitNot e k _ ih =>
    simp only [constEval, bind_ok] at h
    obtain ⟨x, hx, h⟩ := h
    obtain ⟨m, t⟩ := ih hx
    obtain ⟨a, rfl, ha⟩ := hasTy_int t
    obtain ⟨_, h1, _, h2, h3⟩ := h
    cases h1; cases h2; cases h3
    refine ⟨.bitNot m (Scalar.wrap_inRange _ _) ?_, rfl, Scalar.wrap_inRange _ _⟩
    intro i hi
    rw [bitAt_wrap k _ i hi, bitAt_not]
  | @cast src e k k' _ ih =>
    simp only [constEval, bind_ok] at h
    obtain ⟨x, hx, h⟩ := h
    obtain ⟨m, t⟩ := ih hx
    obtain ⟨a, rfl, ha⟩ := hasTy_int t
    simp only [CVal.castTo, CInt.castTo, Except.ok.injEq] at h
    subst h
    exact ⟨.cast m (Scalar.wrap_inRange _ _) (wrap_diff _ _), rfl, Scalar.wrap_inRange _ _⟩
  | enumAccess _ ih =>
    simp only [constEval] at h
    exact ⟨.enumAccess (ih h).1, (ih h).2⟩
  | constRef _ ih =>
    simp only [constEval] at h
    exact ⟨.constRef (ih h).1, (ih h).2⟩
  | ternary _ _ _ ihc iha ihb =>
    simp only [constEval, bind_ok] at h
    obtain ⟨x, hx, y, hy, z, hz, h⟩ := h
    obtain ⟨mc, tc⟩ := ihc hx
    obtain ⟨b, rfl⟩ := hasTy_bool tc
    cases b <;> simp at h <;> subst h
    · exact ⟨.ternaryFalse mc (ihb hz).1, (ihb hz).2⟩
    · exact ⟨.ternaryTrue mc (iha hy).1, (iha hy).2⟩
  | @member e f w k _ _ ihe ihv =>
    simp only [constEval, bind_ok] at h
    obtain ⟨x, hx, y, hy, h⟩ := h
    obtain ⟨m1, t1⟩ := ihe hx; obtain ⟨m2, t2⟩ := ihv hy
    obtain ⟨a, rfl, ha⟩ := hasTy_int t1; obtain ⟨b, rfl, hb⟩ := hasTy_int t2
    simp only [] at h
    rw [member_eval] at h
    cases h
    refine ⟨.member m1 m2 ?_, trivial⟩
    rw [decide_eq_true_iff]
    exact member_bit k a b

/-- The meaning of a constant expression is unique. -/
theorem means_functional {e : Expr} {t : CTy} (hk : Kinded e t) {v w : CVal} (hv : Means e v)
    (hw : Means e w) : HasTy v t ∧ v = w := by
  induction hk generalizing v w with
  | int ho => cases hv; cases hw; exact ⟨⟨rfl, ho⟩, rfl⟩
  | bool => cases hv; cases hw; exact ⟨trivial, rfl⟩
  | str => cases hv; cases hw; exact ⟨trivial, rfl⟩
  | @intop op l r k hop _ _ ihl ihr =>
    have inv : ∀ {v}, Means (.binary op l r) v → ∃ k a b n, Means l (.int ⟨k, a⟩) ∧
        Means r (.int ⟨k, b⟩) ∧ Exact op k a b n ∧ v = .int ⟨k, n⟩ := by
      intro v hv
      cases hv <;> simp [IntOp] at hop
      exact ⟨_, _, _, _, by assumption, by assumption, by assumption, rfl⟩
    obtain ⟨k1, a1, b1, n1, l1, r1, e1, rfl⟩ := inv hv
    obtain ⟨k2, a2, b2, n2, l2, r2, e2, rfl⟩ := inv hw
    obtain ⟨tl, el⟩ := ihl l1 l2
    obtain ⟨_, er⟩ := ihr r1 r2
    simp only [CVal.int.injEq, CInt.mk.injEq] at el er
    obtain ⟨rfl, rfl⟩ := el
    obtain ⟨-, rfl⟩ := er
    obtain ⟨rfl, ha⟩ := tl
    have h1 := (const_op_exact_or_refused op hop ⟨k1, a1⟩ ⟨k1, b1⟩ ha ⟨k1, n1⟩).mpr ⟨rfl, rfl, e1⟩
    have h2 := (const_op_exact_or_refused op hop ⟨k1, a1⟩ ⟨k1, b1⟩ ha ⟨k1, n2⟩).mpr ⟨rfl, rfl, e2⟩
    rw [h1] at h2
    exact ⟨⟨rfl, e1.1⟩, by cases h2; rfl⟩
  | @rel op l r k hop _ _ ihl ihr =>
    rcases hop with rfl | rfl | rfl | rfl <;> cases hv <;>
      first
      | (rename_i h1 _ _ _; simp [IntOp] at h1; done)
      | (cases hw <;> first
          | (rename_i h1 _ _ _; simp [IntOp] at h1; done)
          | (rename_i l1 r1 _ _ _ l2 r2
             have el := (ihl l1 l2).2
             have er := (ihr r1 r2).2
             simp only [CVal.int.injEq, CInt.mk.injEq] at el er
             obtain ⟨rfl, rfl⟩ := el
             obtain ⟨-, rfl⟩ := er
             exact ⟨trivial, rfl⟩))
  | @equ op l r t hop _ _ ihl ihr =>
    rcases hop with rfl | rfl <;> cases hv <;>
      first
      | (rename_i h1 _ _ _; simp [IntOp] at h1; done)
      | (cases hw <;> first
          | (rename_i h1 _ _ _; simp [IntOp] at h1; done)
          | (rename_i l1 r1 _ _ l2 r2
             obtain rfl := (ihl l1 l2).2
             obtain rfl := (ihr r1 r2).2
             exact ⟨trivial, rfl⟩))
  | @logic op l r hop _ _ ihl ihr =>
    have invOr : ∀ {v}, op = .or → Means (.binary op l r) v →
        (v = .bool true ∧ Means l (.bool true)) ∨ (∃ b, v = .bool b ∧ Means l (.bool false) ∧ Means r (.bool b)) := by
      intro v ho hv
      subst ho
      cases hv with
      | intop h => simp [IntOp] at h
      | orTrue h => exact .inl ⟨rfl, h⟩
      | orFalse h h' => exact .inr ⟨_, rfl, h, h'⟩
    have invAnd : ∀ {v}, op = .and → Means (.binary op l r) v →
        (v = .bool false ∧ Means l (.bool false)) ∨ (∃ b, v = .bool b ∧ Means l (.bool true) ∧ Means r (.bool b)) := by
      intro v ho hv
      subst ho
      cases hv with
      | intop h => simp [IntOp] at h
      | andFalse h => exact .inl ⟨rfl, h⟩
      | andTrue h h' => exact .inr ⟨_, rfl, h, h'⟩
    rcases hop with ho | ho
    · rcases invOr ho hv with ⟨rfl, h1⟩ | ⟨b, rfl, h1, h2⟩ <;>
        rcases invOr ho hw with ⟨rfl, h3⟩ | ⟨b', rfl, h3, h4⟩
      · exact ⟨trivial, rfl⟩
      · have := (ihl h1 h3).2; simp at this
      · have := (ihl h1 h3).2; simp at this
      · exact ihr h2 h4
    · rcases invAnd ho hv with ⟨rfl, h1⟩ | ⟨b, rfl, h1, h2⟩ <;>
        rcases invAnd ho hw with ⟨rfl, h3⟩ | ⟨b', rfl, h3, h4⟩
      · exact ⟨trivial, rfl⟩
      · have := (ihl h1 h3).2; simp at this
      · have := (ihl h1 h3).2; simp at this
      · exact ihr h2 h4
  | neg _ ih =>
    cases hv with | neg h1 hs hr =>
    cases hw with | neg h2 _ _ =>
    have e := (ih h1 h2).2
    simp only [CVal.int.injEq, CInt.mk.injEq] at e
    obtain ⟨rfl, rfl⟩ := e
    have := (ih h1 h2).1
    simp only [HasTy] at this
    obtain ⟨rfl, _⟩ := this
    exact ⟨⟨rfl, hr⟩, rfl⟩
  | not _ ih =>
    cases hv; cases hw
    rename_i h1 _ h2
    have e := (ih h1 h2).2
    simp only [CVal.bool.injEq] at e
    subst e
    exact ⟨trivial, rfl⟩
  | bitNot _ ih =>
    cases hv with | bitNot h1 hr hb =>
    cases hw with | bitNot h2 hr2 hb2 =>
    have e := (ih h1 h2).2
    simp only [CVal.int.injEq, CInt.mk.injEq] at e
    obtain ⟨rfl, rfl⟩ := e
    have := (ih h1 h2).1
    simp only [HasTy] at this
    obtain ⟨rfl, _⟩ := this
    refine ⟨⟨rfl, hr⟩, ?_⟩
    congr 2
    apply eq_of_bits _ _ _ hr hr2
    intro i hi
    rw [hb i hi, hb2 i hi]
  | cast _ ih =>
    cases hv with | cast h1 hr hb =>
    cases hw with | cast h2 hr2 hb2 =>
    have e := (ih h1 h2).2
    simp only [CVal.int.injEq, CInt.mk.injEq] at e
    obtain ⟨rfl, rfl⟩ := e
    refine ⟨⟨rfl, hr⟩, ?_⟩
    rw [← wrap_congr _ _ _ hr hb, ← wrap_congr _ _ _ hr2 hb2]
  | enumAccess _ ih => cases hv; cases hw; exact ih (by assumption) (by assumption)
  | constRef _ ih => cases hv; cases hw; exact ih (by assumption) (by assumption)
  | ternary _ _ _ ihc iha ihb =>
    cases hv <;> cases hw <;> rename_i c1 v1 c2 v2
    · exact iha v1 v2
    · have := (ihc c1 c2).2; simp at this
    · have := (ihc c1 c2).2; simp at this
    · exact ihb v1 v2
  | member _ _ ihe ihv =>
    cases hv with | member e1 w1 i1 =>
    cases hw with | member e2 w2 i2 =>
    have ee := (ihe e1 e2).2
    have ew := (ihv w1 w2).2
    simp only [CVal.int.injEq, CInt.mk.injEq] at ee ew
    obtain ⟨rfl, rfl⟩ := ee
    obtain ⟨-, rfl⟩ := ew
    refine ⟨trivial, ?_⟩
    congr 1
    rw [Bool.eq_iff_iff, i1, i2]

private theorem sub_self (e : Expr) : e ∈ subs e := by
  cases e <;> simp [subs]

/-- C34, completeness: evaluation succeeds on every well-kinded expression all of whose
subexpressions have a meaning, so nothing else is refused. (Evaluation is strict: an operand of
`&&`/`||` or a ternary branch that is not selected must have a meaning too, see
`const_eval_strict`.) -/
theorem const_eval_complete_partial {e : Expr} {t : CTy} (hk : Kinded e t)
    (hs : ∀ s ∈ subs e, ∃ w, Means s w) {v : CVal} (hv : Means e v) : constEval true e = .ok v := by
  suffices ∃ w, constEval true e = .ok w by
    obtain ⟨w, hw⟩ := this
    rw [hw, (means_functional hk hv (const_eval_sound hk hw).1).2]
  clear hv v
  induction hk with
  | int _ => exact ⟨_, rfl⟩
  | bool => exact ⟨_, rfl⟩
  | str => exact ⟨_, rfl⟩
  | @intop op l r k hop hl hr ihl ihr =>
    obtain ⟨x, hx⟩ := ihl fun s h => hs s (by simp [subs, h])
    obtain ⟨y, hy⟩ := ihr fun s h => hs s (by simp [subs, h])
    obtain ⟨w, hw⟩ := hs _ (sub_self _)
    obtain ⟨mx, tx⟩ := const_eval_sound hl hx
    obtain ⟨my, ty⟩ := const_eval_sound hr hy
    have inv : ∃ k a b n, Means l (.int ⟨k, a⟩) ∧ Means r (.int ⟨k, b⟩) ∧ Exact op k a b n := by
      cases hw <;> simp [IntOp] at hop
      exact ⟨_, _, _, _, by assumption, by assumption, by assumption⟩
    obtain ⟨k1, a, b, n, m1, m2, he⟩ := inv
    obtain ⟨t1, e1⟩ := means_functional hl m1 mx
    obtain ⟨_, e2⟩ := means_functional hr m2 my
    subst e1 e2
    refine ⟨.int ⟨k1, n⟩, ?_⟩
    simp only [constEval, hx, hy]
    obtain ⟨rfl, ha⟩ := t1
    exact (const_op_exact_or_refused op hop ⟨_, a⟩ ⟨_, b⟩ ha ⟨_, n⟩).mpr ⟨rfl, rfl, he⟩
  | @rel op l r k hop hl hr ihl ihr =>
    obtain ⟨x, hx⟩ := ihl fun s h => hs s (by simp [subs, h])
    obtain ⟨y, hy⟩ := ihr fun s h => hs s (by simp [subs, h])
    rcases hop with rfl | rfl | rfl | rfl <;> simp [constEval, hx, hy, constBin, bind, Except.bind]
  | @equ op l r t hop hl hr ihl ihr =>
    obtain ⟨x, hx⟩ := ihl fun s h => hs s (by simp [subs, h])
    obtain ⟨y, hy⟩ := ihr fun s h => hs s (by simp [subs, h])
    rcases hop with rfl | rfl <;> simp [constEval, hx, hy, constBin, bind, Except.bind]
  | @logic op l r hop hl hr ihl ihr =>
    obtain ⟨x, hx⟩ := ihl fun s h => hs s (by simp [subs, h])
    obtain ⟨y, hy⟩ := ihr fun s h => hs s (by simp [subs, h])
    obtain ⟨a, rfl⟩ := hasTy_bool (const_eval_sound hl hx).2
    obtain ⟨b, rfl⟩ := hasTy_bool (const_eval_sound hr hy).2
    rcases hop with rfl | rfl <;> cases a <;>
      simp [constEval, hx, hy, constBin, bind, Except.bind, CVal.toBool]
  | @neg e k he ih =>
    obtain ⟨x, hx⟩ := ih fun s h => hs s (by simp [subs, h])
    obtain ⟨w, hw⟩ := hs _ (sub_self _)
    cases hw with | neg m h1 h2 =>
    obtain ⟨_, e1⟩ := means_functional he m (const_eval_sound he hx).1
    subst e1
    simp [constEval, hx, bind, Except.bind, CVal.toInt, CInt.neg, h1, CInt.arith, h2]
  | not he ih =>
    obtain ⟨x, hx⟩ := ih fun s h => hs s (by simp [subs, h])
    obtain ⟨a, rfl⟩ := hasTy_bool (const_eval_sound he hx).2
    simp [constEval, hx, bind, Except.bind, CVal.toBool]
  | bitNot he ih =>
    obtain ⟨x, hx⟩ := ih fun s h => hs s (by simp [subs, h])
    obtain ⟨a, rfl, _⟩ := hasTy_int (const_eval_sound he hx).2
    simp [constEval, hx, bind, Except.bind, CVal.toInt, CInt.not]
  | cast he ih =>
    obtain ⟨x, hx⟩ := ih fun s h => hs s (by simp [subs, h])
    obtain ⟨a, rfl, _⟩ := hasTy_int (const_eval_sound he hx).2
    simp [constEval, hx, bind, Except.bind, CVal.castTo]
  | enumAccess _ ih => simpa [constEval] using ih fun s h => hs s (by simp [subs, h])
  | constRef _ ih => simpa [constEval] using ih fun s h => hs s (by simp [subs, h])
  | ternary hc ha hb ihc iha ihb =>
    obtain ⟨x, hx⟩ := ihc fun s h => hs s (by simp [subs, h])
    obtain ⟨y, hy⟩ := iha fun s h => hs s (by simp [subs, h])
    obtain ⟨z, hz⟩ := ihb fun s h => hs s (by simp [subs, h])
    obtain ⟨a, rfl⟩ := hasTy_bool (const_eval_sound hc hx).2
    cases a <;> simp [constEval, hx, hy, hz, bind, Except.bind]
  | @member e f w k he hv ihe ihv =>
    obtain ⟨x, hx⟩ := ihe fun s h => hs s (by simp [subs, h])
    obtain ⟨y, hy⟩ := ihv fun s h => hs s (by simp [subs, h])
    obtain ⟨a, rfl, _⟩ := hasTy_int (const_eval_sound he hx).2
    obtain ⟨b, rfl, _⟩ := hasTy_int (const_eval_sound hv hy).2
    refine ⟨.bool (decide (k.ofPat (Nat.land (k.toPat a) (k.toPat b)) ≠ 0)), ?_⟩
    simp only [constEval, hx, hy]
    exact member_eval k a b

/-- C34: an expression with a subexpression that has no meaning (overflow, division by zero,
oversized shift) anywhere is refused, in `oc = true` builds. -/
theorem const_eval_refuses {e s : Expr} {t : CTy} (hk : Kinded e t) (hsub : s ∈ subs e)
    (hno : ¬ ∃ w, Means s w) : ∀ v, constEval true e ≠ .ok v := by
  intro v hv
  apply hno
  clear hno
  induction hk generalizing v with
  | int ho => simp [subs] at hsub; subst hsub; exact ⟨_, .int⟩
  | bool => simp [subs] at hsub; subst hsub; exact ⟨_, .bool⟩
  | str => simp [subs] at hsub; subst hsub; exact ⟨_, .str⟩
  | intop hop hl hr ihl ihr =>
    have hme := (const_eval_sound (.intop hop hl hr) hv).1
    simp only [constEval, bind_ok] at hv
    obtain ⟨x, hx, y, hy, _⟩ := hv
    simp only [subs, List.mem_cons, List.mem_append] at hsub
    rcases hsub with rfl | h | h
    · exact ⟨_, hme⟩
    · exact ihl h _ hx
    · exact ihr h _ hy
  | rel hop hl hr ihl ihr =>
    have hme := (const_eval_sound (.rel hop hl hr) hv).1
    simp only [constEval, bind_ok] at hv
    obtain ⟨x, hx, y, hy, _⟩ := hv
    simp only [subs, List.mem_cons, List.mem_append] at hsub
    rcases hsub with rfl | h | h
    · exact ⟨_, hme⟩
    · exact ihl h _ hx
    · exact ihr h _ hy
  | equ hop hl hr ihl ihr =>
    have hme := (const_eval_sound (.equ hop hl hr) hv).1
    simp only [constEval, bind_ok] at hv
    obtain ⟨x, hx, y, hy, _⟩ := hv
    simp only [subs, List.mem_cons, List.mem_append] at hsub
    rcases hsub with rfl | h | h
    · exact ⟨_, hme⟩
    · exact ihl h _ hx
    · exact ihr h _ hy
  | logic hop hl hr ihl ihr =>
    have hme := (const_eval_sound (.logic hop hl hr) hv).1
    simp only [constEval, bind_ok] at hv
    obtain ⟨x, hx, y, hy, _⟩ := hv
    simp only [subs, List.mem_cons, List.mem_append] at hsub
    rcases hsub with rfl | h | h
    · exact ⟨_, hme⟩
    · exact ihl h _ hx
    · exact ihr h _ hy
  | neg he ih =>
    have hme := (const_eval_sound (.neg he) hv).1
    simp only [constEval, bind_ok] at hv
    obtain ⟨x, hx, _⟩ := hv
    simp only [subs, List.mem_cons] at hsub
    rcases hsub with rfl | h
    · exact ⟨_, hme⟩
    · exact ih h _ hx
  | not he ih =>
    have hme := (const_eval_sound (.not he) hv).1
    simp only [constEval, bind_ok] at hv
    obtain ⟨x, hx, _⟩ := hv
    simp only [subs, List.mem_cons] at hsub
    rcases hsub with rfl | h
    · exact ⟨_, hme⟩
    · exact ih h _ hx
  | bitNot he ih =>
    have hme := (const_eval_sound (.bitNot he) hv).1
    simp only [constEval, bind_ok] at hv
    obtain ⟨x, hx, _⟩ := hv
    simp only [subs, List.mem_cons] at hsub
    rcases hsub with rfl | h
    · exact ⟨_, hme⟩
    · exact ih h _ hx
  | cast he ih =>
    have hme := (const_eval_sound (.cast he) hv).1
    simp only [constEval, bind_ok] at hv
    obtain ⟨x, hx, _⟩ := hv
    simp only [subs, List.mem_cons] at hsub
    rcases hsub with rfl | h
    · exact ⟨_, hme⟩
    · exact ih h _ hx
  | enumAccess he ih =>
    have hme := (const_eval_sound (.enumAccess he) hv).1
    simp only [constEval] at hv
    simp only [subs, List.mem_cons] at hsub
    rcases hsub with rfl | h
    · exact ⟨_, hme⟩
    · exact ih h _ hv
  | constRef he ih =>
    have hme := (const_eval_sound (.constRef he) hv).1
    simp only [constEval] at hv
    simp only [subs, List.mem_cons] at hsub
    rcases hsub with rfl | h
    · exact ⟨_, hme⟩
    · exact ih h _ hv
  | ternary hc ha hb ihc iha ihb =>
    have hme := (const_eval_sound (.ternary hc ha hb) hv).1
    simp only [constEval, bind_ok] at hv
    obtain ⟨x, hx, y, hy, z, hz, _⟩ := hv
    simp only [subs, List.mem_cons, List.mem_append] at hsub
    rcases hsub with rfl | (h | h) | h
    · exact ⟨_, hme⟩
    · exact ihc h _ hx
    · exact iha h _ hy
    · exact ihb h _ hz
  | member he hw ihe ihv =>
    have hme := (const_eval_sound (.member he hw) hv).1
    simp only [constEval, bind_ok] at hv
    obtain ⟨x, hx, y, hy, _⟩ := hv
    simp only [subs, List.mem_cons, List.mem_append] at hsub
    rcases hsub with rfl | h | h
    · exact ⟨_, hme⟩
    · exact ihe h _ hx
    · exact ihv h _ hy

/-- C34: a well-kinded expression never fails with a kind mismatch: the only refusals are the
arithmetic ones. -/
theorem const_eval_no_mismatch {e : Expr} {t : CTy} (hk : Kinded e t) (oc : Bool) :
    constEval oc e ≠ .error .mismatch ∧ ∀ v, constEval oc e = .ok v → HasTy v t := by
  have bin : ∀ {l r : Expr} {tl tr : CTy} {f : CVal → CVal → CRes CVal} {tt : CTy},
      (constEval oc l ≠ .error .mismatch ∧ ∀ v, constEval oc l = .ok v → HasTy v tl) →
      (constEval oc r ≠ .error .mismatch ∧ ∀ v, constEval oc r = .ok v → HasTy v tr) →
      (∀ x y, HasTy x tl → HasTy y tr → f x y ≠ .error .mismatch ∧ ∀ v, f x y = .ok v → HasTy v tt) →
      (constEval oc l >>= fun x => constEval oc r >>= fun y => f x y) ≠ .error .mismatch ∧
      ∀ v, (constEval oc l >>= fun x => constEval oc r >>= fun y => f x y) = .ok v → HasTy v tt := by
    intro l r tl tr f tt hl hr hf
    cases h1 : constEval oc l with
    | error e => exact ⟨by intro h; apply hl.1; rw [h1]; simpa [bind, Except.bind] using h, by simp [bind, Except.bind]⟩
    | ok x =>
      cases h2 : constEval oc r with
      | error e => exact ⟨by intro h; apply hr.1; rw [h2]; simpa [bind, Except.bind] using h, by simp [bind, Except.bind]⟩
      | ok y => exact hf x y (hl.2 x h1) (hr.2 y h2)
  have un : ∀ {l : Expr} {tl : CTy} {f : CVal → CRes CVal} {tt : CTy},
      (constEval oc l ≠ .error .mismatch ∧ ∀ v, constEval oc l = .ok v → HasTy v tl) →
      (∀ x, HasTy x tl → f x ≠ .error .mismatch ∧ ∀ v, f x = .ok v → HasTy v tt) →
      (constEval oc l >>= fun x => f x) ≠ .error .mismatch ∧
      ∀ v, (constEval oc l >>= fun x => f x) = .ok v → HasTy v tt := by
    intro l tl f tt hl hf
    cases h1 : constEval oc l with
    | error e => exact ⟨by intro h; apply hl.1; rw [h1]; simpa [bind, Except.bind] using h, by simp [bind, Except.bind]⟩
    | ok x => exact hf x (hl.2 x h1)
  have lift : ∀ {k : Scalar} {x : CRes CInt}, x ≠ .error .mismatch →
      (∀ w, x = .ok w → HasTy (.int w) (.int k)) →
      (x >>= fun v => Except.ok (CVal.int v)) ≠ .error .mismatch ∧
      ∀ v, (x >>= fun v => Except.ok (CVal.int v)) = .ok v → HasTy v (.int k) := by
    intro k x h1 h2
    cases x with
    | error e => exact ⟨by intro h; apply h1; simpa [bind, Except.bind] using h, by simp [bind, Except.bind]⟩
    | ok w => exact ⟨by simp [bind, Except.bind], by intro v hv; simp [bind, Except.bind] at hv; subst hv; exact h2 w rfl⟩
  induction hk with
  | int ho => exact ⟨by simp [constEval], by intro v h; simp [constEval] at h; subst h; exact ⟨rfl, ho⟩⟩
  | bool => exact ⟨by simp [constEval], by intro v h; simp [constEval] at h; subst h; trivial⟩
  | str => exact ⟨by simp [constEval], by intro v h; simp [constEval] at h; subst h; trivial⟩
  | @intop op l r k hop hl hr ihl ihr =>
    refine bin ihl ihr ?_
    intro x y hx hy
    obtain ⟨a, rfl, ha⟩ := hasTy_int hx
    obtain ⟨b, rfl, hb⟩ := hasTy_int hy
    cases op <;> simp only [IntOp] at hop
    case bitOr =>
      exact lift (x := CInt.bor ⟨k, a⟩ ⟨k, b⟩) (by simp [CInt.bor, CInt.bitop]) (fun w hw => (CInt.bitop_ok hw).elim fun h1 h2 => ⟨h2, h2 ▸ h1⟩)
    case bitAnd =>
      exact lift (x := CInt.band ⟨k, a⟩ ⟨k, b⟩) (by simp [CInt.band, CInt.bitop]) (fun w hw => (CInt.bitop_ok hw).elim fun h1 h2 => ⟨h2, h2 ▸ h1⟩)
    case bitXor =>
      exact lift (x := CInt.bxor ⟨k, a⟩ ⟨k, b⟩) (by simp [CInt.bxor, CInt.bitop]) (fun w hw => (CInt.bitop_ok hw).elim fun h1 h2 => ⟨h2, h2 ▸ h1⟩)
    case add =>
      exact lift (x := CInt.add oc ⟨k, a⟩ ⟨k, b⟩) (by simpa [CInt.add] using CInt.arith_nm oc k _) (fun w hw => (CInt.add_ok hw).elim fun h1 h2 => ⟨h2, h2 ▸ h1⟩)
    case sub =>
      exact lift (x := CInt.sub oc ⟨k, a⟩ ⟨k, b⟩) (by simpa [CInt.sub] using CInt.arith_nm oc k _) (fun w hw => (CInt.sub_ok hw).elim fun h1 h2 => ⟨h2, h2 ▸ h1⟩)
    case mul =>
      exact lift (x := CInt.mul oc ⟨k, a⟩ ⟨k, b⟩) (by simpa [CInt.mul] using CInt.arith_nm oc k _) (fun w hw => (CInt.mul_ok hw).elim fun h1 h2 => ⟨h2, h2 ▸ h1⟩)
    case div =>
      exact lift (x := CInt.div ⟨k, a⟩ ⟨k, b⟩) (CInt.div_nm k a b) (fun w hw => (CInt.div_ok hw).elim fun h1 h2 => ⟨h2, h2 ▸ h1⟩)
    case mod =>
      exact lift (x := CInt.rem ⟨k, a⟩ ⟨k, b⟩) (CInt.rem_nm k a b) (fun w hw => (CInt.rem_ok hw ha).elim fun h1 h2 => ⟨h2, h2 ▸ h1⟩)
    case shl =>
      exact lift (x := CInt.shl oc ⟨k, a⟩ ⟨k, b⟩) (CInt.shl_nm oc k a b) (fun w hw => (CInt.shl_ok hw).elim fun h1 h2 => ⟨h2, h2 ▸ h1⟩)
    case shr =>
      exact lift (x := CInt.shr oc ⟨k, a⟩ ⟨k, b⟩) (CInt.shr_nm oc k a b) (fun w hw => (CInt.shr_ok hw ha).elim fun h1 h2 => ⟨h2, h2 ▸ h1⟩)
    case shrSigned =>
      exact lift (x := CInt.shr oc ⟨k, a⟩ ⟨k, b⟩) (CInt.shr_nm oc k a b) (fun w hw => (CInt.shr_ok hw ha).elim fun h1 h2 => ⟨h2, h2 ▸ h1⟩)
  | @rel op l r k hop hl hr ihl ihr =>
    refine bin ihl ihr ?_
    intro x y hx hy
    rcases hop with rfl | rfl | rfl | rfl <;> simp [constBin, HasTy]
  | @equ op l r t hop hl hr ihl ihr =>
    refine bin ihl ihr ?_
    intro x y hx hy
    rcases hop with rfl | rfl <;> simp [constBin, HasTy]
  | @logic op l r hop hl hr ihl ihr =>
    refine bin ihl ihr ?_
    intro x y hx hy
    obtain ⟨a, rfl⟩ := hasTy_bool hx
    obtain ⟨b, rfl⟩ := hasTy_bool hy
    rcases hop with rfl | rfl <;> cases a <;> simp [constBin, CVal.toBool, bind, Except.bind, HasTy]
  | @neg e k he ih =>
    refine un ih ?_
    intro x hx
    obtain ⟨a, rfl, ha⟩ := hasTy_int hx
    refine lift (x := CInt.neg oc ⟨k, a⟩) ?_ (fun w hw => (CInt.neg_ok hw).elim fun h1 h2 => ⟨h2, h2 ▸ h1⟩)
    unfold CInt.neg
    split
    · exact CInt.arith_nm oc k _
    · simp
  | not he ih =>
    refine un ih ?_
    intro x hx
    obtain ⟨b, rfl⟩ := hasTy_bool hx
    simp [CVal.toBool, bind, Except.bind, HasTy]
  | @bitNot e k he ih =>
    refine un ih ?_
    intro x hx
    obtain ⟨a, rfl, ha⟩ := hasTy_int hx
    exact lift (x := CInt.not ⟨k, a⟩) (by simp [CInt.not]) (fun w hw => (CInt.not_ok hw).elim fun h1 h2 => ⟨h2, h2 ▸ h1⟩)
  | @cast src e k k' he ih =>
    refine un ih ?_
    intro x hx
    obtain ⟨a, rfl, ha⟩ := hasTy_int hx
    simp [CVal.castTo, HasTy, CInt.castTo, Scalar.wrap_inRange]
  | enumAccess _ ih => simpa [constEval] using ih
  | constRef _ ih => simpa [constEval] using ih
  | @ternary c a b t hc ha hb ihc iha ihb =>
    cases h1 : constEval oc c with
    | error e => exact ⟨by intro h; apply ihc.1; rw [h1]; simpa [constEval, h1, bind, Except.bind] using h, by simp [constEval, h1, bind, Except.bind]⟩
    | ok x =>
      obtain ⟨q, rfl⟩ := hasTy_bool (ihc.2 _ h1)
      have := bin (f := fun x y => match CVal.bool q with | .bool true => .ok x | .bool false => .ok y | _ => .error .mismatch) (tt := t) iha ihb (by intro x y hx hy; cases q <;> simp [hx, hy])
      simp only [constEval, h1]
      exact this
  | @member e f w k he hw ihe ihv =>
    refine bin ihe ihv ?_
    intro x y hx hy
    obtain ⟨a, rfl, ha⟩ := hasTy_int hx
    obtain ⟨b, rfl, hb⟩ := hasTy_int hy
    have hz : k.InRange 0 := by cases k <;> decide
    simp [CInt.band, CInt.bitop, CInt.sub, CInt.arith, hz, bind, Except.bind, HasTy]

/-- A non-trivial expression meeting the hypotheses: `(1u8 << 4) | 3u8 == 19u8 ? 7i16 : -1i16`. -/
example : ∃ e, Kinded e (.int .i16) ∧ constEval true e = .ok (.int ⟨.i16, 7⟩) := by
  refine ⟨.ternary (.binary .eq (.binary .bitOr (.binary .shl (.int ⟨.u8, 1⟩) (.int ⟨.u8, 4⟩))
    (.int ⟨.u8, 3⟩)) (.int ⟨.u8, 19⟩)) (.int ⟨.i16, 7⟩) (.unary .negate (.int ⟨.i16, 1⟩)), ?_, by decide⟩
  refine .ternary (.equ (.inl rfl) (.intop trivial (.intop trivial (.int ?_) (.int ?_)) (.int ?_)) (.int ?_)) (.int (v := ⟨.i16, 7⟩) ?_) (.neg (.int (v := ⟨.i16, 1⟩) ?_)) <;> decide

/-- The strictness that keeps `const_eval_complete_partial` from being unconditional: the natural
meaning of `true || 1u8/0u8 == 0u8` is `true`, but evaluation panics. -/
theorem const_eval_strict :
    ∃ e, Kinded e .bool ∧ Means e (.bool true) ∧ constEval true e = .error .panic := by
  refine ⟨.binary .or (.bool true) (.binary .eq (.binary .div (.int ⟨.u8, 1⟩) (.int ⟨.u8, 0⟩)) (.int ⟨.u8, 0⟩)), ?_, .orTrue .bool, by decide⟩
  refine .logic (.inl rfl) .bool (.equ (.inl rfl) (.intop trivial (.int ?_) (.int ?_)) (.int ?_)) <;> decide

/-- Without the kind discipline, comparisons of different kinds silently answer `false`; and a
build without overflow checks wraps. -/
theorem const_mixed_kind_comparison_false :
    constBin true .lt (.int ⟨.u8, 1⟩) (.int ⟨.u16, 2⟩) = .ok (.bool false) ∧
    constBin true .gte (.int ⟨.u8, 1⟩) (.int ⟨.u16, 2⟩) = .ok (.bool false) ∧
    constBin false .add (.int ⟨.u8, 255⟩) (.int ⟨.u8, 1⟩) = .ok (.int ⟨.u8, 0⟩) := by decide

/-! ## C35: literals -/

/-- Spec: the value of a digit character, either case. -/
def specDigit (r : Nat) (c : Char) : Option Nat :=
  ("0123456789abcdef".toList.idxOf? c.toLower).filter (· < r)

/-- Spec: `s` is a numeral in radix `r` (at least one digit) whose positional value is `n`. -/
inductive Numeral (r : Nat) : List Char → Nat → Prop
  | digit {c d} : specDigit r c = some d → Numeral r [c] d
  | more {s n c d} : Numeral r s n → specDigit r c = some d → Numeral r (s ++ [c]) (n * r + d)

private theorem specDigit_eq (r : Nat) (hr : r ≤ 16) (c : Char) : specDigit r c = digitVal r c := by
  by_cases h : c.toNat < 128
  · have all : ∀ n < 128, ∀ c : Char, c.toNat = n →
        specDigit 16 c = digitVal 16 c := by
      intro n hn c hc
      have : c = Char.ofNat n := by rw [← hc, Char.ofNat_toNat]
      subst this
      clear hc h
      revert n
      decide +kernel
    have h16 := all _ h c rfl
    unfold specDigit digitVal at *
    generalize "0123456789abcdef".toList.idxOf? c.toLower = x at h16
    generalize (if '0' ≤ c ∧ c ≤ '9' then some (c.toNat - '0'.toNat)
      else if 'a' ≤ c ∧ c ≤ 'z' then some (c.toNat - 'a'.toNat + 10)
      else if 'A' ≤ c ∧ c ≤ 'Z' then some (c.toNat - 'A'.toNat + 10)
      else none) = y at h16
    cases x <;> cases y <;> simp [Option.filter] at h16 ⊢ <;> grind
  · have h1 : digitVal r c = none := by
      unfold digitVal
      have hle : ∀ d : Char, d.toNat < 128 → ¬ c ≤ d := by
        intro d hd hc
        have : c.toNat ≤ d.toNat := hc
        omega
      simp [hle '9' (by decide), hle 'z' (by decide), hle 'Z' (by decide)]
    have h2 : c.toLower = c := by
      unfold Char.toLower
      have : ¬ (c.val ≥ 'A'.val ∧ c.val ≤ 'Z'.val) := by
        rintro ⟨_, h3⟩
        have : c.toNat ≤ 'Z'.toNat := h3
        have : 'Z'.toNat = 90 := rfl
        omega
      exact dif_neg this
    rw [h1]
    unfold specDigit
    rw [h2]
    have : c ∉ "0123456789abcdef".toList := by
      intro hm
      have : ∀ d ∈ "0123456789abcdef".toList, d.toNat < 128 := by decide
      exact h (this c hm)
    rw [List.idxOf?_eq_none_iff.mpr this]
    rfl

private theorem digitsVal_append (r acc : Nat) (xs ys : List Char) :
    digitsVal r acc (xs ++ ys) = (digitsVal r acc xs).bind fun a => digitsVal r a ys := by
  induction xs generalizing acc with
  | nil => rfl
  | cons x xs ih =>
    simp only [List.cons_append, digitsVal]
    cases digitVal r x with
    | none => rfl
    | some d => simp [ih]

/-- The model's digit loop computes the positional value, and rejects everything else. -/
private theorem digitsVal_iff (r : Nat) (hr : r ≤ 16) (s : List Char) (n : Nat) :
    (s ≠ [] ∧ digitsVal r 0 s = some n) ↔ Numeral r s n := by
  constructor
  · rintro ⟨hne, h⟩
    obtain ⟨len, hlen⟩ : ∃ len, s.length = len := ⟨_, rfl⟩
    induction len generalizing n s with
    | zero => exact absurd (List.eq_nil_of_length_eq_zero hlen) hne
    | succ len ih =>
      obtain ⟨s, c, rfl⟩ : ∃ t c, s = t ++ [c] :=
        ⟨s.dropLast, s.getLast hne, (List.dropLast_concat_getLast hne).symm⟩
      rw [digitsVal_append] at h
      simp only [Option.bind_eq_some_iff, digitsVal] at h
      obtain ⟨a, ha, d, hd, h⟩ := h
      simp only [Option.some.injEq] at h
      subst h
      rw [← specDigit_eq r hr] at hd
      cases s with
      | nil =>
        simp only [digitsVal, Option.some.injEq] at ha
        subst ha
        simpa using Numeral.digit hd
      | cons x xs => exact .more (ih (x :: xs) a (by simp) ha (by simpa using hlen)) hd
  · intro h
    induction h with
    | digit hd => rw [specDigit_eq r hr] at hd; simp [digitsVal, hd]
    | more _ hd ih =>
      rw [specDigit_eq r hr] at hd
      refine ⟨by simp, ?_⟩
      rw [digitsVal_append, ih.2]
      simp [digitsVal, hd]

private theorem fromStr_iff (k : Scalar) (r : Nat) (hr : r ≤ 16) (s : List Char) (n : Int)
    (h1 : s.head? ≠ some '+') (h2 : s.head? ≠ some '-') :
    fromStrRadix k r s = some n ↔ ∃ m : Nat, n = m ∧ Numeral r s m ∧ k.InRange n := by
  have e : fromStrRadix k r s =
      if s = [] then none else (digitsVal r 0 s).bind fun m => if k.InRange (m : Int) then some (m : Int) else none := by
    unfold fromStrRadix
    cases s with
    | nil => rfl
    | cons c cs =>
      simp only [List.head?_cons, ne_eq, Option.some.injEq] at h1 h2
      split <;> simp_all
      cases digitsVal r 0 (c :: cs) <;> simp
  rw [e]
  split
  · subst s
    simp only [false_iff, reduceCtorEq]
    rintro ⟨m, _, h, _⟩
    exact ((digitsVal_iff r hr [] m).mpr h).1 rfl
  · rename_i hne
    simp only [Option.bind_eq_some_iff]
    constructor
    · rintro ⟨m, hm, h⟩
      split at h
      · rename_i hi
        simp only [Option.some.injEq] at h
        subst h
        exact ⟨m, rfl, (digitsVal_iff r hr s m).mp ⟨hne, hm⟩, hi⟩
      · simp at h
    · rintro ⟨m, rfl, h, hi⟩
      exact ⟨m, ((digitsVal_iff r hr s m).mpr h).2, by simp [hi]⟩

/-- C35: an unsigned literal text is accepted for type `k` exactly when it is a decimal numeral, or
`0x` followed by a hexadecimal numeral, whose value lies in the range of `k`; it then denotes that
value. (The texts the tokenizer produces never start with a sign.) -/
theorem literal_denotes_or_rejected (k : Scalar) (s : List Char)
    (hs : ∀ c ∈ s, c ≠ '+' ∧ c ≠ '-') (v : CInt) :
    CInt.parse k s = some v ↔ v.kind = k ∧ k.InRange v.val ∧ ∃ n : Nat, v.val = n ∧
      ((∃ ds, s = '0' :: 'x' :: ds ∧ Numeral 16 ds n) ∨ Numeral 10 s n) := by
  have hh : ∀ t : List Char, (∀ c ∈ t, c ≠ '+' ∧ c ≠ '-') → t.head? ≠ some '+' ∧ t.head? ≠ some '-' := by
    intro t ht
    cases t with
    | nil => simp
    | cons c cs => simpa using ht c (by simp)
  have no10 : ∀ ds n, ¬ Numeral 10 ('0' :: 'x' :: ds) n := by
    intro ds n h
    have := ((digitsVal_iff 10 (by decide) _ n).mpr h).2
    have hx : digitVal 10 'x' = none := by decide
    have h0 : digitVal 10 '0' = some 0 := by decide
    simp [digitsVal, hx, h0] at this
  obtain ⟨kv, n⟩ := v
  unfold CInt.parse
  split
  · rename_i ds
    have h := hh ds (fun c hc => hs c (by simp [hc]))
    simp only [Option.map_eq_some_iff, CInt.mk.injEq, fromStr_iff k 16 (by decide) ds _ h.1 h.2]
    constructor
    · rintro ⟨a, ⟨m, rfl, hm, hi⟩, rfl, rfl⟩
      exact ⟨rfl, hi, m, rfl, .inl ⟨ds, rfl, hm⟩⟩
    · rintro ⟨rfl, hi, m, rfl, ⟨ds', he, hm⟩ | hm⟩
      · simp at he; subst he; exact ⟨_, ⟨m, rfl, hm, hi⟩, rfl, rfl⟩
      · exact absurd hm (no10 ds m)
  · rename_i hn
    have h := hh s hs
    simp only [Option.map_eq_some_iff, CInt.mk.injEq, fromStr_iff k 10 (by decide) s _ h.1 h.2]
    constructor
    · rintro ⟨a, ⟨m, rfl, hm, hi⟩, rfl, rfl⟩
      exact ⟨rfl, hi, m, rfl, .inr hm⟩
    · rintro ⟨rfl, hi, m, rfl, ⟨ds', he, hm⟩ | hm⟩
      · exact absurd he (hn ds')
      · exact ⟨_, ⟨m, rfl, hm, hi⟩, rfl, rfl⟩

example : CInt.parse .u16 "0xFfff".toList = some ⟨.u16, 65535⟩ ∧ CInt.parse .u16 "65536".toList = none ∧
    CInt.parse .i8 "128".toList = none ∧ CInt.parse .i8 "".toList = none := by decide

/-- C35: the standard decimal rendering of a natural number denotes it. -/
theorem decimal_literal_round_trip (k : Scalar) (n : Nat) :
    CInt.parse k (Nat.toDigits 10 n) = if k.InRange (n : Int) then some ⟨k, n⟩ else none := by
  have num : ∀ n : Nat, Numeral 10 (Nat.toDigits 10 n) n := by
    have dg : ∀ d < 10, specDigit 10 (Nat.digitChar d) = some d := by decide
    intro n
    induction n using Nat.strongRecOn with
    | _ n ih =>
      by_cases h : n < 10
      · rw [Nat.toDigits_of_lt_base h]; exact .digit (dg n h)
      · rw [Nat.toDigits_eq_if (by decide)]
        simp only [h, if_false]
        have := Numeral.more (ih (n / 10) (by omega)) (dg (n % 10) (by omega))
        rwa [Nat.div_add_mod' n 10] at this
  have hs : ∀ c ∈ Nat.toDigits 10 n, c ≠ '+' ∧ c ≠ '-' := by
    intro c hc
    have := Nat.isDigit_of_mem_toDigits (by decide) (by decide) hc
    constructor <;> rintro rfl <;> revert this <;> decide
  by_cases h : k.InRange (n : Int)
  · simp only [h, if_true]
    exact (literal_denotes_or_rejected k _ hs _).mpr ⟨rfl, h, n, rfl, .inr (num n)⟩
  · simp only [h, if_false]
    cases hp : CInt.parse k (Nat.toDigits 10 n) with
    | none => rfl
    | some v =>
      obtain ⟨_, hi, m, hm, hd⟩ := (literal_denotes_or_rejected k _ hs _).mp hp
      exfalso
      rcases hd with ⟨ds, he, _⟩ | hd
      · have : 'x' ∈ Nat.toDigits 10 n := by rw [he]; simp
        have := Nat.isDigit_of_mem_toDigits (by decide) (by decide) this
        revert this; decide
      · have e1 := ((digitsVal_iff 10 (by decide) _ _).mpr hd).2
        rw [((digitsVal_iff 10 (by decide) _ _).mpr (num n)).2] at e1
        simp only [Option.some.injEq] at e1
        subst e1
        rw [hm] at hi
        exact h hi

end Verif.Props
