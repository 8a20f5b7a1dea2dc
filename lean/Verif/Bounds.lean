import Verif.RustCheck
import Verif.ConstLemmas
/-!
# Expressions that cannot panic

`exprSpan` bounds the numbers an emitted expression can give, from the types of the variables in it, and says no
where the emitted code may panic (`compiler/expr.rs` 253-420, `prelude/*.rs`). `span_sound`: an expression
with a type and bounds always has a value, and it is within the bounds.

This is an analysis of schemas that the theorems of `Props/Survive` use as a hypothesis, not code of `/repo`.
-/
namespace Verif

/-- The numbers from `lo` to `hi`, or all from `lo` on. -/
structure NumRange where
  lo : Int
  hi : Option Int
  deriving DecidableEq, Repr

def NumRange.has (s : NumRange) (n : Int) : Prop := s.lo ≤ n ∧ ∀ h, s.hi = some h → n ≤ h

/-- The numbers of a kind. -/
def NumRange.of (k : Scalar) : NumRange := ⟨k.min, some k.max⟩

/-- Nothing known: for values that are not numbers. -/
def NumRange.any : NumRange := ⟨0, none⟩

/-- At most `h`. -/
def NumRange.upto (s : NumRange) (h : Int) : Bool :=
  match s.hi with
  | some x => decide (x ≤ h)
  | none => false

/-- All of them are numbers of the kind. -/
def NumRange.fits (s : NumRange) (k : Scalar) : Bool := decide (k.min ≤ s.lo) && s.upto k.max

def NumRange.join (a b : NumRange) : NumRange :=
  ⟨min a.lo b.lo,
    match a.hi, b.hi with
    | some x, some y => some (max x y)
    | _, _ => none⟩

def NumRange.add (a b : NumRange) : NumRange :=
  ⟨a.lo + b.lo,
    match a.hi, b.hi with
    | some x, some y => some (x + y)
    | _, _ => none⟩

def NumRange.sub (a b : NumRange) : Option NumRange := b.hi.map fun y => ⟨a.lo - y, a.hi.map (· - b.lo)⟩

def NumRange.mul (a b : NumRange) : Option NumRange :=
  if 0 ≤ a.lo ∧ 0 ≤ b.lo then
    some ⟨a.lo * b.lo,
      match a.hi, b.hi with
      | some x, some y => some (x * y)
      | _, _ => none⟩
  else none

def NumRange.neg (a : NumRange) : Option NumRange := a.hi.map fun h => ⟨-h, some (-a.lo)⟩

/-- Towards zero. -/
def NumRange.shrink (a : NumRange) : NumRange := ⟨min a.lo 0, a.hi.map (max 0)⟩

/-- The remainder of numbers of `a` and positive numbers of `b`. -/
def NumRange.rem (k : Scalar) (a b : NumRange) : NumRange :=
  match b.hi with
  | some h => ⟨if 0 ≤ a.lo then 0 else 1 - h, some (h - 1)⟩
  | none => .of k

/-- `+ - *` panic on overflow in builds with overflow checks and wrap in others. -/
def arithSpan (oc : Bool) (k : Scalar) (exact : Option NumRange) : Option NumRange :=
  match exact with
  | some s => if s.fits k then some s else if oc then none else some (.of k)
  | none => if oc then none else some (.of k)

/-- A shift by an amount from the width on panics in builds with overflow checks. -/
def shiftFits (oc : Bool) (k : Scalar) (b : NumRange) : Bool := !oc || (decide (0 ≤ b.lo) && b.upto (k.bits - 1))

/-- The strict operators, on numbers of the kind `k`. -/
def binSpan (oc : Bool) (op : BinOp) (k : Scalar) (a b : NumRange) : Option NumRange :=
  match op with
  | .add => arithSpan oc k (some (a.add b))
  | .sub => arithSpan oc k (a.sub b)
  | .mul => arithSpan oc k (a.mul b)
  | .div => if a.fits k ∧ 0 < b.lo then some a.shrink else none
  | .mod => if a.fits k ∧ 0 < b.lo then some (a.rem k b) else none
  | .shl => if shiftFits oc k b then some (.of k) else none
  | .shr => if shiftFits oc k b then some a.shrink else none
  | .bitAnd => if 0 ≤ b.lo ∧ b.fits k then some ⟨0, b.hi⟩ else some (.of k)
  | .bitOr | .bitXor => some (.of k)
  | .elvis => some ((NumRange.of k).join b)
  | _ => some .any

def unSpan (oc : Bool) (op : UnOp) (k : Scalar) (a : NumRange) : Option NumRange :=
  match op with
  | .negate => arithSpan oc k a.neg
  | .bitNot => some (.of k)
  | .not => some .any

/-- The operand of a cast. -/
def castSpan (src : CastSrc) (k : Scalar) (a : NumRange) : NumRange :=
  match src with
  | .plain => a
  | _ => .of k

def toSpan : CastTy → NumRange → NumRange
  | .scalar k, s => if s.fits k then s else .of k
  | .other, _ => .any

/-- The kind of a number. -/
def kindOf : Option RTy → Scalar
  | some (.int k) => k
  | _ => .u8

/-- The kind of the operand of a cast. -/
def operandKind (sch : Schema) (src : CastSrc) (t : Option RTy) : Scalar := ((t.bind (castKind sch src)).getD .u8)

/-- Bounds of what an emitted expression gives; nothing if it may panic. -/
def exprSpan (sch : Schema) (oc : Bool) (Γ : TCtx) : Expr → Option NumRange
  | .binary op l r => do
    let a ← exprSpan sch oc Γ l
    let b ← exprSpan sch oc Γ r
    binSpan oc op (kindOf (eTy sch oc Γ (.binary op l r))) a b
  | .unary op (.cast src e ty) => do
    let a ← exprSpan sch oc Γ e
    let k := operandKind sch src (eTy sch oc Γ e)
    let b ← unSpan oc op k (castSpan src k a)
    some (toSpan ty b)
  | .unary op e => do
    let a ← exprSpan sch oc Γ e
    unSpan oc op (kindOf (eTy sch oc Γ e)) a
  | .cast src e ty => do
    let a ← exprSpan sch oc Γ e
    some (toSpan ty (castSpan src (operandKind sch src (eTy sch oc Γ e)) a))
  | .index _ _ => none
  | .enumAccess _ _ value =>
    match constEval oc value with
    | .ok (.int r) => if r.kind.InRange r.val then some .any else none
    | _ => none
  | .int v => some ⟨v.val, some v.val⟩
  | .constRef n _ => some (.of (kindOf (Γ.input n)))
  | .inputRef n => some (.of (kindOf (Γ.input n)))
  | .fieldRef n => some (.of (kindOf (Γ.field n)))
  | .str _ => some .any
  | .ternary c t f => do
    let _ ← exprSpan sch oc Γ c
    let a ← exprSpan sch oc Γ t
    let b ← exprSpan sch oc Γ f
    some (a.join b)
  | .bool _ => some .any
  | .len (some n) _ => some ⟨n, some n⟩
  | .len none e => do
    let _ ← exprSpan sch oc Γ e
    some .any
  | .blen _ => none
  | .sum e => do
    let _ ← exprSpan sch oc Γ e
    if oc then none else some (.of .u64)
  | .bits e => do
    let _ ← exprSpan sch oc Γ e
    some (.of .u8)
  | .pad p b => do
    let x ← exprSpan sch oc Γ p
    let _ ← exprSpan sch oc Γ b
    if 0 < x.lo then some ⟨0, x.hi⟩ else none
  | .member e _ _ => do
    let _ ← exprSpan sch oc Γ e
    some .any

/-! ## Soundness -/

/-- The variables have values of the types the context says. -/
def LookRanged (F : Sig) (sch : Schema) (Γ : TCtx) (lk : Look) : Prop :=
  (∀ n t, Γ.field n = some t → ∃ v, lk.field n = some v ∧ Belongs F sch true t v) ∧
  (∀ n t, Γ.input n = some t → ∃ v, lk.input n = some v ∧ Belongs F sch true t v)

/-- A value of a type, within the bounds if it is a number. -/
inductive Good (F : Sig) (sch : Schema) : RTy → NumRange → Val → Prop
  | int {k s n} : s.has n → Good F sch (.int k) s (.int ⟨k, n⟩)
  | other {t s v} : (∀ k, t ≠ .int k) → Belongs F sch true t v → Good F sch t s v

theorem of_has {k : Scalar} {n : Int} : (NumRange.of k).has n ↔ k.InRange n := by
  simp [NumRange.has, NumRange.of, Scalar.InRange]

theorem fits_has {s : NumRange} {k : Scalar} {n : Int} (h : s.fits k = true) (hn : s.has n) : k.InRange n := by
  simp only [NumRange.fits, NumRange.upto, Bool.and_eq_true, decide_eq_true_eq] at h
  obtain ⟨h1, h2⟩ := h
  split at h2
  · rename_i x hx
    exact ⟨Int.le_trans h1 hn.1, Int.le_trans (hn.2 x hx) (of_decide_eq_true h2)⟩
  · cases h2

theorem join_left {a b : NumRange} {n : Int} (h : a.has n) : (a.join b).has n := by
  refine ⟨Int.le_trans (Int.min_le_left _ _) h.1, fun x hx => ?_⟩
  simp only [NumRange.join] at hx
  split at hx
  · rename_i p q hp hq
    cases hx
    exact Int.le_trans (h.2 p hp) (Int.le_max_left _ _)
  · cases hx

theorem join_right {a b : NumRange} {n : Int} (h : b.has n) : (a.join b).has n := by
  refine ⟨Int.le_trans (Int.min_le_right _ _) h.1, fun x hx => ?_⟩
  simp only [NumRange.join] at hx
  split at hx
  · rename_i p q hp hq
    cases hx
    exact Int.le_trans (h.2 q hq) (Int.le_max_right _ _)
  · cases hx

theorem add_has {a b : NumRange} {x y : Int} (hx : a.has x) (hy : b.has y) : (a.add b).has (x + y) := by
  refine ⟨Int.add_le_add hx.1 hy.1, fun h hh => ?_⟩
  simp only [NumRange.add] at hh
  split at hh
  · rename_i p q hp hq
    cases hh
    exact Int.add_le_add (hx.2 p hp) (hy.2 q hq)
  · cases hh

theorem sub_has {a b s : NumRange} {x y : Int} (hs : a.sub b = some s) (hx : a.has x) (hy : b.has y) : s.has (x - y) := by
  simp only [NumRange.sub, Option.map_eq_some_iff] at hs
  obtain ⟨q, hq, rfl⟩ := hs
  refine ⟨Int.sub_le_sub hx.1 (hy.2 q hq), fun h hh => ?_⟩
  simp only [Option.map_eq_some_iff] at hh
  obtain ⟨p, hp, rfl⟩ := hh
  exact Int.sub_le_sub (hx.2 p hp) hy.1

theorem mul_has {a b s : NumRange} {x y : Int} (hs : a.mul b = some s) (hx : a.has x) (hy : b.has y) : s.has (x * y) := by
  simp only [NumRange.mul] at hs
  split at hs
  · rename_i h0
    cases hs
    have hx0 : 0 ≤ x := Int.le_trans h0.1 hx.1
    have hy0 : 0 ≤ y := Int.le_trans h0.2 hy.1
    refine ⟨Int.mul_le_mul hx.1 hy.1 h0.2 hx0, fun h hh => ?_⟩
    simp only at hh
    split at hh
    · rename_i p q hp hq
      cases hh
      exact Int.mul_le_mul (hx.2 p hp) (hy.2 q hq) hy0 (Int.le_trans hx0 (hx.2 p hp))
    · cases hh
  · cases hs

theorem neg_has {a s : NumRange} {x : Int} (hs : a.neg = some s) (hx : a.has x) : s.has (-x) := by
  simp only [NumRange.neg, Option.map_eq_some_iff] at hs
  obtain ⟨q, hq, rfl⟩ := hs
  refine ⟨Int.neg_le_neg (hx.2 q hq), fun h hh => ?_⟩
  simp only [Option.some.injEq] at hh
  subst hh
  exact Int.neg_le_neg hx.1

theorem shrink_has {a : NumRange} {x y : Int} (hx : a.has x) (h1 : min x 0 ≤ y) (h2 : y ≤ max x 0) : a.shrink.has y := by
  refine ⟨?_, fun h hh => ?_⟩
  · have := hx.1
    simp only [NumRange.shrink]
    omega
  · simp only [NumRange.shrink, Option.map_eq_some_iff] at hh
    obtain ⟨p, hp, rfl⟩ := hh
    have := hx.2 p hp
    omega

theorem arith_has {oc : Bool} {k : Scalar} {exact : Option NumRange} {s : NumRange} {n : Int}
    (h : arithSpan oc k exact = some s) (hn : ∀ e, exact = some e → e.has n) :
    ∃ m, CInt.arith oc k n = .ok ⟨k, m⟩ ∧ s.has m := by
  have wrapped : s = .of k → oc = false → ∃ m, CInt.arith oc k n = .ok ⟨k, m⟩ ∧ s.has m := by
    rintro rfl rfl
    unfold CInt.arith
    split
    · exact ⟨n, rfl, of_has.2 (by assumption)⟩
    · exact ⟨_, rfl, of_has.2 (Scalar.wrap_inRange _ _)⟩
  unfold arithSpan at h
  split at h
  · rename_i e
    split at h
    · rename_i hf
      cases h
      refine ⟨n, ?_, hn _ rfl⟩
      unfold CInt.arith
      rw [if_pos (fits_has hf (hn _ rfl))]
    · cases oc
      · cases h; exact wrapped rfl rfl
      · cases h
  · cases oc
    · cases h; exact wrapped rfl rfl
    · cases h

theorem shift_ok {oc : Bool} {k : Scalar} {b : NumRange} {y : Int} (h : shiftFits oc k b = true) (hy : b.has y) :
    ∃ s, CInt.shiftAmount oc k y = .ok s := by
  unfold CInt.shiftAmount
  split
  · exact ⟨_, rfl⟩
  · rename_i hn
    cases oc
    · exact ⟨_, rfl⟩
    · exfalso
      simp only [shiftFits, NumRange.upto, Bool.not_true, Bool.false_or, Bool.and_eq_true, decide_eq_true_eq] at h
      obtain ⟨h1, h2⟩ := h
      split at h2
      · rename_i x hx
        have := hy.2 x hx
        have := hy.1
        have := of_decide_eq_true h2
        omega
      · cases h2

theorem ediv_shrink (x : Int) (s : Nat) : min x 0 ≤ x / 2 ^ s ∧ x / 2 ^ s ≤ max x 0 := by
  have hp : (0 : Int) < 2 ^ s := Int.pow_pos (by decide)
  rcases Int.le_total 0 x with h | h
  · have h1 : 0 ≤ x / 2 ^ s := Int.ediv_nonneg h (Int.le_of_lt hp)
    have h2 : x / 2 ^ s ≤ x := Int.ediv_le_self _ h
    omega
  · have h1 : x / 2 ^ s ≤ 0 := by
      have := Int.ediv_le_ediv hp h
      simpa using this
    have h2 : x ≤ x / 2 ^ s := by
      rw [Int.le_ediv_iff_mul_le hp]
      have : x * 2 ^ s ≤ x * 1 := Int.mul_le_mul_of_nonpos_left h (by omega)
      omega
    omega

theorem tdiv_shrink (x y : Int) (hy : 0 < y) : min x 0 ≤ x.tdiv y ∧ x.tdiv y ≤ max x 0 := by
  rcases Int.le_total 0 x with h | h
  · have h1 : 0 ≤ x.tdiv y := Int.tdiv_nonneg h (Int.le_of_lt hy)
    have h2 : x.tdiv y ≤ x := Int.tdiv_le_self _ h
    omega
  · have h1 : 0 ≤ (-x).tdiv y := Int.tdiv_nonneg (by omega) (Int.le_of_lt hy)
    have h2 : (-x).tdiv y ≤ -x := Int.tdiv_le_self _ (by omega)
    rw [Int.neg_tdiv] at h1 h2
    omega

theorem shrink_inRange {k : Scalar} {x y : Int} (hx : k.InRange x) (h1 : min x 0 ≤ y) (h2 : y ≤ max x 0) : k.InRange y := by
  have : k.min ≤ 0 ∧ 0 ≤ k.max := by cases k <;> decide
  unfold Scalar.InRange at *
  omega

theorem rem_has {k : Scalar} {a b : NumRange} {x y : Int} (ha : k.InRange x) (hx : a.has x) (hy : b.has y) (hb : 0 < y) :
    (a.rem k b).has (x.tmod y) := by
  unfold NumRange.rem
  split
  · rename_i h hh
    have hyh := hy.2 h hh
    have h2 : x.tmod y < y := Int.tmod_lt_of_pos _ hb
    have h3 : -y < x.tmod y := by
      have := Int.tmod_lt_of_pos (-x) hb
      rw [Int.neg_tmod] at this
      omega
    refine ⟨?_, fun z hz => ?_⟩
    · simp only
      split
      · rename_i h0
        exact Int.tmod_nonneg _ (Int.le_trans h0 hx.1)
      · omega
    · simp only [Option.some.injEq] at hz
      omega
  · exact of_has.2 (CInt.tmod_inRange k x y ha (by omega))

theorem toPat_nonneg {k : Scalar} {v : Int} (h : k.InRange v) (h0 : 0 ≤ v) : (k.toPat v : Int) = v := by
  unfold Scalar.toPat
  have hlt : v < 2 ^ k.bits := by
    have hm : k.max < 2 ^ k.bits := by cases k <;> decide
    exact Int.lt_of_le_of_lt h.2 hm
  rw [Int.emod_eq_of_lt h0 hlt]
  exact Int.toNat_of_nonneg h0

theorem band_has {k : Scalar} {b : NumRange} {x y : Int} (h0 : 0 ≤ b.lo) (hf : b.fits k = true) (hy : b.has y) :
    NumRange.has ⟨0, b.hi⟩ (k.ofPat (Nat.land (k.toPat x) (k.toPat y))) := by
  have hyr := fits_has hf hy
  have hy0 : 0 ≤ y := Int.le_trans h0 hy.1
  have e := toPat_nonneg hyr hy0
  have hle : Nat.land (k.toPat x) (k.toPat y) ≤ k.toPat y := Nat.and_le_right
  generalize Nat.land (k.toPat x) (k.toPat y) = n at hle
  have hn : (n : Int) ≤ y := by omega
  have hr : k.InRange n := by
    have := hyr.2
    have : k.min ≤ 0 := by cases k <;> decide
    exact ⟨by omega, by omega⟩
  have : k.ofPat n = n := Scalar.wrap_eq_self k n hr
  rw [this]
  exact ⟨by simp, fun h hh => Int.le_trans hn (hy.2 h hh)⟩

variable {F : Sig} {sch : Schema}

theorem Belongs.good {t : RTy} {v : Val} (h : Belongs F sch true t v) : Good F sch t (.of (kindOf (Option.some t))) v := by
  by_cases hk : ∃ k, t = .int k
  · obtain ⟨k, rfl⟩ := hk
    cases h with
    | int hn => exact .int (of_has.2 (hn rfl))
  · exact .other (fun k hk' => hk ⟨k, hk'⟩) h

theorem good_bool {s : NumRange} {b : Bool} : Good F sch .bool s (.bool b) := .other (fun k h => by cases h) .bool

theorem Good.bool_inv {s : NumRange} {v : Val} (h : Good F sch .bool s v) : ∃ b, v = .bool b := by
  cases h with
  | other _ h => cases h; exact ⟨_, rfl⟩

theorem Good.int_inv {k : Scalar} {s : NumRange} {v : Val} (h : Good F sch (.int k) s v) :
    ∃ n, v = .int ⟨k, n⟩ ∧ s.has n := by
  cases h with
  | int h => exact ⟨_, rfl, h⟩
  | other h => exact absurd rfl (h k)

theorem Good.widen {t : RTy} {s s' : NumRange} {v : Val} (h : Good F sch t s v) (hs : ∀ n, s.has n → s'.has n) :
    Good F sch t s' v := by
  cases h with
  | int h => exact .int (hs _ h)
  | other h1 h2 => exact .other h1 h2

/-- The outcome is a value with the property. -/
def Yields {α} (P : α → Prop) (x : Res α) : Prop := ∃ a, x = .ok a ∧ P a

theorem Yields.bind {α β} {P : α → Prop} {Q : β → Prop} {x : Res α} {k : α → Res β} (hx : Yields P x)
    (hk : ∀ a, P a → Yields Q (k a)) : Yields Q (x >>= k) := by
  obtain ⟨a, rfl, ha⟩ := hx
  exact hk a ha

theorem yields_ok {α} {P : α → Prop} {a : α} (h : P a) : Yields P (.ok a) := ⟨a, rfl, h⟩

theorem yields_arith {k : Scalar} {s : NumRange} {x y : Int} {f : CInt → CInt → CRes CInt}
    (hf : ∃ m, f ⟨k, x⟩ ⟨k, y⟩ = .ok ⟨k, m⟩ ∧ s.has m) :
    Yields (Good F sch (.int k) s)
      (do let a ← (Val.int ⟨k, x⟩).toInt; let b ← (Val.int ⟨k, y⟩).toInt; let v ← liftC (f a b); .ok (.int v)) := by
  obtain ⟨m, h, hm⟩ := hf
  refine ⟨.int ⟨k, m⟩, ?_, .int hm⟩
  show (liftC (f ⟨k, x⟩ ⟨k, y⟩) >>= _) = _
  rw [h]
  rfl

theorem div_yields {k : Scalar} {a b : NumRange} {x y : Int} (hf : a.fits k = true) (hb : 0 < b.lo) (hx : a.has x) (hy : b.has y) :
    ∃ m, CInt.div ⟨k, x⟩ ⟨k, y⟩ = .ok ⟨k, m⟩ ∧ a.shrink.has m := by
  have hy0 : 0 < y := Int.lt_of_lt_of_le hb hy.1
  have hs := tdiv_shrink x y hy0
  refine ⟨x.tdiv y, ?_, shrink_has hx hs.1 hs.2⟩
  simp only [CInt.div, if_true]
  rw [if_neg (by omega), if_pos (shrink_inRange (fits_has hf hx) hs.1 hs.2)]

theorem mod_yields {k : Scalar} {a b : NumRange} {x y : Int} (hf : a.fits k = true) (hb : 0 < b.lo) (hx : a.has x) (hy : b.has y) :
    ∃ m, CInt.rem ⟨k, x⟩ ⟨k, y⟩ = .ok ⟨k, m⟩ ∧ (a.rem k b).has m := by
  have hy0 : 0 < y := Int.lt_of_lt_of_le hb hy.1
  have hs := tdiv_shrink x y hy0
  refine ⟨x.tmod y, ?_, rem_has (fits_has hf hx) hx hy hy0⟩
  simp only [CInt.rem, if_true]
  rw [if_neg (by omega), if_pos (shrink_inRange (fits_has hf hx) hs.1 hs.2)]

theorem bitop_yields (k : Scalar) (f : Nat → Nat → Nat) (x y : Int) :
    ∃ m, CInt.bitop f ⟨k, x⟩ ⟨k, y⟩ = .ok ⟨k, m⟩ ∧ (NumRange.of k).has m :=
  ⟨k.ofPat (f (k.toPat x) (k.toPat y)), by simp [CInt.bitop], of_has.2 (Scalar.wrap_inRange _ _)⟩

theorem Good.belongs {t : RTy} {s : NumRange} {v : Val} (h : Good F sch t s v) : Belongs F sch false t v := by
  cases h with
  | int _ => exact ht_int
  | other _ h => exact h.unranged

/-- Comparisons give booleans and never panic. -/
theorem cmp_yields {k : Scalar} {x y : Int} {s : NumRange} (f : Ordering → Bool) :
    Yields (Good F sch .bool s) (do let o ← rtCmp (.int ⟨k, x⟩) (.int ⟨k, y⟩); .ok (.bool (f o))) := by
  refine ⟨.bool (f (compare x y)), ?_, good_bool⟩
  show ((if k = k then Except.ok (compare x y) else Except.error Fault.ill) >>= _) = _
  rw [if_pos rfl]
  rfl

theorem rtEq_ok {l r : Val} (h : ∀ b, rtEq l r ≠ .ok b) : rtEq l r = .error .ill := by
  unfold rtEq at *
  split <;> first
    | rfl
    | (split
       · rename_i hc; simp only [hc, if_true] at h; exact absurd rfl (h _)
       · rfl)
    | (exact absurd rfl (h _))

theorem eq_yields {t : RTy} {l r : Val} {s : NumRange} (hl : Belongs F sch false t l) (hr : Belongs F sch false t r)
    (hc : comparable sch t = true) (f : Bool → Bool) :
    Yields (Good F sch .bool s) (do let b ← rtEq l r; .ok (.bool (f b))) := by
  have h := (eq_safe hl hr hc f).ne
  by_cases hb : ∃ b, rtEq l r = .ok b
  · obtain ⟨b, hb⟩ := hb
    rw [hb]
    exact yields_ok good_bool
  · rw [rtEq_ok fun b hb' => hb ⟨b, hb'⟩] at h
    exact absurd rfl h

theorem cmpTy_inv {a b t : RTy} (h : cmpTy a b = some t) : ∃ k, a = .int k ∧ b = .int k ∧ t = .bool := by
  unfold cmpTy at h
  split at h
  · split at h
    · rename_i hb; cases h; exact ⟨_, rfl, hb, rfl⟩
    · cases h
  · cases h

theorem arithTy_inv {a b t : RTy} (h : arithTy a b = some t) : ∃ k, a = .int k ∧ b = .int k ∧ t = .int k := by
  unfold arithTy at h
  split at h
  · split at h
    · rename_i hb; cases h; exact ⟨_, rfl, hb, rfl⟩
    · cases h
  · cases h

theorem shiftTy_inv {a b t : RTy} (h : shiftTy a b = some t) : ∃ k k', a = .int k ∧ b = .int k' ∧ t = .int k := by
  unfold shiftTy at h
  split at h
  · cases h; exact ⟨_, _, rfl, rfl, rfl⟩
  · cases h

theorem ite_some {α} {c : Prop} [Decidable c] {a s : α} (h : (if c then some a else none) = some s) : c ∧ a = s := by
  split at h
  · rename_i hc; exact ⟨hc, Option.some.inj h⟩
  · cases h

theorem ite_some' {α} {c : Prop} [Decidable c] {a b s : α} (h : (if c then some a else some b) = some s) :
    c ∧ a = s ∨ b = s := by
  split at h
  · rename_i hc; exact .inl ⟨hc, Option.some.inj h⟩
  · exact .inr (Option.some.inj h)

/-- The strict operators. -/
theorem rtBin_yields {oc : Bool} {op : BinOp} {a b t : RTy} {p q s : NumRange} {l r : Val}
    (hl : Good F sch a p l) (hr : Good F sch b q r) (ht : binTy sch op a b = some t)
    (hs : binSpan oc op (kindOf (some t)) p q = some s)
    (h1 : op ≠ .or) (h2 : op ≠ .and) (h3 : op ≠ .elvis) : Yields (Good F sch t s) (rtBin oc op l r) := by
  have hcmp : ∀ (_ : cmpTy a b = some t) (f : Ordering → Bool),
      Yields (Good F sch t s) (do let o ← rtCmp l r; .ok (.bool (f o))) := by
    intro h f
    obtain ⟨k, rfl, rfl, rfl⟩ := cmpTy_inv h
    obtain ⟨x, rfl, _⟩ := hl.int_inv
    obtain ⟨y, rfl, _⟩ := hr.int_inv
    exact cmp_yields f
  have heq : ∀ (_ : eqTy sch a b = some t) (f : Bool → Bool),
      Yields (Good F sch t s) (do let b ← rtEq l r; .ok (.bool (f b))) := by
    intro h f
    unfold eqTy at h
    split at h
    · rename_i hc
      cases h
      obtain ⟨rfl, hc⟩ := hc
      exact eq_yields hl.belongs hr.belongs hc f
    · cases h
  have har : ∀ (_ : arithTy a b = some t) (f : CInt → CInt → CRes CInt)
      (_ : ∀ k x y, t = .int k → p.has x → q.has y → ∃ m, f ⟨k, x⟩ ⟨k, y⟩ = .ok ⟨k, m⟩ ∧ s.has m),
      Yields (Good F sch t s) (do let a ← l.toInt; let b ← r.toInt; let v ← liftC (f a b); .ok (.int v)) := by
    intro h f hf
    obtain ⟨k, rfl, rfl, rfl⟩ := arithTy_inv h
    obtain ⟨x, rfl, hx⟩ := hl.int_inv
    obtain ⟨y, rfl, hy⟩ := hr.int_inv
    exact yields_arith (hf k x y rfl hx hy)
  cases op with
  | or => exact absurd rfl h1
  | and => exact absurd rfl h2
  | elvis => exact absurd rfl h3
  | shrSigned => cases ht
  | lt => exact hcmp ht _
  | gt => exact hcmp ht _
  | lte => exact hcmp ht _
  | gte => exact hcmp ht _
  | eq => exact heq ht id
  | ne => exact heq ht not
  | bitOr =>
    refine har ht _ fun k x y hk _ _ => ?_
    subst hk
    cases hs
    exact bitop_yields k _ x y
  | bitXor =>
    refine har ht _ fun k x y hk _ _ => ?_
    subst hk
    cases hs
    exact bitop_yields k _ x y
  | bitAnd =>
    refine har ht _ fun k x y hk _ hy => ?_
    subst hk
    simp only [binSpan, kindOf] at hs
    rcases ite_some' hs with ⟨hc, rfl⟩ | rfl
    · exact ⟨k.ofPat (Nat.land (k.toPat x) (k.toPat y)), by simp [CInt.band, CInt.bitop], band_has hc.1 hc.2 hy⟩
    · exact bitop_yields k _ x y
  | shr =>
    obtain ⟨k, k', rfl, rfl, rfl⟩ := shiftTy_inv ht
    obtain ⟨x, rfl, hx⟩ := hl.int_inv
    obtain ⟨y, rfl, hy⟩ := hr.int_inv
    simp only [binSpan, kindOf] at hs
    obtain ⟨hf, rfl⟩ := ite_some hs
    obtain ⟨n, hn⟩ := shift_ok hf hy
    refine ⟨.int ⟨k, x / 2 ^ n⟩, ?_, .int (shrink_has hx (ediv_shrink x n).1 (ediv_shrink x n).2)⟩
    show (rtShift oc false ⟨k, x⟩ ⟨k', y⟩ >>= _) = _
    simp only [rtShift, hn, liftC]
    rfl
  | shl =>
    obtain ⟨k, k', rfl, rfl, rfl⟩ := shiftTy_inv ht
    obtain ⟨x, rfl, hx⟩ := hl.int_inv
    obtain ⟨y, rfl, hy⟩ := hr.int_inv
    simp only [binSpan, kindOf] at hs
    obtain ⟨hf, rfl⟩ := ite_some hs
    obtain ⟨n, hn⟩ := shift_ok hf hy
    refine ⟨.int ⟨k, k.wrap (x * 2 ^ n)⟩, ?_, .int (of_has.2 (Scalar.wrap_inRange _ _))⟩
    show (rtShift oc true ⟨k, x⟩ ⟨k', y⟩ >>= _) = _
    simp only [rtShift, hn, liftC]
    rfl
  | add =>
    refine har ht _ fun k x y hk hx hy => ?_
    subst hk
    simp only [CInt.add, if_true]
    exact arith_has (exact := some (p.add q)) hs fun e he => by cases he; exact add_has hx hy
  | sub =>
    refine har ht _ fun k x y hk hx hy => ?_
    subst hk
    simp only [CInt.sub, if_true]
    exact arith_has (exact := p.sub q) hs fun e he => sub_has he hx hy
  | mul =>
    refine har ht _ fun k x y hk hx hy => ?_
    subst hk
    simp only [CInt.mul, if_true]
    exact arith_has (exact := p.mul q) hs fun e he => mul_has he hx hy
  | div =>
    refine har ht _ fun k x y hk hx hy => ?_
    subst hk
    simp only [binSpan, kindOf] at hs
    obtain ⟨hc, rfl⟩ := ite_some hs
    exact div_yields hc.1 hc.2 hx hy
  | mod =>
    refine har ht _ fun k x y hk hx hy => ?_
    subst hk
    simp only [binSpan, kindOf] at hs
    obtain ⟨hc, rfl⟩ := ite_some hs
    exact mod_yields hc.1 hc.2 hx hy

theorem rtUn_yields {oc : Bool} {op : UnOp} {t u : RTy} {p s : NumRange} {v : Val} (hv : Good F sch t p v)
    (ht : unTy op t = some u) (hs : unSpan oc op (kindOf (some t)) p = some s) : Yields (Good F sch u s) (rtUn oc op v) := by
  cases op with
  | negate =>
    cases t <;> simp [unTy] at ht
    rename_i k
    obtain ⟨n, rfl, hn⟩ := hv.int_inv
    obtain ⟨hk, rfl⟩ := ht
    obtain ⟨m, hm, hsm⟩ := arith_has (n := -n) hs fun e he => neg_has he hn
    refine ⟨.int ⟨k, m⟩, ?_, .int hsm⟩
    simp only [kindOf] at hm
    simp only [rtUn, hk, if_true, CInt.neg, hm, liftC]
    rfl
  | not =>
    cases t <;> simp [unTy] at ht
    obtain ⟨b, rfl⟩ := hv.bool_inv
    subst ht
    exact yields_ok good_bool
  | bitNot =>
    cases t <;> simp [unTy] at ht
    obtain ⟨n, rfl, hn⟩ := hv.int_inv
    subst ht
    cases hs
    exact ⟨_, rfl, .int (of_has.2 (Scalar.wrap_inRange _ _))⟩

theorem castSrc_yields {src : CastSrc} {t : RTy} {k : Scalar} {p : NumRange} {v : Val} (hv : Good F sch t p v)
    (hk : castKind sch src t = some k) :
    Yields (fun i : CInt => i.kind = k ∧ (castSpan src k p).has i.val) (rtCastSrc src v) := by
  cases src with
  | plain =>
    cases t <;> simp [castKind] at hk
    obtain ⟨n, rfl, hn⟩ := hv.int_inv
    exact yields_ok ⟨hk, hn⟩
  | enum_ =>
    cases t with
    | named n =>
      simp only [castKind, bodyOf] at hk
      split at hk
      · rename_i m en hb
        split at hk
        · rename_i hm
          subst hm
          cases hk
          cases hv with
          | other _ hv =>
          cases hv with
          | enm g1 g2 g3 g4 =>
            simp only [g1, Option.map_some, Option.some.injEq] at hb
            rw [g2] at hb
            cases hb
            exact yields_ok ⟨rfl, of_has.2 (g4 rfl)⟩
          | newtype g1 g2 _ => simp [g1, g2] at hb
          | struct g1 g2 _ => simp [g1, g2] at hb
          | variant g1 g2 _ _ _ => simp [g1, g2] at hb
          | variantS g1 g2 _ _ _ => simp [g1, g2] at hb
          | bits g1 g2 _ => simp [g1, g2] at hb
        · cases hk
      · cases hk
    | _ => simp [castKind] at hk
  | bitfield =>
    cases t with
    | named n =>
      simp only [castKind, bodyOf] at hk
      split at hk
      · rename_i m en hb
        split at hk
        · rename_i hm
          subst hm
          cases hk
          cases hv with
          | other _ hv =>
          cases hv with
          | bits g1 g2 g3 =>
            simp only [g1, Option.map_some, Option.some.injEq] at hb
            rw [g2] at hb
            cases hb
            exact yields_ok ⟨rfl, of_has.2 (g3 rfl)⟩
          | newtype g1 g2 _ => simp [g1, g2] at hb
          | struct g1 g2 _ => simp [g1, g2] at hb
          | variant g1 g2 _ _ _ => simp [g1, g2] at hb
          | variantS g1 g2 _ _ _ => simp [g1, g2] at hb
          | enm g1 g2 _ _ => simp [g1, g2] at hb
        · cases hk
      · cases hk
    | _ => simp [castKind] at hk

theorem castTo_yields {ty : CastTy} {t : RTy} {p : NumRange} (ht : castTo ty = some t) {i : CInt} (hi : p.has i.val) :
    Yields (Good F sch t (toSpan ty p)) (rtCastTo i ty) := by
  cases ty with
  | scalar k =>
    cases ht
    refine ⟨_, rfl, ?_⟩
    unfold CInt.castTo
    refine .int ?_
    simp only [toSpan]
    split
    · rename_i hf
      rw [Scalar.wrap_eq_self _ _ (fits_has hf hi)]
      exact hi
    · exact of_has.2 (Scalar.wrap_inRange _ _)
  | other => cases ht

theorem look_yields {o : Option RTy} {w : Option Val} {t : RTy} (h : o = some t)
    (hl : ∀ t, o = some t → ∃ v, w = some v ∧ Belongs F sch true t v) :
    Yields (Good F sch t (.of (kindOf o))) (optRes w) := by
  obtain ⟨v, rfl, hv⟩ := hl t h
  subst h
  exact yields_ok hv.good

theorem Good.to_any {t : RTy} {s : NumRange} {v : Val} (ht : ∀ k, t ≠ .int k) (h : Good F sch t s v) :
    Belongs F sch true t v := by
  cases h with
  | int _ => exact absurd rfl (ht _)
  | other _ h => exact h

theorem sum_yields : ∀ (xs : List Int) (acc : Int), Scalar.u64.InRange acc →
    ∃ m, (xs.foldlM (fun acc x => CInt.arith false .u64 (acc + Scalar.u64.wrap x) |>.map CInt.val) acc)
      = (.ok m : CRes Int) ∧ Scalar.u64.InRange m
  | [], acc, h => ⟨acc, rfl, h⟩
  | x :: xs, acc, h => by
    rw [List.foldlM_cons]
    cases e : CInt.arith false .u64 (acc + Scalar.u64.wrap x) with
    | ok c =>
      have hk := CInt.arith_ok e
      have : Scalar.u64.InRange c.val := by
        have := hk.2; unfold CInt.Ok at this; rw [hk.1] at this; exact this
      exact sum_yields xs c.val this
    | error f =>
      unfold CInt.arith at e
      split at e
      · cases e
      · cases e

theorem ints_yields {k : Scalar} : ∀ {vs : List Val}, (∀ v ∈ vs, Belongs F sch true (.int k) v) →
    Yields (fun _ => True) (intsOf vs)
  | [], _ => ⟨[], rfl, trivial⟩
  | v :: vs, h => by
    obtain ⟨n, rfl, _⟩ := (h v (by simp)).good.int_inv
    obtain ⟨xs, hxs, _⟩ := ints_yields (vs := vs) fun v hv => h v (by simp [hv])
    refine ⟨n :: xs, ?_, trivial⟩
    unfold intsOf at hxs ⊢
    rw [List.mapM_cons, hxs]
    rfl

theorem unSpan_plain {oc : Bool} {Γ : TCtx} {op : UnOp} {e : Expr} (he : ∀ s x t, e ≠ .cast s x t) :
    exprSpan sch oc Γ (.unary op e)
      = (exprSpan sch oc Γ e >>= fun a => unSpan oc op (kindOf (eTy sch oc Γ e)) a) := by
  cases e <;> first | exact absurd rfl (he _ _ _) | rfl

/-- **Soundness of the bounds.** An expression with a type and bounds always has a value, of the type and
within the bounds. -/
theorem span_sound {oc : Bool} {Γ : TCtx} {lk : Look} (hlk : LookRanged F sch Γ lk) :
    ∀ (e : Expr) (t : RTy) (s : NumRange), eTy sch oc Γ e = some t → exprSpan sch oc Γ e = some s →
      Yields (Good F sch t s) (runE oc lk e)
  | .binary op l r, t, s, ht0, h0 => by
    have ht := ht0
    simp only [exprSpan, ht0] at h0
    obtain ⟨p, hp, h1⟩ := obind_some h0
    obtain ⟨q, hq, h⟩ := obind_some h1
    clear h0 h1 ht0
    simp only [eTy] at ht
    obtain ⟨a, ha, ht1⟩ := obind_some ht
    obtain ⟨b, hb, htt⟩ := obind_some ht1
    clear ht ht1
    have ihl := span_sound hlk l _ _ ha hp
    have ihr := span_sound hlk r _ _ hb hq
    by_cases h1 : op = .or
    · subst h1
      simp only [binTy] at htt
      split at htt
      · rename_i hab
        obtain ⟨rfl, rfl⟩ := hab
        cases htt
        simp only [runE, evalE]
        refine ihl.bind fun v hv => ?_
        obtain ⟨x, rfl⟩ := hv.bool_inv
        cases x
        · refine ihr.bind fun w hw => ?_
          obtain ⟨y, rfl⟩ := hw.bool_inv
          exact yields_ok good_bool
        · exact yields_ok good_bool
      · cases htt
    by_cases h2 : op = .and
    · subst h2
      simp only [binTy] at htt
      split at htt
      · rename_i hab
        obtain ⟨rfl, rfl⟩ := hab
        cases htt
        simp only [runE, evalE]
        refine ihl.bind fun v hv => ?_
        obtain ⟨x, rfl⟩ := hv.bool_inv
        cases x
        · exact yields_ok good_bool
        · refine ihr.bind fun w hw => ?_
          obtain ⟨y, rfl⟩ := hw.bool_inv
          exact yields_ok good_bool
      · cases htt
    by_cases h3 : op = .elvis
    · subst h3
      simp only [binTy] at htt
      split at htt
      · rename_i hab
        subst hab
        cases htt
        cases h
        simp only [runE, evalE]
        refine ihl.bind fun v hv => ihr.bind fun w hw => ?_
        cases hv with
        | other _ hv =>
        cases hv with
        | none => exact yields_ok (hw.widen fun n => join_right)
        | some hx => exact yields_ok (hx.good.widen fun n => join_left)
      · cases htt
    have hs : op ≠ .shrSigned := by rintro rfl; cases htt
    have he : runE oc lk (.binary op l r) = (runE oc lk l >>= fun a => runE oc lk r >>= fun b => rtBin oc op a b) := by
      cases op <;> simp_all [runE, evalE]
    rw [he]
    exact ihl.bind fun v hv => ihr.bind fun w hw => rtBin_yields hv hw htt h h1 h2 h3
  | .unary op e, t, s, ht, h0 => by
    by_cases hc : ∃ s x ty, e = .cast s x ty
    · obtain ⟨src, x, ty, rfl⟩ := hc
      simp only [eTy] at ht
      obtain ⟨a, ha, ht1⟩ := obind_some ht
      obtain ⟨k, hk, ht2⟩ := obind_some ht1
      obtain ⟨u, hu, htt⟩ := obind_some ht2
      clear ht ht1 ht2
      simp only [exprSpan] at h0
      obtain ⟨p, hp, h1⟩ := obind_some h0
      obtain ⟨q, hq, h⟩ := obind_some h1
      clear h0 h1
      have hok : operandKind sch src (eTy sch oc Γ x) = k := by simp [operandKind, ha, hk]
      rw [hok] at hq
      cases u with
      | int ku =>
        cases h
        simp only [runE, evalE, if_true]
        refine (span_sound hlk x _ _ ha hp).bind fun v hv => (castSrc_yields hv hk).bind fun i hi => ?_
        have hiv : Good F sch (.int k) (castSpan src k p) (.int i) := by
          obtain ⟨ki, n⟩ := i
          obtain ⟨h1, h2⟩ := hi
          simp only at h1; subst h1; exact .int h2
        refine (rtUn_yields (oc := oc) hiv hu hq).bind fun w hw => ?_
        obtain ⟨m, rfl, hm⟩ := hw.int_inv
        exact castTo_yields htt hm
      | _ => cases htt
    · have hc' : ∀ s x t, e ≠ .cast s x t := fun s x t he => hc ⟨s, x, t, he⟩
      rw [unTy_plain hc'] at ht
      rw [unary_plain hc']
      rw [unSpan_plain hc'] at h0
      obtain ⟨a, ha, htt⟩ := obind_some ht
      obtain ⟨p, hp, h⟩ := obind_some h0
      rw [ha] at h
      exact (span_sound hlk e _ _ ha hp).bind fun v hv => rtUn_yields hv htt h
  | .cast src x ty, t, s, ht, h0 => by
    simp only [eTy] at ht
    obtain ⟨a, ha, ht1⟩ := obind_some ht
    obtain ⟨k, hk, htt⟩ := obind_some ht1
    simp only [exprSpan] at h0
    obtain ⟨p, hp, h⟩ := obind_some h0
    have hok : operandKind sch src (eTy sch oc Γ x) = k := by simp [operandKind, ha, hk]
    rw [hok] at h
    cases h
    simp only [runE, evalE]
    exact (span_sound hlk x _ _ ha hp).bind fun v hv => (castSrc_yields hv hk).bind fun i hi => castTo_yields htt hi.2
  | .index _ _, t, s, ht, h => by cases h
  | .enumAccess en va value, t, s, h, h0 => by
    simp only [eTy] at h
    simp only [runE, evalE]
    simp only [exprSpan] at h0
    split at h
    · rename_i m d r hb hr
      simp only [hr] at h0 ⊢
      split at h0
      · rename_i hrange
        split at h
        · rename_i hc
          obtain ⟨rfl, h2, h3⟩ := hc
          cases h
          obtain ⟨dd, hd, hdb⟩ := bodyOf_some hb
          obtain ⟨rk, rv⟩ := r
          simp only at h2 h3
          subst h3
          exact yields_ok (.other (fun k hk => by cases hk) (Belongs.enm hd hdb h2 fun _ => hrange))
        · cases h
      · cases h0
    · cases h
  | .int v, t, s, h, h0 => by
    cases h; cases h0
    exact yields_ok (.int ⟨Int.le_refl _, fun h hh => by cases hh; exact Int.le_refl _⟩)
  | .constRef n _, t, s, h, h0 => by
    cases h0
    exact look_yields (w := lk.input n) h fun t ht => hlk.2 n t ht
  | .inputRef n, t, s, h, h0 => by
    cases h0
    exact look_yields (w := lk.input n) h fun t ht => hlk.2 n t ht
  | .fieldRef n, t, s, h, h0 => by
    cases h0
    exact look_yields (w := lk.field n) h fun t ht => hlk.1 n t ht
  | .str s, t, _, h, _ => by
    cases h
    refine yields_ok (.other (fun k hk => by cases hk) (Belongs.vec fun v hv => ?_))
    obtain ⟨b, _, rfl⟩ := List.mem_map.1 hv
    refine Belongs.int fun _ => ?_
    have := b.toNat_lt
    simp only [Scalar.InRange, Scalar.min, Scalar.max]
    exact ⟨Int.natCast_nonneg _, by show (b.toNat : Int) ≤ 2 ^ 8 - 1; omega⟩
  | .ternary c x y, t, s, ht, h0 => by
    simp only [eTy] at ht
    obtain ⟨a, ha, h1⟩ := obind_some ht
    obtain ⟨b, hb, h2⟩ := obind_some h1
    obtain ⟨d, hd, htt⟩ := obind_some h2
    clear ht h1 h2
    simp only [exprSpan] at h0
    obtain ⟨p, hp, h1⟩ := obind_some h0
    obtain ⟨q, hq, h2⟩ := obind_some h1
    obtain ⟨o, ho, h⟩ := obind_some h2
    clear h0 h1 h2
    cases h
    split at htt
    · rename_i hc
      obtain ⟨rfl, rfl⟩ := hc
      cases htt
      simp only [runE, evalE]
      refine (span_sound hlk c _ _ ha hp).bind fun v hv => ?_
      obtain ⟨z, rfl⟩ := hv.bool_inv
      cases z
      · obtain ⟨v, e, hv⟩ := span_sound hlk y _ _ hd ho
        exact ⟨v, e, hv.widen fun n => join_right⟩
      · obtain ⟨v, e, hv⟩ := span_sound hlk x _ _ hb hq
        exact ⟨v, e, hv.widen fun n => join_left⟩
    · cases htt
  | .bool b, t, s, h, _ => by cases h; exact yields_ok good_bool
  | .len fixed e, t, s, h, h0 => by
    simp only [runE, evalE, lenFn]
    cases fixed with
    | some n =>
      cases h; cases h0
      exact yields_ok (.int ⟨Int.le_refl _, fun h hh => by cases hh; exact Int.le_refl _⟩)
    | none =>
      simp only [eTy] at h
      obtain ⟨a, ha, h1⟩ := obind_some h
      simp only [exprSpan] at h0
      obtain ⟨p, hp, h2⟩ := obind_some h0
      cases h2
      refine (span_sound hlk e _ _ ha hp).bind fun v hv => ?_
      have hv := hv.belongs
      cases hv <;> simp only at h1 <;> first
        | (cases h1; exact ⟨_, rfl, .int ⟨Int.natCast_nonneg _, fun h hh => by cases hh⟩⟩)
        | cases h1
  | .blen _, t, s, h, _ => by cases h
  | .sum e, t, s, ht, h0 => by
    simp only [eTy] at ht
    obtain ⟨a, ha, htt⟩ := obind_some ht
    simp only [exprSpan] at h0
    obtain ⟨p, hp, h⟩ := obind_some h0
    simp only [runE, evalE]
    refine (span_sound hlk e _ _ ha hp).bind fun v hv => ?_
    split at htt
    · cases htt
      cases oc
      · cases h
        have hv := hv.to_any fun k hk => by cases hk
        cases hv with
        | vec hvs =>
          simp only
          refine (ints_yields hvs).bind fun xs _ => ?_
          obtain ⟨m, hm, hr⟩ := sum_yields xs 0 (by decide)
          refine ⟨.int ⟨.u64, m⟩, ?_, .int (of_has.2 hr)⟩
          simp only [sumFn, hm, liftC]
          rfl
      · cases h
    · cases htt
  | .bits e, t, s, ht, h0 => by
    simp only [eTy] at ht
    obtain ⟨a, ha, htt⟩ := obind_some ht
    simp only [exprSpan] at h0
    obtain ⟨p, hp, h⟩ := obind_some h0
    cases h
    simp only [runE, evalE]
    refine (span_sound hlk e _ _ ha hp).bind fun v hv => ?_
    split at htt
    · rename_i hc
      subst hc
      cases htt
      obtain ⟨n, rfl, hn⟩ := hv.int_inv
      exact ⟨_, rfl, .int (of_has.2 (Scalar.wrap_inRange _ _))⟩
    · cases htt
  | .pad p b, t, s, ht, h0 => by
    simp only [eTy] at ht
    obtain ⟨a, ha, h1⟩ := obind_some ht
    obtain ⟨d, hd, htt⟩ := obind_some h1
    clear ht h1
    simp only [exprSpan] at h0
    obtain ⟨x, hx, h1⟩ := obind_some h0
    obtain ⟨y, hy, h⟩ := obind_some h1
    clear h0 h1
    simp only [runE, evalE]
    refine (span_sound hlk b _ _ hd hy).bind fun v hv => (span_sound hlk p _ _ ha hx).bind fun w hw => ?_
    split at htt
    · rename_i hc
      obtain ⟨rfl, rfl⟩ := hc
      cases htt
      split at h
      · rename_i hpos
        cases h
        obtain ⟨n, rfl, hn⟩ := hv.int_inv
        obtain ⟨m, rfl, hm⟩ := hw.int_inv
        have hm1 := hm.1
        have key : ∃ z, padFn m.toNat n.toNat = .ok z ∧ (z : Int) ≤ m := by
          unfold padFn
          rw [if_neg (by omega)]
          split
          · exact ⟨0, rfl, by omega⟩
          · exact ⟨_, rfl, by omega⟩
        obtain ⟨z, hz, hzm⟩ := key
        refine ⟨.int ⟨.u64, z⟩, ?_, .int ⟨Int.natCast_nonneg _, fun h hh => Int.le_trans hzm (hm.2 h hh)⟩⟩
        simp only [Val.toU64]
        show (liftC (padFn m.toNat n.toNat) >>= _) = _
        rw [hz]
        rfl
      · cases h
    · cases htt
  | .member e f value, t, s, ht, h0 => by
    simp only [eTy] at ht
    obtain ⟨a, ha, h⟩ := obind_some ht
    simp only [exprSpan] at h0
    obtain ⟨p, hp, h1⟩ := obind_some h0
    clear h0 h1
    simp only [runE, evalE]
    refine (span_sound hlk e _ _ ha hp).bind fun v hv => ?_
    split at h
    · rename_i n
      split at h
      · rename_i m bf c hb hcv
        split at h
        · rename_i hc
          obtain ⟨rfl, hk⟩ := hc
          cases h
          obtain ⟨x, rfl⟩ := inv_named_bits hb hv.belongs
          simp only [hcv]
          obtain ⟨ck, cv⟩ := c
          simp only at hk
          subst hk
          obtain ⟨y, hy, _⟩ := bitop_yields bf.rep.scalar Nat.land x cv
          refine ⟨.bool (y != 0), ?_, good_bool⟩
          simp only [CInt.band, hy, liftC]
          rfl
        · cases h
      · cases h
    · cases h
termination_by e => sizeOf e
decreasing_by all_goals (subst_vars; simp; try omega)

end Verif
