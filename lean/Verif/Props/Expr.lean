import Verif.ExprLemmas
import Verif.Props.Const
import Verif.Props.Prelude
/-!
# Properties C39 and C48: what emitted expressions compute

`Denotes lk e v` is the meaning of an expression, over mathematical integers, written without
reference to the evaluator. The theorems compare it with `runE true`, the Rust expression that
`emit_expression` writes, run by a build with overflow checks.
-/
namespace Verif.Props

/-- Spec: equality of two values of one comparable type. -/
inductive Equal : Val → Val → Bool → Prop
  | int {k a b} : Equal (.int ⟨k, a⟩) (.int ⟨k, b⟩) (decide (a = b))
  | bool {a b} : Equal (.bool a) (.bool b) (decide (a = b))
  | enm {n a b i j} : Equal (.enm n a i) (.enm n b j) (decide (a = b))
  | bits {n a b} : Equal (.bits n a) (.bits n b) (decide (a.val = b.val))
  | str {a b} : Equal (.str a) (.str b) (decide (a = b))

/-- Spec: an order comparison of two integers. -/
def Compares : BinOp → Int → Int → Bool → Prop
  | .lt, a, b, r => r = decide (a < b)
  | .gt, a, b, r => r = decide (b < a)
  | .lte, a, b, r => r = decide (a ≤ b)
  | .gte, a, b, r => r = decide (b ≤ a)
  | _, _, _, _ => False

/-- Spec: the number a cast starts from: the number itself, the number of an enum variant, the bits
of a bitfield. -/
inductive Number : CastSrc → Val → CInt → Prop
  | plain {i} : Number .plain (.int i) i
  | enum_ {n v r} : Number .enum_ (.enm n v r) r
  | bitfield {n i} : Number .bitfield (.bits n i) i

/-- Spec: how many elements an array has, how many bytes of UTF-8 a string has. -/
inductive Size : Val → Nat → Prop
  | arr {vs} : Size (.arr vs) vs.length
  | str {s : String} : Size (.str s) s.utf8ByteSize

/-- Spec: the meaning of an expression. Arithmetic is exact in the type of the left operand
(`Exact`); `&&`, `||`, `?:` and the ternary evaluate only the operand they need; a cast keeps the
value modulo `2^bits`. -/
inductive Denotes (lk : Look) : Expr → Val → Prop
  | int {v} : Denotes lk (.int v) (.int v)
  | bool {b} : Denotes lk (.bool b) (.bool b)
  | str {s} : Denotes lk (.str s) (.arr (s.map fun b => .int ⟨.u8, b.toNat⟩))
  | field {n v} : lk.field n = some v → Denotes lk (.fieldRef n) v
  | input {n v} : lk.input n = some v → Denotes lk (.inputRef n) v
  | const {n e v} : Denotes lk e v → Denotes lk (.constRef n e) v
  | variant {en va e r} : constEval true e = .ok (.int r) →
      Denotes lk (.enumAccess en va e) (.enm en (.unit va) r)
  | intop {op l r k k' a b n} : IntOp op → (k' = k ∨ op = .shl ∨ op = .shr ∨ op = .shrSigned) →
      Denotes lk l (.int ⟨k, a⟩) → Denotes lk r (.int ⟨k', b⟩) → Exact op k a b n →
      Denotes lk (.binary op l r) (.int ⟨k, n⟩)
  | rel {op l r k a b x} : Denotes lk l (.int ⟨k, a⟩) → Denotes lk r (.int ⟨k, b⟩) →
      Compares op a b x → Denotes lk (.binary op l r) (.bool x)
  | eq {l r a b x} : Denotes lk l a → Denotes lk r b → Equal a b x →
      Denotes lk (.binary .eq l r) (.bool x)
  | ne {l r a b x} : Denotes lk l a → Denotes lk r b → Equal a b x →
      Denotes lk (.binary .ne l r) (.bool (!x))
  | orTrue {l r} : Denotes lk l (.bool true) → Denotes lk (.binary .or l r) (.bool true)
  | orFalse {l r b} : Denotes lk l (.bool false) → Denotes lk r (.bool b) →
      Denotes lk (.binary .or l r) (.bool b)
  | andFalse {l r} : Denotes lk l (.bool false) → Denotes lk (.binary .and l r) (.bool false)
  | andTrue {l r b} : Denotes lk l (.bool true) → Denotes lk r (.bool b) →
      Denotes lk (.binary .and l r) (.bool b)
  | present {l r v} : Denotes lk l (.opt (some v)) → Denotes lk (.binary .elvis l r) v
  | absent {l r v} : Denotes lk l (.opt none) → Denotes lk r v → Denotes lk (.binary .elvis l r) v
  | neg {e k a} : Denotes lk e (.int ⟨k, a⟩) → k.signed = true → k.InRange (-a) →
      Denotes lk (.unary .negate e) (.int ⟨k, -a⟩)
  | not {e b} : Denotes lk e (.bool b) → Denotes lk (.unary .not e) (.bool (!b))
  | bitNot {e k a n} : Denotes lk e (.int ⟨k, a⟩) → k.InRange n →
      (∀ i < k.bits, bitAt n i = !bitAt a i) → Denotes lk (.unary .bitNot e) (.int ⟨k, n⟩)
  | cast {src e v i k n} : Denotes lk e v → Number src v i → k.InRange n →
      (∃ m : Int, n = i.val + m * 2 ^ k.bits) → Denotes lk (.cast src e (.scalar k)) (.int ⟨k, n⟩)
  | index {a i vs k n v} : Denotes lk a (.arr vs) → Denotes lk i (.int ⟨k, (n : Nat)⟩) →
      vs[n]? = some v → Denotes lk (.index a i) v
  | ternaryTrue {c t f v} : Denotes lk c (.bool true) → Denotes lk t v → Denotes lk (.ternary c t f) v
  | ternaryFalse {c t f v} : Denotes lk c (.bool false) → Denotes lk f v → Denotes lk (.ternary c t f) v
  | lenFixed {n e} : Denotes lk (.len (some n) e) (.int ⟨.u64, n⟩)
  | len {e v n} : Denotes lk e v → Size v n → Denotes lk (.len none e) (.int ⟨.u64, n⟩)
  | sum {e} {ns : List CInt} {s : Int} : Denotes lk e (.arr (ns.map .int)) →
      s = (ns.map fun n => Scalar.u64.wrap n.val).sum → Scalar.u64.InRange s →
      Denotes lk (.sum e) (.int ⟨.u64, s⟩)
  | bits {e n} : Denotes lk e (.int ⟨.u64, n⟩) →
      Denotes lk (.bits e) (.int ⟨.u8, ((List.range 64).filter (bitAt n)).length⟩)
  | pad {p b} {np nb r : Nat} : Denotes lk p (.int ⟨.u64, np⟩) → Denotes lk b (.int ⟨.u64, nb⟩) →
      0 < np → np ∣ nb + r → (∀ m, np ∣ m → nb ≤ m → nb + r ≤ m) →
      Denotes lk (.pad p b) (.int ⟨.u64, r⟩)
  | member {e f c n k a b x} : Denotes lk e (.bits n ⟨k, a⟩) → constEval true c = .ok (.int ⟨k, b⟩) →
      (x = true ↔ ∃ i < k.bits, bitAt a i = true ∧ bitAt b i = true) →
      Denotes lk (.member e f c) (.bool x)

/-- Spec: expressions whose emitted Rust is free of the recorded defects: no `>>>`, no operator
applied directly to a cast, no array index, no named constant; `blen` only means something to the
encoder generator. -/
def Emittable : Expr → Prop
  | .binary op l r => op ≠ .shrSigned ∧ Emittable l ∧ Emittable r
  | .unary _ e => (∀ src a ty, e ≠ .cast src a ty) ∧ Emittable e
  | .cast _ e _ => Emittable e
  | .index _ _ | .constRef _ _ | .blen _ => False
  | .ternary c t f => Emittable c ∧ Emittable t ∧ Emittable f
  | .len _ e | .sum e | .bits e | .member e _ _ => Emittable e
  | .pad p b => Emittable p ∧ Emittable b
  | _ => True

/-- Spec: integers fit their type and lengths fit 64 bits, as for every Rust value. -/
inductive Sane : Val → Prop
  | int {i : CInt} : i.Ok → Sane (.int i)
  | bool {b} : Sane (.bool b)
  | flt {d p} : Sane (.flt d p)
  | str {s : String} : s.utf8ByteSize < 2 ^ 64 → Sane (.str s)
  | arr {vs} : vs.length < 2 ^ 64 → (∀ v ∈ vs, Sane v) → Sane (.arr vs)
  | none : Sane (.opt none)
  | some {v} : Sane v → Sane (.opt (some v))
  | enm {n v r} : Sane (.enm n v r)
  | bits {n} {i : CInt} : Sane (.bits n i)
  | struct {n fs} : Sane (.struct n fs)
  | newtype {n v} : Sane (.newtype n v)
  | variant {n d v} : Sane (.variant n d v)
  | variantS {n d fs} : Sane (.variantS n d fs)

/-- Spec: every value the expression can look up is a Rust value. -/
def SaneLook (lk : Look) : Prop :=
  (∀ n v, lk.field n = some v → Sane v) ∧ (∀ n v, lk.input n = some v → Sane v)

/-- Spec: every literal fits its type, and so do the lengths written in or inferred from the schema. -/
def SaneLits (e : Expr) : Prop :=
  (∀ v, Expr.int v ∈ subs e → v.Ok) ∧ (∀ s, Expr.str s ∈ subs e → s.length < 2 ^ 64) ∧
  (∀ n a, Expr.len (some n) a ∈ subs e → n < 2 ^ 64)

private theorem SaneLits.of {e a : Expr} (h : SaneLits e) (hs : ∀ x ∈ subs a, x ∈ subs e) : SaneLits a :=
  ⟨fun v hv => h.1 v (hs _ hv), fun s hv => h.2.1 s (hs _ hv), fun n x hv => h.2.2 n x (hs _ hv)⟩

/-! ## Operators on values -/

private theorem liftC_ok {α} {x : CRes α} {a : α} : liftC x = .ok a ↔ x = .ok a := by
  cases x with
  | ok b => simp [liftC]
  | error e => cases e <;> simp [liftC]

private theorem toInt_ok {v : Val} {i : CInt} : v.toInt = .ok i ↔ v = .int i := by
  cases v <;> simp [Val.toInt]

private theorem toU64_ok {v : Val} {i : CInt} : v.toU64 = .ok i ↔ ∃ n, v = .int ⟨.u64, n⟩ ∧ i = ⟨.u64, n⟩ := by
  cases v with
  | int j =>
    obtain ⟨k, n⟩ := j
    cases k <;> simp [Val.toU64, eq_comm]
  | _ => simp [Val.toU64]

private theorem toBool_ok {v : Val} {b : Bool} : v.toBool = .ok b ↔ v = .bool b := by
  cases v <;> simp [Val.toBool]

private theorem arith_iff {l r v : Val} (f : CInt → CInt → CRes CInt) :
    ((do let a ← l.toInt; let b ← r.toInt; let x ← liftC (f a b); .ok (.int x)) : Res Val) = .ok v ↔
      ∃ a b n, l = .int a ∧ r = .int b ∧ v = .int n ∧ f a b = .ok n := by
  simp only [bind_ok, toInt_ok, liftC_ok, Except.ok.injEq]
  constructor
  · rintro ⟨a, h1, b, h2, n, h3, rfl⟩; exact ⟨a, b, n, h1, h2, rfl, h3⟩
  · rintro ⟨a, b, n, h1, h2, rfl, h3⟩; exact ⟨a, h1, b, h2, n, h3, rfl⟩

private theorem const_arith {f : CInt → CInt → CRes CInt} {a b n : CInt} :
    ((do let l ← CVal.toInt (.int a); let r ← CVal.toInt (.int b); let v ← f l r; .ok (.int v)) : CRes CVal) =
      .ok (.int n) ↔ f a b = .ok n := by
  simp [bind_ok, CVal.toInt]

private theorem shift_iff {left : Bool} {a b n : CInt} : rtShift true left a b = .ok n ↔
    (if left then CInt.shl true else CInt.shr true) a ⟨a.kind, b.val⟩ = .ok n := by
  unfold rtShift
  cases left <;> simp only [if_true, Bool.false_eq_true, if_false, CInt.shl, CInt.shr, bind_ok, liftC_ok,
    Except.ok.injEq]

/-- The integer operators of the emitted code are exact or fail. -/
theorem rtBin_int {op : BinOp} (hop : IntOp op) {l r v : Val} (hl : Sane l) :
    rtBin true op l r = .ok v ↔ ∃ k k' a b n, l = .int ⟨k, a⟩ ∧ r = .int ⟨k', b⟩ ∧
      v = .int ⟨k, n⟩ ∧ (k' = k ∨ op = .shl ∨ op = .shr ∨ op = .shrSigned) ∧ Exact op k a b n := by
  have key : ∀ (f : CInt → CInt → CRes CInt), (∀ a b, constBin true op (.int a) (.int b) =
      (do let l ← CVal.toInt (.int a); let r ← CVal.toInt (.int b); let v ← f l r; .ok (.int v))) →
      (op ≠ .shl ∧ op ≠ .shr ∧ op ≠ .shrSigned) →
      (((do let a ← l.toInt; let b ← r.toInt; let x ← liftC (f a b); .ok (.int x)) : Res Val) = .ok v ↔
        ∃ k k' a b n, l = .int ⟨k, a⟩ ∧ r = .int ⟨k', b⟩ ∧ v = .int ⟨k, n⟩ ∧
          (k' = k ∨ op = .shl ∨ op = .shr ∨ op = .shrSigned) ∧ Exact op k a b n) := by
    intro f hf ho
    rw [arith_iff]
    constructor
    · rintro ⟨a, b, n, rfl, rfl, rfl, h⟩
      have ha : a.Ok := by cases hl; assumption
      have := (const_op_exact_or_refused op hop a b ha n).mp (by rw [hf]; exact const_arith.mpr h)
      obtain ⟨ka, a⟩ := a; obtain ⟨kb, b⟩ := b; obtain ⟨kn, n⟩ := n
      obtain ⟨h1, h2, h3⟩ := this
      simp only at h1 h2 h3
      subst h1 h2
      exact ⟨_, _, a, b, n, rfl, rfl, rfl, .inl rfl, h3⟩
    · rintro ⟨k, k', a, b, n, rfl, rfl, rfl, hk, h⟩
      have ha : CInt.Ok ⟨k, a⟩ := by cases hl; assumption
      have hk : k' = k := by simpa [ho] using hk
      subst hk
      refine ⟨_, _, _, rfl, rfl, rfl, ?_⟩
      have := (const_op_exact_or_refused op hop ⟨k', a⟩ ⟨k', b⟩ ha ⟨k', n⟩).mpr ⟨rfl, rfl, h⟩
      rw [hf] at this
      exact const_arith.mp this
  have keyS : ∀ left : Bool, (∀ a b, constBin true op (.int a) (.int b) =
      (do let l ← CVal.toInt (.int a); let r ← CVal.toInt (.int b);
          let v ← (if left then CInt.shl true else CInt.shr true) l r; .ok (.int v))) →
      (op = .shl ∨ op = .shr ∨ op = .shrSigned) →
      (((do let a ← l.toInt; let b ← r.toInt; let x ← rtShift true left a b; .ok (.int x)) : Res Val) = .ok v ↔
        ∃ k k' a b n, l = .int ⟨k, a⟩ ∧ r = .int ⟨k', b⟩ ∧ v = .int ⟨k, n⟩ ∧
          (k' = k ∨ op = .shl ∨ op = .shr ∨ op = .shrSigned) ∧ Exact op k a b n) := by
    intro left hf ho
    simp only [bind_ok, toInt_ok, Except.ok.injEq, shift_iff]
    constructor
    · rintro ⟨a, rfl, b, rfl, n, h, rfl⟩
      have ha : a.Ok := by cases hl; assumption
      have := (const_op_exact_or_refused op hop a ⟨a.kind, b.val⟩ ha n).mp (by rw [hf]; exact const_arith.mpr h)
      obtain ⟨ka, a⟩ := a; obtain ⟨kb, b⟩ := b; obtain ⟨kn, n⟩ := n
      obtain ⟨h1, h2, h3⟩ := this
      simp only at h1 h2 h3
      subst h2
      exact ⟨_, _, a, b, n, rfl, rfl, rfl, .inr ho, h3⟩
    · rintro ⟨k, k', a, b, n, rfl, rfl, rfl, hk, h⟩
      have ha : CInt.Ok ⟨k, a⟩ := by cases hl; assumption
      refine ⟨_, rfl, _, rfl, _, ?_, rfl⟩
      have := (const_op_exact_or_refused op hop ⟨k, a⟩ ⟨k, b⟩ ha ⟨k, n⟩).mpr ⟨rfl, rfl, h⟩
      rw [hf] at this
      exact const_arith.mp this
  cases op <;> simp only [IntOp] at hop
  case shl => exact keyS true (fun _ _ => rfl) (by simp)
  case shr => exact keyS false (fun _ _ => rfl) (by simp)
  case shrSigned => exact keyS false (fun _ _ => rfl) (by simp)
  all_goals exact key _ (fun _ _ => rfl) (by simp)

/-- The order comparisons of the emitted code. -/
theorem rtBin_rel {op : BinOp} (hop : op = .lt ∨ op = .gt ∨ op = .lte ∨ op = .gte) {l r v : Val} :
    rtBin true op l r = .ok v ↔ ∃ k a b x, l = .int ⟨k, a⟩ ∧ r = .int ⟨k, b⟩ ∧ v = .bool x ∧
      Compares op a b x := by
  have key : ∀ g : Ordering → Bool, (∀ a b, Compares op a b (g (compare a b))) →
      (∀ a b x y, Compares op a b x → Compares op a b y → x = y) →
      (((do let o ← rtCmp l r; .ok (.bool (g o))) : Res Val) = .ok v ↔
      ∃ k a b x, l = .int ⟨k, a⟩ ∧ r = .int ⟨k, b⟩ ∧ v = .bool x ∧ Compares op a b x) := by
    intro g hg hu
    simp only [rtCmp, bind_ok, toInt_ok, Except.ok.injEq]
    constructor
    · rintro ⟨o, ⟨⟨ka, a⟩, rfl, ⟨kb, b⟩, rfl, h⟩, rfl⟩
      by_cases hk : ka = kb
      · subst hk
        simp only [if_true, Except.ok.injEq] at h
        subst h
        exact ⟨ka, a, b, _, rfl, rfl, rfl, hg a b⟩
      · simp [hk] at h
    · rintro ⟨k, a, b, x, rfl, rfl, rfl, h⟩
      refine ⟨compare a b, ⟨_, rfl, _, rfl, by simp⟩, ?_⟩
      rw [hu a b _ x (hg a b) h]
  have hu : ∀ a b x y, Compares op a b x → Compares op a b y → x = y := by
    intro a b x y h1 h2
    rcases hop with rfl | rfl | rfl | rfl <;> (simp only [Compares] at h1 h2; rw [h1, h2])
  have hc : ∀ a b : Int, compare a b = if a < b then .lt else if a = b then .eq else .gt := by
    intro a b; rfl
  rcases hop with rfl | rfl | rfl | rfl <;>
    refine key _ (fun a b => ?_) hu <;>
    (rw [hc]; simp only [Compares]
     by_cases h1 : a < b
     · have h3 : ¬ b < a := by omega
       have h4 : a ≤ b := by omega
       have h5 : ¬ b ≤ a := by omega
       simp [h1, h3, h4, h5] <;> rfl
     · by_cases h2 : a = b
       · subst h2; simp
       · have h3 : b < a := by omega
         have h4 : b ≤ a := by omega
         have h5 : ¬ a ≤ b := by omega
         simp [h1, h2, h3, h4, h5] <;> rfl)

private theorem rtEq_iff {a b : Val} {x : Bool} : rtEq a b = .ok x ↔ Equal a b x := by
  constructor
  · intro h
    unfold rtEq at h
    split at h
    · rename_i i j
      obtain ⟨k, i⟩ := i; obtain ⟨k', j⟩ := j
      by_cases hk : k = k'
      · subst hk; simp at h; subst h; exact .int
      · simp [hk] at h
    · cases h; rename_i a b
      have : (a == b) = decide (a = b) := by cases a <;> cases b <;> rfl
      rw [this]; exact .bool
    · rename_i n a _ m b _
      by_cases hk : n = m
      · subst hk; simp at h; subst h; exact .enm
      · simp [hk] at h
    · rename_i n a m b
      by_cases hk : n = m
      · subst hk; simp at h; subst h; exact .bits
      · simp [hk] at h
    · rename_i a b; cases h
      have : (a == b) = decide (a = b) := by
        by_cases hh : a = b <;> simp [hh]
      rw [this]; exact .str
    · cases h
  · intro h
    cases h
    case bool a b => cases a <;> cases b <;> rfl
    case str a b =>
      show Except.ok (a == b) = _
      by_cases hh : a = b <;> simp [hh]
    all_goals simp [rtEq]

private theorem rtLen_iff {v : Val} {n : Nat} : rtLen v = .ok n ↔ Size v n := by
  have hs : ∀ s : String, (strBytes s).length = s.utf8ByteSize := by
    intro s
    show s.toByteArray.data.toList.length = s.toByteArray.size
    rw [Array.length_toList]; rfl
  constructor
  · intro h
    cases v <;> simp [rtLen] at h
    · subst h; rw [hs]; exact .str
    · subst h; exact .arr
  · intro h
    cases h
    · rfl
    · simp only [rtLen, hs]

private theorem intsOf_iff {vs : List Val} {xs : List Int} :
    intsOf vs = .ok xs ↔ ∃ ns : List CInt, vs = ns.map .int ∧ xs = ns.map CInt.val := by
  unfold intsOf
  induction vs generalizing xs with
  | nil =>
    simp only [List.mapM_nil, pure, Except.pure, Except.ok.injEq]
    constructor
    · rintro rfl; exact ⟨[], rfl, rfl⟩
    · rintro ⟨ns, h, rfl⟩
      cases ns with
      | nil => rfl
      | cons => cases h
  | cons v vs ih =>
    simp only [List.mapM_cons, bind_ok, ih, pure, Except.pure, Except.ok.injEq]
    constructor
    · rintro ⟨n, h1, ys, ⟨ns, rfl, rfl⟩, rfl⟩
      cases v <;> simp [Val.toInt, Except.map] at h1
      rename_i i
      subst h1
      exact ⟨i :: ns, rfl, rfl⟩
    · rintro ⟨ns, h, rfl⟩
      cases ns with
      | nil => cases h
      | cons i ns =>
        simp only [List.map_cons, List.cons.injEq] at h
        obtain ⟨rfl, rfl⟩ := h
        exact ⟨i.val, rfl, _, ⟨ns, rfl, rfl⟩, rfl⟩

private theorem sumFn_iff {xs : List Int} {s : Int} : sumFn true xs = .ok s ↔
    s = (xs.map Scalar.u64.wrap).sum ∧ Scalar.u64.InRange s := by
  have nn : ∀ x, 0 ≤ Scalar.u64.wrap x := fun x => (Scalar.wrap_inRange .u64 x).1
  have nns : ∀ xs : List Int, 0 ≤ (xs.map Scalar.u64.wrap).sum := by
    intro xs
    induction xs with
    | nil => simp
    | cons x xs ih => simp only [List.map_cons, List.sum_cons]; have := nn x; omega
  have key : ∀ (xs : List Int) (acc : Int), Scalar.u64.InRange acc →
      (xs.foldlM (fun acc x => CInt.arith true .u64 (acc + Scalar.u64.wrap x) |>.map CInt.val) acc = .ok s ↔
        s = acc + (xs.map Scalar.u64.wrap).sum ∧ Scalar.u64.InRange s) := by
    intro xs
    induction xs with
    | nil =>
      intro acc ha
      simp only [List.foldlM_nil, pure, Except.pure, Except.ok.injEq, List.map_nil, List.sum_nil, Int.add_zero]
      constructor
      · rintro rfl; exact ⟨rfl, ha⟩
      · rintro ⟨rfl, _⟩; rfl
    | cons x xs ih =>
      intro acc ha
      rw [List.foldlM_cons, List.map_cons, List.sum_cons]
      have h1 := nn x
      have h2 := nns xs
      by_cases h : Scalar.u64.InRange (acc + Scalar.u64.wrap x)
      · have e : (CInt.arith true .u64 (acc + Scalar.u64.wrap x)).map CInt.val = .ok (acc + Scalar.u64.wrap x) := by
          simp [CInt.arith, h, Except.map]
        rw [e, ok_bind, ih _ h, Int.add_assoc]
      · have e : (CInt.arith true .u64 (acc + Scalar.u64.wrap x)).map CInt.val = .error .panic := by
          simp [CInt.arith, h, Except.map]
        rw [e, err_bind]
        constructor
        · intro h; cases h
        · rintro ⟨rfl, h3⟩
          exact absurd ⟨by have := ha.1; show (0 : Int) ≤ _; have : (0 : Int) ≤ acc := this; omega,
            by have := h3.2; omega⟩ h
  have := key xs 0 ⟨by decide, by decide⟩
  rw [Int.zero_add] at this
  exact this

private theorem bitsFn_eq (n : Int) : bitsFn n = ((List.range 64).filter (bitAt n)).length := by
  have h0 := Scalar.toPat_lt .u64 n
  have h1 := bits_counts_ones (Scalar.u64.toPat n) h0
  have h2 : bitsFn (Scalar.u64.toPat n : Int) = bitsFn n := by
    unfold bitsFn
    have : Scalar.u64.toPat (Scalar.u64.toPat n : Int) = Scalar.u64.toPat n := by
      unfold Scalar.toPat
      have hp : (0 : Int) < 2 ^ Scalar.u64.bits := Int.pow_pos (by decide)
      have hn : 0 ≤ n % 2 ^ Scalar.u64.bits := Int.emod_nonneg _ (by omega)
      rw [Int.toNat_of_nonneg hn, Int.emod_emod]
    rw [this]
  rw [← h2, h1]
  unfold onesBelow
  congr 2
  apply List.filter_congr
  intro i hi
  exact testBit_toPat .u64 n i (List.mem_range.mp hi)

private theorem padFn_iff {p b r : Nat} : padFn p b = .ok r ↔
    0 < p ∧ p ∣ b + r ∧ ∀ m, p ∣ m → b ≤ m → b + r ≤ m := by
  have h := pad_aligns p b
  by_cases hp : p = 0
  · rw [h.1 hp]
    constructor
    · intro h; cases h
    · rintro ⟨h, _⟩; omega
  · obtain ⟨r', h1, h2, h3⟩ := h.2 (by omega)
    rw [h1]
    constructor
    · intro h; cases h; exact ⟨by omega, h2, h3⟩
    · rintro ⟨_, h4, h5⟩
      have h6 := h3 _ h4 (by omega)
      have h7 := h5 _ h2 (by omega)
      have : r' = r := by omega
      rw [this]

private theorem padFn_lt {p b r : Nat} (h : padFn p b = .ok r) : r < p := by
  unfold padFn at h
  by_cases hp : p = 0
  · simp [hp] at h
  · simp only [hp, if_false] at h
    by_cases hb : b % p = 0
    · simp [hb] at h; omega
    · simp only [hb, if_false, Except.ok.injEq] at h
      omega

private theorem rtUn_iff {op : UnOp} {v w : Val} : rtUn true op v = .ok w ↔
    (∃ k a, op = .negate ∧ v = .int ⟨k, a⟩ ∧ w = .int ⟨k, -a⟩ ∧ k.signed = true ∧ k.InRange (-a)) ∨
    (∃ b, op = .not ∧ v = .bool b ∧ w = .bool (!b)) ∨
    (∃ k a n, op = .bitNot ∧ v = .int ⟨k, a⟩ ∧ w = .int ⟨k, n⟩ ∧ k.InRange n ∧
      ∀ i < k.bits, bitAt n i = !bitAt a i) := by
  cases op with
  | negate =>
    cases v with
    | int i =>
      obtain ⟨k, a⟩ := i
      by_cases hs : k.signed = true <;> by_cases hr : k.InRange (-a)
      · simp [rtUn, hs, CInt.neg, CInt.arith, hr, liftC, ok_bind]
        constructor
        · rintro rfl; exact ⟨k, a, ⟨rfl, rfl⟩, rfl, hs, hr⟩
        · rintro ⟨k', a', ⟨rfl, rfl⟩, rfl, _⟩; rfl
      · simp [rtUn, hs, CInt.neg, CInt.arith, hr, liftC, err_bind]
      · simp [rtUn, hs]
      · simp [rtUn, hs]
    | _ => simp [rtUn]
  | not =>
    cases v with
    | bool b =>
      simp only [rtUn, Except.ok.injEq, reduceCtorEq, false_and, exists_false, false_or, or_false, true_and, Val.bool.injEq]
      constructor
      · rintro rfl; exact ⟨b, rfl, rfl⟩
      · rintro ⟨_, rfl, rfl⟩; rfl
    | _ => simp [rtUn]
  | bitNot =>
    cases v with
    | int i =>
      obtain ⟨k, a⟩ := i
      simp only [rtUn, CInt.not, liftC, ok_bind, Except.ok.injEq, reduceCtorEq, false_and, exists_false, false_or, true_and,
        Val.int.injEq, CInt.mk.injEq]
      have hb : ∀ i < k.bits, bitAt (k.wrap (-a - 1)) i = !bitAt a i := by
        intro i hi; rw [bitAt_wrap k _ i hi, bitAt_not]
      constructor
      · rintro rfl
        exact ⟨k, a, _, ⟨rfl, rfl⟩, rfl, Scalar.wrap_inRange _ _, hb⟩
      · rintro ⟨k', a', n, ⟨rfl, rfl⟩, rfl, hn, h⟩
        have : k.wrap (-a - 1) = n := eq_of_bits k _ _ (Scalar.wrap_inRange _ _) hn (by
          intro i hi; rw [hb i hi, h i hi])
        rw [this]
    | _ => simp [rtUn]

private theorem castSrc_iff {src : CastSrc} {v : Val} {i : CInt} : rtCastSrc src v = .ok i ↔ Number src v i := by
  constructor
  · intro h
    cases src <;> cases v <;> simp [rtCastSrc] at h <;> subst h <;> constructor
  · intro h; cases h <;> rfl

private theorem castTo_iff {i : CInt} {ty : CastTy} {v : Val} : rtCastTo i ty = .ok v ↔
    ∃ k n, ty = .scalar k ∧ v = .int ⟨k, n⟩ ∧ k.InRange n ∧ ∃ m : Int, n = i.val + m * 2 ^ k.bits := by
  cases ty with
  | other => simp [rtCastTo]
  | scalar k =>
    simp only [rtCastTo, CInt.castTo, Except.ok.injEq, CastTy.scalar.injEq]
    constructor
    · rintro rfl
      exact ⟨k, _, rfl, rfl, Scalar.wrap_inRange _ _, wrap_diff k i.val⟩
    · rintro ⟨k', n, rfl, rfl, hn, hm⟩
      rw [wrap_congr k i.val n hn hm]

private theorem subs_self (e : Expr) : e ∈ subs e := by
  cases e <;> simp [subs]

private theorem exact_range {op k a b n} (h : Exact op k a b n) : k.InRange n := h.1

private theorem memberVal {k a b x} (h : x = true ↔ ∃ i < Scalar.bits k, bitAt a i = true ∧ bitAt b i = true) :
    (k.ofPat (Nat.land (k.toPat a) (k.toPat b)) != 0) = x := by
  have := member_bit k a b
  cases x with
  | true =>
    have h1 := this.mpr (h.mp rfl)
    simpa using h1
  | false =>
    refine Decidable.byContradiction fun hc => ?_
    have h1 : k.ofPat (Nat.land (k.toPat a) (k.toPat b)) ≠ 0 := by simpa using hc
    have := h.mpr (this.mp h1)
    cases this

/-- C39, soundness: whenever the Rust expression emitted for an expression yields a value, that
value is what the expression denotes (and it is again a Rust value). -/
theorem emitted_value_is_meaning {lk : Look} (hlk : SaneLook lk) {e : Expr} (he : Emittable e)
    (hl : SaneLits e) {v : Val} (h : runE true lk e = .ok v) : Denotes lk e v ∧ Sane v := by
  have binStrict : ∀ {op l r v}, op ≠ .or → op ≠ .and → op ≠ .elvis → op ≠ .shrSigned →
      runE true lk (.binary op l r) = .ok v →
      ∃ a b, runE true lk l = .ok a ∧ runE true lk r = .ok b ∧ rtBin true op a b = .ok v := by
    intro op l r v h1 h2 h3 h4 h
    have e : evalE true true lk (.binary op l r) = (do
        let a ← evalE true true lk l
        let b ← evalE true true lk r
        rtBin true op a b) := by
      cases op <;> first | rfl | contradiction
    change evalE true true lk (.binary op l r) = _ at h
    rw [e] at h
    obtain ⟨a, ha, h⟩ := ok_of_bind h
    obtain ⟨b, hb, h⟩ := ok_of_bind h
    exact ⟨a, b, ha, hb, h⟩
  induction e generalizing v with
  | int i => cases h; exact ⟨.int, .int (hl.1 i (by simp [subs]))⟩
  | bool b => cases h; exact ⟨.bool, .bool⟩
  | str s =>
    cases h
    refine ⟨.str, .arr (by simpa using hl.2.1 s (by simp [subs])) ?_⟩
    intro v hv
    simp only [List.mem_map] at hv
    obtain ⟨b, _, rfl⟩ := hv
    refine .int ⟨?_, ?_⟩
    · show (0 : Int) ≤ _; simp
    · show ((b.toNat : Nat) : Int) ≤ 2 ^ 8 - 1
      have := b.toNat_lt; omega
  | fieldRef n => have h := optRes_ok.mp h; exact ⟨.field h, hlk.1 _ _ h⟩
  | inputRef n => have h := optRes_ok.mp h; exact ⟨.input h, hlk.2 _ _ h⟩
  | constRef n e => cases he
  | index a i => cases he
  | blen f => cases he
  | enumAccess en va c =>
    change (match constEval true c with
      | .ok (.int r) => Except.ok (Val.enm en (.unit va) r)
      | _ => Except.error Fault.ill) = _ at h
    split at h
    · rename_i r hr; cases h; exact ⟨.variant hr, .enm⟩
    · cases h
  | binary op l r ihl ihr =>
    have hll : SaneLits l := hl.of fun x hx => by simp [subs, hx]
    have hlr : SaneLits r := hl.of fun x hx => by simp [subs, hx]
    have ihl := @ihl he.2.1 hll
    have ihr := @ihr he.2.2 hlr
    by_cases hor : op = .or
    · subst hor
      obtain ⟨a, ha, h1⟩ := ok_of_bind h
      obtain ⟨x, hx, h2⟩ := ok_of_bind h1
      rw [toBool_ok] at hx
      subst hx
      cases x with
      | true => cases h2; exact ⟨.orTrue (ihl ha).1, .bool⟩
      | false =>
        simp only [Bool.false_eq_true, if_false] at h2
        obtain ⟨b, hb, h3⟩ := ok_of_bind h2
        obtain ⟨y, hy, h4⟩ := ok_of_bind h3
        rw [toBool_ok] at hy
        subst hy
        cases h4
        exact ⟨.orFalse (ihl ha).1 (ihr hb).1, .bool⟩
    by_cases hand : op = .and
    · subst hand
      obtain ⟨a, ha, h1⟩ := ok_of_bind h
      obtain ⟨x, hx, h2⟩ := ok_of_bind h1
      rw [toBool_ok] at hx
      subst hx
      cases x with
      | false => cases h2; exact ⟨.andFalse (ihl ha).1, .bool⟩
      | true =>
        simp only [if_true] at h2
        obtain ⟨b, hb, h3⟩ := ok_of_bind h2
        obtain ⟨y, hy, h4⟩ := ok_of_bind h3
        rw [toBool_ok] at hy
        subst hy
        cases h4
        exact ⟨.andTrue (ihl ha).1 (ihr hb).1, .bool⟩
    by_cases hel : op = .elvis
    · subst hel
      obtain ⟨a, ha, h⟩ := ok_of_bind h
      obtain ⟨b, hb, h⟩ := ok_of_bind h
      have hda := ihl ha
      have hdb := ihr hb
      split at h
      · cases h
        obtain ⟨hda, hsa⟩ := hda
        cases hsa with
        | some hs => exact ⟨.present hda, hs⟩
      · cases h; exact ⟨.absent hda.1 hdb.1, hdb.2⟩
      · cases h
    obtain ⟨a, b, ha, hb, h⟩ := binStrict hor hand hel he.1 h
    have hda := ihl ha
    have hdb := ihr hb
    by_cases hop : IntOp op
    · obtain ⟨k, k', x, y, n, rfl, rfl, rfl, hk, hex⟩ := (rtBin_int hop hda.2).mp h
      exact ⟨.intop hop hk hda.1 hdb.1 hex, .int hex.1⟩
    by_cases hrel : op = .lt ∨ op = .gt ∨ op = .lte ∨ op = .gte
    · obtain ⟨k, x, y, c, rfl, rfl, rfl, hc⟩ := (rtBin_rel hrel).mp h
      exact ⟨.rel hda.1 hdb.1 hc, .bool⟩
    cases op <;> first | (exfalso; simp [IntOp] at hop hrel hor hand hel; done) | skip
    case eq =>
      obtain ⟨x, hx, h⟩ := ok_of_bind h
      cases h
      exact ⟨.eq hda.1 hdb.1 (rtEq_iff.mp hx), .bool⟩
    case ne =>
      obtain ⟨x, hx, h⟩ := ok_of_bind h
      cases h
      exact ⟨.ne hda.1 hdb.1 (rtEq_iff.mp hx), .bool⟩
  | unary op e ih =>
    change evalE true true lk _ = _ at h
    rw [evalE_unary _ _ _ _ _ he.1] at h
    obtain ⟨a, ha, h⟩ := ok_of_bind h
    have hda := ih he.2 (hl.of fun x hx => by simp [subs, hx]) ha
    rcases rtUn_iff.mp h with ⟨k, x, rfl, rfl, rfl, h1, h2⟩ | ⟨b, rfl, rfl, rfl⟩ | ⟨k, x, n, rfl, rfl, rfl, h1, h2⟩
    · exact ⟨.neg hda.1 h1 h2, .int h2⟩
    · exact ⟨.not hda.1, .bool⟩
    · exact ⟨.bitNot hda.1 h1 h2, .int h1⟩
  | cast src e ty ih =>
    obtain ⟨a, ha, h⟩ := ok_of_bind h
    obtain ⟨i, hi, h⟩ := ok_of_bind h
    have hda := ih he (hl.of fun x hx => by simp [subs, hx]) ha
    obtain ⟨k, n, rfl, rfl, h1, h2⟩ := castTo_iff.mp h
    exact ⟨.cast hda.1 (castSrc_iff.mp hi) h1 h2, .int h1⟩
  | ternary c t f ihc iht ihf =>
    obtain ⟨a, ha, h⟩ := ok_of_bind h
    obtain ⟨x, hx, h⟩ := ok_of_bind h
    rw [toBool_ok] at hx
    subst hx
    have hdc := ihc he.1 (hl.of fun x hx => by simp [subs, hx]) ha
    cases x with
    | true =>
      have := iht he.2.1 (hl.of fun x hx => by simp [subs, hx]) h
      exact ⟨.ternaryTrue hdc.1 this.1, this.2⟩
    | false =>
      have := ihf he.2.2 (hl.of fun x hx => by simp [subs, hx]) h
      exact ⟨.ternaryFalse hdc.1 this.1, this.2⟩
  | len fixed e ih =>
    have hlen : ∀ n : Nat, n < 2 ^ 64 → Sane (.int ⟨.u64, n⟩) := by
      intro n hn
      refine .int ⟨?_, ?_⟩
      · show (0 : Int) ≤ (n : Int); omega
      · show (n : Int) ≤ 2 ^ 64 - 1; omega
    cases fixed with
    | some n => cases h; exact ⟨.lenFixed, hlen n (hl.2.2 n e (subs_self _))⟩
    | none =>
      obtain ⟨a, ha, h⟩ := ok_of_bind h
      obtain ⟨n, hn, h⟩ := ok_of_bind h
      cases h
      have hda := ih he (hl.of fun x hx => by simp [subs, hx]) ha
      have hn := rtLen_iff.mp hn
      refine ⟨.len hda.1 hn, hlen n ?_⟩
      obtain ⟨_, hs⟩ := hda
      cases hn <;> cases hs <;> assumption
  | sum e ih =>
    obtain ⟨a, ha, h⟩ := ok_of_bind h
    have hda := ih he (hl.of fun x hx => by simp [subs, hx]) ha
    split at h
    · obtain ⟨xs, hx, h⟩ := ok_of_bind h
      obtain ⟨n, hn, h⟩ := ok_of_bind h
      cases h
      obtain ⟨ns, rfl, rfl⟩ := intsOf_iff.mp hx
      obtain ⟨rfl, hr⟩ := sumFn_iff.mp (liftC_ok.mp hn)
      exact ⟨.sum hda.1 (by rw [List.map_map]; rfl) hr, .int hr⟩
    · cases h
  | bits e ih =>
    obtain ⟨a, ha, h⟩ := ok_of_bind h
    obtain ⟨i, hi, h⟩ := ok_of_bind h
    obtain ⟨n, rfl, rfl⟩ := toU64_ok.mp hi
    cases h
    have hda := ih he (hl.of fun x hx => by simp [subs, hx]) ha
    have hr : Scalar.u8.InRange (bitsFn n) := Scalar.wrap_inRange _ _
    refine ⟨?_, .int hr⟩
    show Denotes lk _ (.int ⟨.u8, bitsFn n⟩)
    rw [bitsFn_eq]
    exact .bits hda.1
  | pad p b ihp ihb =>
    obtain ⟨x, hx, h1⟩ := ok_of_bind h
    obtain ⟨y, hy, h2⟩ := ok_of_bind h1
    obtain ⟨i, hi, h3⟩ := ok_of_bind h2
    obtain ⟨j, hj, h4⟩ := ok_of_bind h3
    obtain ⟨r, hr, h5⟩ := ok_of_bind h4
    obtain ⟨nb, rfl, rfl⟩ := toU64_ok.mp hi
    obtain ⟨np, rfl, rfl⟩ := toU64_ok.mp hj
    cases h5
    clear h h1 h2 h3 h4
    have hdp := ihp he.1 (hl.of fun x hx => by simp [subs, hx]) hy
    have hdb := ihb he.2 (hl.of fun x hx => by simp [subs, hx]) hx
    obtain ⟨hdp, hsp⟩ := hdp
    obtain ⟨hdb, hsb⟩ := hdb
    cases hsp with
    | int hp =>
    cases hsb with
    | int hb =>
    have h0 : (0 : Int) ≤ np := hp.1
    have h1 : np ≤ 2 ^ 64 - 1 := hp.2
    have h2 : (0 : Int) ≤ nb := hb.1
    obtain ⟨np, rfl⟩ := Int.eq_ofNat_of_zero_le h0
    obtain ⟨nb, rfl⟩ := Int.eq_ofNat_of_zero_le h2
    obtain ⟨g1, g2, g3⟩ := padFn_iff.mp (liftC_ok.mp hr)
    refine ⟨.pad hdp hdb g1 g2 g3, .int ⟨?_, ?_⟩⟩
    · show (0 : Int) ≤ (r : Int); omega
    · show (r : Int) ≤ 2 ^ 64 - 1
      have hlt : r < np := by
        have := padFn_lt (liftC_ok.mp hr)
        exact this
      omega
  | member e f c ih _ =>
    obtain ⟨a, ha, h⟩ := ok_of_bind h
    have hda := ih he (hl.of fun x hx => by simp [subs, hx]) ha
    split at h
    · rename_i n x y hc
      obtain ⟨k, x⟩ := x
      obtain ⟨k', y⟩ := y
      obtain ⟨z, hz, h2⟩ := ok_of_bind h
      cases h2
      have hz := liftC_ok.mp hz
      unfold CInt.band CInt.bitop at hz
      by_cases hk : k = k'
      · subst hk
        simp only [if_true, Except.ok.injEq] at hz
        subst hz
        refine ⟨.member hda.1 hc ?_, .bool⟩
        rw [← member_bit]
        simp
      · simp [hk] at hz
    · cases h

/-- Spec: the default of every `?:` in the expression has a value. -/
def Defaults (lk : Look) (e : Expr) : Prop :=
  ∀ l r, Expr.binary .elvis l r ∈ subs e → ∃ w, Denotes lk r w

private theorem Defaults.of {lk : Look} {e a : Expr} (h : Defaults lk e) (hs : ∀ x ∈ subs a, x ∈ subs e) :
    Defaults lk a := fun l r hr => h l r (hs _ hr)

private theorem runE_strict {lk : Look} {op : BinOp} {l r : Expr} (h1 : op ≠ .or) (h2 : op ≠ .and)
    (h3 : op ≠ .elvis) (h4 : op ≠ .shrSigned) : runE true lk (.binary op l r) = (do
        let a ← runE true lk l
        let b ← runE true lk r
        rtBin true op a b) := by
  cases op <;> first | rfl | contradiction

/-- C39, completeness: the Rust expression emitted for an expression yields what the expression
denotes, whenever it denotes something. -/
theorem meaning_is_computed {lk : Look} (hlk : SaneLook lk) {e : Expr} (he : Emittable e)
    (hl : SaneLits e) (hd : Defaults lk e) {v : Val} (h : Denotes lk e v) : runE true lk e = .ok v := by
  induction e generalizing v with
  | int i => cases h; rfl
  | bool b => cases h; rfl
  | str s => cases h; rfl
  | fieldRef n => cases h with | field h => exact optRes_ok.mpr h
  | inputRef n => cases h with | input h => exact optRes_ok.mpr h
  | constRef n e => cases he
  | index a i => cases he
  | blen f => cases he
  | enumAccess en va c =>
    cases h with
    | variant h =>
    show (match constEval true c with
      | .ok (.int r) => Except.ok (Val.enm en (.unit va) r)
      | _ => Except.error Fault.ill) = _
    rw [h]
  | binary op l r ihl ihr =>
    have hll : SaneLits l := hl.of fun x hx => by simp [subs, hx]
    have hlr : SaneLits r := hl.of fun x hx => by simp [subs, hx]
    have ihl := @ihl he.2.1 hll (hd.of fun x hx => by simp [subs, hx])
    have ihr := @ihr he.2.2 hlr (hd.of fun x hx => by simp [subs, hx])
    cases h with
    | @intop _ _ _ k k' a b n hop hk ha hb hex =>
      have hra := ihl ha
      have hsa := (emitted_value_is_meaning hlk he.2.1 hll hra).2
      rw [runE_strict (by rintro rfl; exact hop) (by rintro rfl; exact hop) (by rintro rfl; exact hop) he.1,
        hra, ihr hb]
      exact (rtBin_int hop hsa).mpr ⟨_, _, _, _, _, rfl, rfl, rfl, hk, hex⟩
    | @rel _ _ _ k a b x ha hb hc =>
      have hop : op = .lt ∨ op = .gt ∨ op = .lte ∨ op = .gte := by
        cases op <;> simp [Compares] at hc <;> simp
      rw [runE_strict (by rintro rfl; exact hc) (by rintro rfl; exact hc) (by rintro rfl; exact hc) he.1,
        ihl ha, ihr hb]
      exact (rtBin_rel hop).mpr ⟨_, _, _, _, rfl, rfl, rfl, hc⟩
    | eq ha hb hx =>
      rw [runE_strict (by simp) (by simp) (by simp) (by simp), ihl ha, ihr hb]
      simp only [ok_bind, rtBin, rtEq_iff.mpr hx]
    | ne ha hb hx =>
      rw [runE_strict (by simp) (by simp) (by simp) (by simp), ihl ha, ihr hb]
      simp only [ok_bind, rtBin, rtEq_iff.mpr hx]
    | orTrue ha =>
      show (runE true lk l >>= _) = _
      rw [ihl ha]; rfl
    | orFalse ha hb =>
      show (runE true lk l >>= _) = _
      rw [ihl ha]
      show (runE true lk r >>= _) = _
      rw [ihr hb]; rfl
    | andFalse ha =>
      show (runE true lk l >>= _) = _
      rw [ihl ha]; rfl
    | andTrue ha hb =>
      show (runE true lk l >>= _) = _
      rw [ihl ha]
      show (runE true lk r >>= _) = _
      rw [ihr hb]; rfl
    | present ha =>
      obtain ⟨w, hw⟩ := hd l r (subs_self _)
      show (runE true lk l >>= _) = _
      rw [ihl ha]
      show (runE true lk r >>= _) = _
      rw [ihr hw]; rfl
    | absent ha hb =>
      show (runE true lk l >>= _) = _
      rw [ihl ha]
      show (runE true lk r >>= _) = _
      rw [ihr hb]; rfl
  | unary op e ih =>
    have ih := @ih he.2 (hl.of fun x hx => by simp [subs, hx]) (hd.of fun x hx => by simp [subs, hx])
    show evalE true true lk _ = _
    rw [evalE_unary _ _ _ _ _ he.1]
    cases h with
    | neg h h1 h2 =>
      rw [show evalE true true lk e = _ from ih h]
      exact rtUn_iff.mpr (.inl ⟨_, _, rfl, rfl, rfl, h1, h2⟩)
    | not h =>
      rw [show evalE true true lk e = _ from ih h]
      exact rtUn_iff.mpr (.inr (.inl ⟨_, rfl, rfl, rfl⟩))
    | bitNot h h1 h2 =>
      rw [show evalE true true lk e = _ from ih h]
      exact rtUn_iff.mpr (.inr (.inr ⟨_, _, _, rfl, rfl, rfl, h1, h2⟩))
  | cast src e ty ih =>
    have ih := @ih he (hl.of fun x hx => by simp [subs, hx]) (hd.of fun x hx => by simp [subs, hx])
    cases h with
    | cast h h1 h2 h3 =>
    show (runE true lk e >>= _) = _
    rw [ih h, ok_bind, castSrc_iff.mpr h1]
    exact castTo_iff.mpr ⟨_, _, rfl, rfl, h2, h3⟩
  | ternary c t f ihc iht ihf =>
    have ihc := @ihc he.1 (hl.of fun x hx => by simp [subs, hx]) (hd.of fun x hx => by simp [subs, hx])
    have iht := @iht he.2.1 (hl.of fun x hx => by simp [subs, hx]) (hd.of fun x hx => by simp [subs, hx])
    have ihf := @ihf he.2.2 (hl.of fun x hx => by simp [subs, hx]) (hd.of fun x hx => by simp [subs, hx])
    cases h with
    | ternaryTrue hc ht =>
      show (runE true lk c >>= _) = _
      rw [ihc hc]
      exact iht ht
    | ternaryFalse hc hf =>
      show (runE true lk c >>= _) = _
      rw [ihc hc]
      exact ihf hf
  | len fixed e ih =>
    have ih := @ih he (hl.of fun x hx => by simp [subs, hx]) (hd.of fun x hx => by simp [subs, hx])
    cases h with
    | lenFixed => rfl
    | len h hs =>
      show (runE true lk e >>= _) = _
      rw [ih h, ok_bind, rtLen_iff.mpr hs]
      rfl
  | sum e ih =>
    have ih := @ih he (hl.of fun x hx => by simp [subs, hx]) (hd.of fun x hx => by simp [subs, hx])
    cases h with
    | @sum _ ns s h hs hr =>
    show (runE true lk e >>= _) = _
    rw [ih h]
    show (intsOf (ns.map .int) >>= _) = _
    rw [intsOf_iff.mpr ⟨ns, rfl, rfl⟩, ok_bind, sumFn_iff.mpr ⟨by rw [List.map_map]; exact hs, hr⟩]
    rfl
  | bits e ih =>
    have ih := @ih he (hl.of fun x hx => by simp [subs, hx]) (hd.of fun x hx => by simp [subs, hx])
    cases h with
    | @bits _ n h =>
    show (runE true lk e >>= _) = _
    rw [ih h]
    show Except.ok (Val.int ⟨.u8, bitsFn n⟩) = _
    rw [bitsFn_eq]
  | pad p b ihp ihb =>
    have ihp := @ihp he.1 (hl.of fun x hx => by simp [subs, hx]) (hd.of fun x hx => by simp [subs, hx])
    have ihb := @ihb he.2 (hl.of fun x hx => by simp [subs, hx]) (hd.of fun x hx => by simp [subs, hx])
    cases h with
    | @pad _ _ np nb r hp hb g1 g2 g3 =>
    show (runE true lk b >>= _) = _
    rw [ihb hb]
    show (runE true lk p >>= _) = _
    rw [ihp hp]
    show (liftC (padFn np nb) >>= _) = _
    rw [padFn_iff.mpr ⟨g1, g2, g3⟩]
    rfl
  | member e f c ih _ =>
    have ih := @ih he (hl.of fun x hx => by simp [subs, hx]) (hd.of fun x hx => by simp [subs, hx])
    cases h with
    | @member _ _ _ n k a b x h hc hx =>
    show (runE true lk e >>= _) = _
    rw [ih h, ok_bind]
    simp only [hc, CInt.band, CInt.bitop, if_true, liftC, ok_bind, memberVal hx]

/-- Spec: a value an expression denotes is unique. -/
theorem meaning_unique {lk : Look} (hlk : SaneLook lk) {e : Expr} (he : Emittable e)
    (hl : SaneLits e) (hd : Defaults lk e) {v w : Val} (h : Denotes lk e v) (h' : Denotes lk e w) : v = w := by
  have h1 := meaning_is_computed hlk he hl hd h
  rw [meaning_is_computed hlk he hl hd h'] at h1
  cases h1; rfl

/-! ### A concrete case: `sum(items) > 252 && len(items) <= 2 ? -n / (opt ?: 4) : 0` -/

/-- The looked-up values of the example. -/
def demoLook : Look where
  field := fun n => if n = "n" then some (.int ⟨.i16, 17⟩)
    else if n = "items" then some (.arr [.int ⟨.u8, 3⟩, .int ⟨.u8, 250⟩])
    else if n = "opt" then some (.opt none) else none
  input := fun _ => none

/-- The example expression. -/
def demoExpr : Expr :=
  .ternary (.binary .and (.binary .gt (.sum (.fieldRef "items")) (.int ⟨.u64, 252⟩))
      (.binary .lte (.len none (.fieldRef "items")) (.int ⟨.u64, 2⟩)))
    (.binary .div (.unary .negate (.fieldRef "n")) (.binary .elvis (.fieldRef "opt") (.int ⟨.i16, 4⟩)))
    (.int ⟨.i16, 0⟩)

example : SaneLook demoLook ∧ Emittable demoExpr ∧ SaneLits demoExpr ∧ Defaults demoLook demoExpr ∧
    runE true demoLook demoExpr = .ok (.int ⟨.i16, -4⟩) ∧ Denotes demoLook demoExpr (.int ⟨.i16, -4⟩) := by
  have h1 : SaneLook demoLook := by
    refine ⟨?_, fun n v h => nomatch h⟩
    intro n v h
    simp only [demoLook] at h
    split at h
    · cases h; exact .int (by decide)
    · split at h
      · cases h
        refine .arr (by decide) ?_
        intro v hv
        simp at hv
        rcases hv with rfl | rfl <;> exact .int (by decide)
      · split at h
        · cases h; exact .none
        · cases h
  have h2 : Emittable demoExpr := by simp [Emittable, demoExpr]
  have h3 : SaneLits demoExpr := by
    refine ⟨?_, ?_, ?_⟩ <;> simp [demoExpr, subs] <;> decide
  have h4 : Defaults demoLook demoExpr := by
    intro l r h
    simp [demoExpr, subs] at h
    obtain ⟨_, rfl⟩ := h
    exact ⟨_, .int⟩
  have h5 : runE true demoLook demoExpr = .ok (.int ⟨.i16, -4⟩) := by rfl
  exact ⟨h1, h2, h3, h4, h5, (emitted_value_is_meaning h1 h2 h3 h5).1⟩

/-! ### Findings: emitted expressions that do not compute their meaning -/

/-- Finding: `~(x as u16)` with `x : u8` is emitted as `(! (x) as u16)`, which Rust reads as
`(!x) as u16`; for `-(x as i16)` the emitted code does not even compile. -/
theorem unary_over_cast_finding :
    let lk : Look := ⟨fun _ => some (.int ⟨.u8, 255⟩), fun _ => none⟩
    Denotes lk (.unary .bitNot (.cast .plain (.fieldRef "x") (.scalar .u16))) (.int ⟨.u16, 0xFF00⟩) ∧
    runE true lk (.unary .bitNot (.cast .plain (.fieldRef "x") (.scalar .u16))) = .ok (.int ⟨.u16, 0⟩) ∧
    Denotes lk (.unary .negate (.cast .plain (.fieldRef "x") (.scalar .i16))) (.int ⟨.i16, -255⟩) ∧
    runE true lk (.unary .negate (.cast .plain (.fieldRef "x") (.scalar .i16))) = .error .ill := by
  have hc : ∀ k : Scalar, (255 : Int) = (CInt.mk .u8 255).val + 0 * 2 ^ k.bits := by
    intro k; rw [Int.zero_mul]; rfl
  refine ⟨.bitNot (.cast (.field rfl) .plain (by decide) ⟨0, hc .u16⟩) (by decide) ?_, rfl,
    .neg (.cast (.field rfl) .plain (by decide) ⟨0, hc .i16⟩) rfl (by decide), rfl⟩
  decide +kernel

/-- Finding: a named constant, an array index and `>>>` have a meaning but the emitted code does not
compile. -/
theorem not_emitted_finding :
    let lk : Look := ⟨fun _ => some (.arr [.int ⟨.u8, 7⟩]), fun _ => none⟩
    Denotes lk (.constRef "C" (.int ⟨.u8, 5⟩)) (.int ⟨.u8, 5⟩) ∧
    runE true lk (.constRef "C" (.int ⟨.u8, 5⟩)) = .error .ill ∧
    Denotes lk (.index (.fieldRef "x") (.int ⟨.u64, 0⟩)) (.int ⟨.u8, 7⟩) ∧
    runE true lk (.index (.fieldRef "x") (.int ⟨.u64, 0⟩)) = .error .ill ∧
    Denotes lk (.binary .shrSigned (.int ⟨.i8, -8⟩) (.int ⟨.i8, 1⟩)) (.int ⟨.i8, -4⟩) ∧
    runE true lk (.binary .shrSigned (.int ⟨.i8, -8⟩) (.int ⟨.i8, 1⟩)) = .error .ill :=
  ⟨.const .int, rfl, .index (n := 0) (.field rfl) .int rfl, rfl,
    .intop trivial (.inl rfl) .int .int ⟨by decide, by decide, by decide, by decide, by decide⟩, rfl⟩

/-- Finding: `?:` evaluates its default even when the value is present: `x ?: 1 / 0` panics. -/
theorem elvis_default_finding :
    let lk : Look := ⟨fun _ => some (.opt (some (.int ⟨.u8, 7⟩))), fun _ => none⟩
    let e := Expr.binary .elvis (.fieldRef "x") (.binary .div (.int ⟨.u8, 1⟩) (.int ⟨.u8, 0⟩))
    Denotes lk e (.int ⟨.u8, 7⟩) ∧ runE true lk e = .error .panic :=
  ⟨.present (.field rfl), rfl⟩

/-- C48: `len` of an array is the number of its elements, of a string its UTF-8 length, of a
fixed-size value its byte size (whatever the value). -/
theorem len_is_size {lk : Look} (e : Expr) {v : Val} (h : runE true lk e = .ok v) (n : Nat) :
    (runE true lk (.len none e) = .ok (.int ⟨.u64, n⟩) ↔ Size v n) ∧
    (∀ k, runE true lk (.len (some k) e) = .ok (.int ⟨.u64, k⟩)) := by
  refine ⟨?_, fun _ => rfl⟩
  rw [← rtLen_iff]
  show (runE true lk e >>= _) = _ ↔ _
  rw [h, ok_bind]
  cases rtLen v with
  | error e => simp [err_bind]
  | ok m => simp [ok_bind]; omega

end Verif.Props
