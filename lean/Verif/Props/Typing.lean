import Verif.Sem.Sound
import Verif.Sem.Types
import Verif.Sem.PreludeEnv
/-!
# C37, C38, C42, C43: types of expressions, casts, numbers of arguments
-/
namespace Verif.Props
open Verif Sem

/-! ## C38: expressions get the type that was asked for -/

/-- C38. Whatever expression is converted against whatever expected type in whatever scope and
graph: if conversion succeeds, the graph is unchanged, the result may stand where the type was
expected (its type is accepted, or it is an inserted conversion to the expected type), and it is
well typed at every node. -/
theorem converted_expression_fits (env : Env) (p : Prog) (sc : Scope) (e : Ast.Expression)
    (P : PType) (s s' : St) (e' : AExpr) (h : (convE env p sc e P).run s = .ok (e', s')) :
    s'.heap = s.heap ∧ Fits env s.heap P e' ∧ WellTyped env p sc s.heap e' :=
  convE_sound env p sc e P s e' s' h

theorem assignableRes_refl_rep {env : Env} {h : Heap} {t : AType}
    (hsame : env.same h t t = .ok true) (hr : ∃ a, coerceRes a t = true) :
    assignableRes env h t t = .ok true := by
  obtain ⟨a, ha⟩ := hr
  cases t <;> first | exact hsame | (cases a <;> cases ha) | simp [assignableRes]

/-- C38, in terms of the type alone, provided that every type equals itself: the result has a type
that is accepted where the expected type is. -/
theorem converted_expression_type (env : Env) (p : Prog) (sc : Scope) (e : Ast.Expression)
    (P : PType) (s s' : St) (e' : AExpr) (h : (convE env p sc e P).run s = .ok (e', s'))
    (hrefl : ∀ t, env.same s.heap t t = .ok true) :
    ∃ t, getType s.heap e' = .ok (some t) ∧ P.assignable env s.heap t = .ok true := by
  obtain ⟨-, hf, -⟩ := converted_expression_fits env p sc e P s s' e' h
  cases hf with
  | direct ht ha => exact ⟨_, ht, ha⟩
  | @widened e0 t u ht hw =>
    refine ⟨u, rfl, ?_⟩
    obtain ⟨hc, hi⟩ := hw
    cases P with
    | type x =>
      obtain rfl : x = u := by simpa [PType.intoType] using hi
      simp only [PType.coercable, rbind_ok] at hc
      obtain ⟨rt, hrt, hc⟩ := hc
      simp only [canCoerce, rbind_ok, Except.ok.injEq] at hc
      obtain ⟨a, -, b, hb, hc⟩ := hc
      have hnf : ∀ f, b ≠ .foreign f := by rintro f rfl; cases a <;> cases hc
      simp only [PType.assignable, hb, Except.bind]
      have : assignable env s.heap x b = .ok true := by
        rw [assignable_resolved hb (resolve_resolved hb)]
        exact assignableRes_refl_rep (hrefl _) ⟨a, hc⟩
      cases b <;> first | exact absurd rfl (hnf _) | exact this
    | scalar q =>
      cases q with
      | none => cases hi
      | some k =>
        cases hi
        simp [PType.assignable, resolve_plain (h := s.heap) (t := .scalar k.toE) rfl, Except.bind,
          assignable, assignableRes]
      | defaults k =>
        cases hi
        simp [PType.assignable, resolve_plain (h := s.heap) (t := .scalar k.toE) rfl, Except.bind,
          assignable, assignableRes]
    | array el => cases hi
    | any => cases hi

/-- Where an integer of some kind is expected (a length, an index, an enum value), a successful
conversion has exactly that type, or a foreign type that says it may be used so. -/
theorem converted_integer (env : Env) (p : Prog) (sc : Scope) (e : Ast.Expression) (k : Scalar)
    (s s' : St) (e' : AExpr)
    (h : (convE env p sc e (.scalar (.some k))).run s = .ok (e', s')) :
    ∃ t, getType s.heap e' = .ok (some t) ∧
      (resolve s.heap t = .ok (.scalar ⟨k, .big⟩) ∨
       ∃ f, resolve s.heap t = .ok (.foreign f) ∧
         env.ftToPartial f s.heap (.scalar (.some k)) = .ok true) := by
  obtain ⟨-, hf, -⟩ := converted_expression_fits env p sc e _ s s' e' h
  cases hf with
  | @widened e0 t u ht hw =>
    obtain ⟨hc, hi⟩ := hw
    cases hi
    exact ⟨_, rfl, .inl (resolve_plain rfl)⟩
  | @direct _ t ht ha =>
    refine ⟨t, ht, ?_⟩
    simp only [Accepts, PType.assignable, rbind_ok] at ha
    obtain ⟨o, ho, ha⟩ := ha
    cases o with
    | foreign f => exact .inr ⟨f, ho, ha⟩
    | scalar q =>
      simp only [assignable_resolved (h := s.heap) (resolve_plain (t := .scalar k.toE) rfl)
        (resolve_plain (t := .scalar q) rfl), assignableRes, Except.ok.injEq, beq_iff_eq] at ha
      subst ha; exact .inl ho
    | ref f a => cases resolve_not_ref ho
    | _ =>
      simp only [assignable_resolved (h := s.heap) (resolve_plain (t := .scalar k.toE) rfl)
        (resolve_resolved ho), assignableRes, Except.ok.injEq] at ha
      cases ha

theorem fits_bool {env : Env} {h : Heap} {e' : AExpr} (hf : Fits env h (.type .bool) e') :
    ∃ t, getType h e' = .ok (some t) ∧
      (resolve h t = .ok .bool ∨
       ∃ f, resolve h t = .ok (.foreign f) ∧ env.ftToPartial f h (.type .bool) = .ok true) := by
  cases hf with
  | @widened e0 t u ht hw =>
    obtain ⟨hc, hi⟩ := hw
    cases hi
    exact ⟨_, rfl, .inl (resolve_plain rfl)⟩
  | @direct _ t ht ha =>
    refine ⟨t, ht, ?_⟩
    simp only [Accepts, PType.assignable, rbind_ok] at ha
    obtain ⟨o, ho, ha⟩ := ha
    cases o with
    | foreign f => exact .inr ⟨f, ho, ha⟩
    | bool => exact .inl ho
    | ref f a => cases resolve_not_ref ho
    | _ =>
      simp only [assignable_resolved (h := h) (resolve_plain (t := .bool) rfl)
        (resolve_resolved ho), assignableRes, Except.ok.injEq] at ha
      cases ha

/-- Where a boolean is expected (every condition), a successful conversion is a boolean, or of a
foreign type that says it may be used so. -/
theorem converted_condition (env : Env) (p : Prog) (sc : Scope) (e : Ast.Expression)
    (s s' : St) (e' : AExpr)
    (h : (convE env p sc e (.type .bool)).run s = .ok (e', s')) :
    ∃ t, getType s.heap e' = .ok (some t) ∧
      (resolve s.heap t = .ok .bool ∨
       ∃ f, resolve s.heap t = .ok (.foreign f) ∧
         env.ftToPartial f s.heap (.type .bool) = .ok true) :=
  fits_bool (converted_expression_fits env p sc e _ s s' e' h).2.1

/-- Finding: the operands of `<`, `>`, `<=`, `>=` may be of any type that is not foreign (booleans,
arrays, containers), and so may the operands of `-` and `~` where nothing is known about them. -/
theorem compare_any_finding (env : Env) (h : Heap) (t r : AType) (hr : resolve h t = .ok r)
    (hf : ∀ f, r ≠ .foreign f) : Accepts env h (.scalar .none) t := by
  unfold Accepts
  rw [PType.assignable, hr]
  cases r <;> first | exact absurd rfl (hf _) | rfl

/-- Finding: `true < false` is accepted, in every program. -/
theorem compare_bools_finding (env : Env) (p : Prog) (sc : Scope) (s : St) (a b : Bool) :
    (convE env p sc (.binary .lt (.bool a) (.bool b)) (.type .bool)).run s =
      .ok (.binary .lt (.bool a) (.bool b), s) := rfl

/-- Finding: an f64 field cannot stand where an f64 is expected. -/
theorem f64_finding (env : Env) (h : Heap) :
    (PType.type .f64).assignable env h .f64 = .ok false ∧
    (PType.type .f64).coercable h .f64 = .ok false := ⟨rfl, rfl⟩

/-- A small graph: `a : be u16`, `e : enum u8`, `xs : u32[]`. -/
def sampleHeap : Heap :=
  [{ blankField "a" false with type := .scalar ⟨.u16, .big⟩ },
   { blankField "E" true with type := .enum 0 "E" ⟨.u8, .big⟩ [
      .value (.mk "one" (.scalar ⟨.u8, .big⟩) (.int ⟨.u8, 1⟩ .u8))] },
   { blankField "xs" false with type := .array 1 (.scalar ⟨.u32, .little⟩) true none }]

def sampleProg : Prog := addPrelude (preludeEnv []).prelude ⟨[("E", 1)], [], [], []⟩
def sampleScope : Scope := [⟨[("a", 0), ("xs", 2)], []⟩]

/-- `len(xs) + (a :> u64)` against `u64`; `E::one == 1u8` against bool; `a` against `u32`, which
inserts a conversion; `a` against bool is rejected. -/
example :
    (convE (preludeEnv []) sampleProg sampleScope
      (.binary .add (.call "len" [.ref "xs"]) (.cast (.ref "a") (.scalar ⟨.u64, .big⟩)))
      (.scalar (.some .u64))).run ⟨sampleHeap, 0⟩ =
      .ok (.binary .add (.call "len" (.scalar ⟨.u64, .big⟩) [.fieldRef 2])
        (.cast (.fieldRef 0) (.scalar ⟨.u64, .big⟩)), ⟨sampleHeap, 0⟩) := rfl
example :
    (convE (preludeEnv []) sampleProg sampleScope (.ref "a")
      (.scalar (.some .u32))).run ⟨sampleHeap, 0⟩ =
      .ok (.cast (.fieldRef 0) (.scalar ⟨.u32, .big⟩), ⟨sampleHeap, 0⟩) := rfl
example :
    (convE (preludeEnv []) sampleProg sampleScope (.ref "a")
      (.type .bool)).run ⟨sampleHeap, 0⟩ = .error (.asg .unexpectedType) := rfl
example : ∃ e s, (convE (preludeEnv []) sampleProg sampleScope
      (.binary .eq (.enumAccess "E" "one") (.int "1" (some .u8)))
      (.type .bool)).run ⟨sampleHeap, 0⟩ = .ok (e, s) := ⟨_, _, rfl⟩

/-! ## C37: implicit and explicit conversion -/

/-- A value of type `a` may be used where `b` is expected: as it is, or converted implicitly. -/
def Usable (env : Env) (h : Heap) (a b : AType) : Prop :=
  ∃ P, Expects h b P ∧ (Accepts env h P a ∨ ∃ u, Widens h P a u)

/-- The integer type behind an enum or bitfield. -/
def repOf : AType → Option EScalar
  | .enum _ _ rep _ => some rep
  | .bitfield _ _ rep _ => some rep
  | _ => none

/-- C37, the part that holds: if `a` may be used where `b` is expected then `a :> b` passes, unless
`b` is an array, or one of them is an enum or bitfield and the other an integer of another size, or
`a` is foreign and answers differently to the two questions. -/
theorem implicit_then_explicit_partial (env : Env) (h : Heap) (a b ra rb : AType)
    (ha : resolve h a = .ok ra) (hb : resolve h b = .ok rb) (hu : Usable env h a b)
    (harr : ∀ tg el x len, rb ≠ .array tg el x len)
    (hto : ∀ rep s, repOf ra = some rep → rb = .scalar s → rep.scalar.size = s.scalar.size)
    (hof : ∀ rep s, repOf rb = some rep → ra = .scalar s → rep.scalar.size = s.scalar.size)
    (hfor : ∀ f P, ra = .foreign f → Expects h b P → env.ftToPartial f h P = .ok true →
      env.ftTo f h rb = .ok true) :
    canCast env h a b = .ok true := by
  obtain ⟨P, hP, hu⟩ := hu
  obtain ⟨rb', hb', hs⟩ := toPartial_shape hP
  rw [hb] at hb'; cases hb'
  rw [canCast_resolved ha hb]
  have hnr := resolve_not_ref ha
  have hnrb := resolve_not_ref hb
  -- a foreign type is asked
  by_cases hfa : ∃ f, ra = .foreign f
  · obtain ⟨f, rfl⟩ := hfa
    have hft : env.ftToPartial f h P = .ok true := by
      rcases hu with hu | ⟨u, hu, hi⟩
      · unfold Accepts at hu
        cases P with
        | array el => cases el <;> (rw [PType.assignable, ha] at hu; exact hu)
        | scalar q => rw [PType.assignable, ha] at hu; cases q <;> exact hu
        | _ => rw [PType.assignable, ha] at hu; exact hu
      · exfalso
        simp only [PType.coercable, ha, Except.bind] at hu
        cases P with
        | type x =>
          simp only [canCoerce, rbind_ok, Except.ok.injEq] at hu
          obtain ⟨a', ha', b', -, hu⟩ := hu
          rw [resolve_resolved ha] at ha'
          cases ha'
          cases b' <;> cases hu
        | scalar q =>
          cases q with
          | none => cases hu
          | _ =>
            simp only [canCoerce, rbind_ok, Except.ok.injEq] at hu
            obtain ⟨a', ha', b', -, hu⟩ := hu
            rw [resolve_resolved ha] at ha'
            cases ha'
            cases b' <;> cases hu
        | _ => cases hu
    have := hfor f P rfl hP hft
    have he : assignableRes env h rb (.foreign f) = env.ftTo f h rb := by
      cases rb <;> rfl
    rw [he, this]; rfl
  have hnf : ∀ f, ra ≠ .foreign f := fun f hf => hfa ⟨f, hf⟩
  -- directly usable
  have direct : ∀ t, P = .type t → t = rb → Accepts env h P a →
      assignableRes env h rb ra = .ok true := by
    rintro t rfl rfl hacc
    have := accepts_resolved ha hnf hacc
    simp only at this
    rwa [assignable_resolved (resolve_resolved hb) (resolve_resolved ha)] at this
  rcases hu with hacc | ⟨u, hc, hi⟩
  · cases rb with
    | scalar s =>
      cases hs
      have := accepts_resolved ha hnf hacc
      simp only [assignable_resolved (resolve_plain (h := h) (t := .scalar s.scalar.toE) rfl)
        (resolve_resolved ha)] at this
      cases ra <;> first
        | exact absurd rfl (hnf _)
        | (simp [assignableRes, castRes, coerceRes, Except.bind] <;> done)
        | (simp [assignableRes] at this)
        | cases hnr
    | array tg el x len => exact absurd rfl (harr _ _ _ _)
    | ref => cases hnrb
    | _ => rw [direct _ hs rfl hacc]; rfl
  · have hcoe : coerceRes ra rb = true := by
      cases rb with
      | scalar s =>
        cases hs
        simp only [PType.coercable, ha, Except.bind, canCoerce_resolved (resolve_resolved ha)
          (resolve_plain (h := h) (t := .scalar s.scalar.toE) rfl), Except.ok.injEq] at hc
        cases ra <;> first | exact hc
      | array tg el x len => exact absurd rfl (harr _ _ _ _)
      | ref => cases hnrb
      | _ =>
        cases hs
        simp only [PType.coercable, ha, Except.bind, canCoerce_resolved (resolve_resolved ha)
          (resolve_resolved hb), Except.ok.injEq] at hc
        exact hc
    have flip : ∀ k k' : Scalar, k.canImplicitCastTo k' = true → k'.size = k.size →
        k'.canImplicitCastTo k = true := by
      intro k k' h1 h2
      simp only [Scalar.canImplicitCastTo] at h1 ⊢
      split at h1
      · cases h1
      · rename_i hs
        have hs' : k.signed = k'.signed := by simpa using hs
        simp [hs', h2]
    have flip' : ∀ k k' : Scalar, k.canImplicitCastTo k' = true → k.size = k'.size →
        k'.canImplicitCastTo k = true := fun k k' h1 h2 => flip k k' h1 h2.symm
    cases ra <;> cases rb <;> first
      | cases hcoe
      | (simp [assignableRes, castRes, coerceRes, Except.bind]; done)
      | (have hx := hto _ _ rfl rfl
         have hy := flip' _ _ hcoe hx
         simp only [assignableRes, coerceRes, castRes, Except.bind, hy]; rfl)
      | (have hx := hof _ _ rfl rfl
         have hy := flip _ _ hcoe hx
         simp only [assignableRes, coerceRes, castRes, Except.bind, hy]; rfl)

/-- Finding: a value of an enum may be used where a wider integer is expected, but the cast that
says so is rejected. -/
theorem narrow_enum_cast_finding (env : Env) (h : Heap) (tg : Nat) (n : String) (rep s : EScalar)
    (items : List AVariant) (hsg : rep.scalar.signed = s.scalar.signed)
    (hsz : rep.scalar.size < s.scalar.size) :
    Usable env h (.enum tg n rep items) (.scalar s) ∧
      canCast env h (.enum tg n rep items) (.scalar s) = .ok false := by
  refine ⟨⟨.scalar (.some s.scalar), rfl, .inr ⟨_, ⟨?_, rfl⟩⟩⟩, ?_⟩
  · simp only [PType.coercable, resolve_plain (h := h) (t := .enum tg n rep items) rfl, Except.bind,
      canCoerce_resolved (resolve_plain (h := h) (t := .enum tg n rep items) rfl)
      (resolve_plain (h := h) (t := .scalar s.scalar.toE) rfl), coerceRes]
    simp [Scalar.canImplicitCastTo, Scalar.toE, hsg]; omega
  · rw [canCast_resolved (resolve_plain (h := h) (t := .enum tg n rep items) rfl)
      (resolve_plain (h := h) (t := .scalar s) rfl)]
    simp [assignableRes, coerceRes, castRes, Except.bind, Scalar.canImplicitCastTo, hsg]
    omega

/-- Finding: an integer may be used where an enum of a wider integer is expected, but the cast is
rejected. -/
theorem wide_enum_cast_finding (env : Env) (h : Heap) (tg : Nat) (n : String) (rep s : EScalar)
    (items : List AVariant) (hsg : rep.scalar.signed = s.scalar.signed)
    (hsz : s.scalar.size < rep.scalar.size) :
    Usable env h (.scalar s) (.enum tg n rep items) ∧
      canCast env h (.scalar s) (.enum tg n rep items) = .ok false := by
  refine ⟨⟨.type (.enum tg n rep items), rfl, .inr ⟨_, ⟨?_, rfl⟩⟩⟩, ?_⟩
  · simp only [PType.coercable, resolve_plain (h := h) (t := .scalar s) rfl, Except.bind,
      canCoerce_resolved (resolve_plain (h := h) (t := .scalar s) rfl)
      (resolve_plain (h := h) (t := .enum tg n rep items) rfl), coerceRes,
      Scalar.canImplicitCastTo, hsg]
    simp; omega
  · rw [canCast_resolved (resolve_plain (h := h) (t := .scalar s) rfl)
      (resolve_plain (h := h) (t := .enum tg n rep items) rfl)]
    simp [assignableRes, coerceRes, castRes, Except.bind, Scalar.canImplicitCastTo, hsg]
    omega

/-- Finding: an array may be used where an array with the same kind of elements is expected, but it
may be cast to that type only if derived equality (which compares source positions) says so. -/
theorem array_cast_finding (env : Env) (h : Heap) (tg tg' : Nat) (k : Scalar) (x x' : Bool)
    (len len' : Option AExpr)
    (hne : env.same h (.array tg' (.scalar k.toE) x' len') (.array tg (.scalar k.toE) x len)
      = .ok false) :
    Usable env h (.array tg (.scalar k.toE) x len) (.array tg' (.scalar k.toE) x' len') ∧
      canCast env h (.array tg (.scalar k.toE) x len) (.array tg' (.scalar k.toE) x' len')
        = .ok false := by
  refine ⟨⟨.array (some (.scalar (.some k))), rfl, .inl ?_⟩, ?_⟩
  · simp [Accepts, PType.assignable, resolve_plain (h := h) (t := .array tg (.scalar k.toE) x len)
      rfl, resolve_plain (h := h) (t := .scalar k.toE) rfl, Except.bind, assignable, assignableRes]
  · rw [canCast_resolved (resolve_plain rfl) (resolve_plain rfl)]
    simp only [assignableRes, hne]; rfl

/-- Finding: an integer literal without a suffix can be used as any integer it fits, but can be cast
to no type whatever. -/
theorem literal_cast_finding (env : Env) (p : Prog) (sc : Scope) (v : String) (ty : Ast.Ty)
    (P : PType) (s s' : St) (e : AExpr) :
    (convE env p sc (.cast (.int v none) ty) P).run s ≠ .ok (e, s') := by
  intro h
  change convE env p sc (.cast (.int v none) ty) P s = .ok (e, s') at h
  rw [convE] at h
  simp only [bind_run_ok] at h
  obtain ⟨u, s1, -, t, s2, -, i, s3, h3, -⟩ := h
  rw [convE] at h3
  simp only [bind_run_ok] at h3
  obtain ⟨j, s4, h4, -⟩ := h3
  simp only [convInt, liftR_ok, convIntR, intKind] at h4
  cases h4.1

/-- An explicit cast is accepted exactly when its operand converts on its own to an expression of a
type that may be cast to the target (and the target can be resolved). -/
theorem cast_accepted_iff (env : Env) (p : Prog) (sc : Scope) (e : Ast.Expression) (ty : Ast.Ty)
    (s s' : St) (c : AExpr) :
    (convE env p sc (.cast e ty) .any).run s = .ok (c, s') ↔
      inlinable ty = true ∧ ∃ target s1 inner t,
        (convTy env p sc ty .expression).run s = .ok (target, s1) ∧
        (convE env p sc e .any).run s1 = .ok (inner, s') ∧
        getType s'.heap inner = .ok (some t) ∧ canCast env s'.heap t target = .ok true ∧
        PType.any.assignable env s'.heap target = .ok true ∧ c = .cast inner target := by
  change convE env p sc (.cast e ty) .any s = .ok (c, s') ↔ _
  rw [convE]
  simp only [bind_run_ok, check_ok]
  constructor
  · rintro ⟨u, s1, ⟨h1, rfl⟩, target, s2, h2, inner, s3, h3, u', s4, h4, h5⟩
    obtain ⟨rfl, t, ht, hc⟩ := checkCast_ok h4
    simp only [finish, withHeap_ok, finishR, getType, Except.bind] at h5
    obtain ⟨h5, rfl⟩ := h5
    refine ⟨h1, target, s2, inner, t, h2, h3, ht, hc, ?_⟩
    split at h5
    · cases h5
    · rename_i a ha
      cases a with
      | true => exact ⟨ha, by cases h5; rfl⟩
      | false =>
        exfalso
        simp only [PType.coercable, Bool.false_eq_true, if_false] at h5
        cases hr : resolve s3.heap target with
        | error x => rw [hr] at h5; cases h5
        | ok r => rw [hr] at h5; cases h5
  · rintro ⟨h1, target, s1, inner, t, h2, h3, ht, hc, ha, rfl⟩
    refine ⟨(), s, ⟨h1, rfl⟩, target, s1, h2, inner, s', h3, (), s', ?_, ?_⟩
    · simp only [checkCast, withHeap_ok, checkCastR, ht, Except.bind, hc, if_true, and_true]
    · simp only [finish, withHeap_ok, finishR, getType, Except.bind, ha, if_true, and_true]

/-- `u16` where `u32` is expected, and the reference `E` to an enum of `u8` where `u8` is expected,
meet the hypotheses of `implicit_then_explicit_partial`. -/
example : Usable (preludeEnv []) sampleHeap (.ref 1 []) (.scalar ⟨.u8, .big⟩) ∧
    canCast (preludeEnv []) sampleHeap (.ref 1 []) (.scalar ⟨.u8, .big⟩) = .ok true := by
  have hu : Usable (preludeEnv []) sampleHeap (.ref 1 []) (.scalar ⟨.u8, .big⟩) :=
    ⟨_, rfl, .inr ⟨_, rfl, rfl⟩⟩
  refine ⟨hu, implicit_then_explicit_partial _ _ _ _ _ _ rfl rfl hu ?_ ?_ ?_ ?_⟩
  · intros; simp
  · rintro rep s h1 h2; cases h1; cases h2; rfl
  · rintro rep s h1; cases h1
  · rintro f P h1; cases h1

/-! ## C42: type arguments -/

/-- The parameters that must be supplied. -/
def requiredArgs (params : List AArg) : List AArg := params.filter fun a => a.default.isNone

/-- C42, exactly: which numbers of arguments pass, whatever the parameters. -/
theorem type_argument_count_iff (params : List AArg) (n : Nat) :
    typeCountR params n = .ok () ↔
      (requiredArgs params).length ≤ n ∧ n ≤ params.length ∧
      (n = (requiredArgs params).length ∨
        ∀ a ∈ params.drop (params.length - (requiredArgs params).length), a.default = none) := by
  unfold typeCountR requiredArgs
  extract_lets m
  split
  · rename_i h
    obtain ⟨h1, h2⟩ := h
    simp only [List.any_eq_true, reduceCtorEq, false_iff] at h2 ⊢
    obtain ⟨a, ha, hs⟩ := h2
    rintro ⟨-, -, h3 | h3⟩
    · omega
    · rw [h3 a ha] at hs; cases hs
  · rename_i h
    split
    · rename_i h'
      simp only [reduceCtorEq, false_iff]
      omega
    · rename_i h'
      simp only [true_iff]
      refine ⟨by omega, by omega, ?_⟩
      by_cases hn : m < n
      · right
        intro a ha
        cases hd : a.default with
        | none => rfl
        | some d =>
          exact absurd ⟨hn, List.any_eq_true.2 ⟨a, ha, by rw [hd]; rfl⟩⟩ h
      · left; omega

/-- C42: an accepted reference supplies all required and at most all parameters, each argument
converted against the type of its parameter. -/
theorem type_reference_arity (env : Env) (p : Prog) (sc : Scope) (n : String)
    (args : List Ast.Expression) (pu : Purpose) (s s' : St) (t : AType)
    (h : (convTy env p sc (.ref n args) pu).run s = .ok (t, s')) :
    ∃ f x args', IMap.get p.types n = some f ∧ s.heap[f]? = some x ∧ t = .ref f args' ∧
      (requiredArgs x.arguments).length ≤ args.length ∧ args.length ≤ x.arguments.length ∧
      args'.length = args.length ∧
      WellTypedArgs env p sc s.heap args' (x.arguments.map fun a => some a.type) := by
  change convTy env p sc (.ref n args) pu s = .ok (t, s') at h
  rw [convTy] at h
  simp only [bind_run_ok, lookup_ok, withHeap_ok, deref_ok, pure_run_ok] at h
  obtain ⟨f, s0, ⟨hf, rfl⟩, x, s1, ⟨hx, rfl⟩, u, s2, h2, args', s3, h3, rfl, rfl⟩ := h
  obtain ⟨hmin, hmax, rfl⟩ := checkTypeCount_ok h2
  obtain ⟨hh, hw, hlen⟩ := convArgs_sound env p sc args _ _ _ _ h3
  rw [List.length_map] at hlen
  rw [List.countP_eq_length_filter] at hmin
  exact ⟨f, x, args', hf, hx, rfl, hmin, hmax, by omega, hw⟩

/-- C42, the part of the converse that holds: a reference that supplies exactly the required
arguments, or any number up to the total when none is required, passes the check. Missing: mixed
parameters, see the next theorem. -/
theorem type_arguments_accepted_partial (params : List AArg) (n : Nat)
    (h : n = (requiredArgs params).length ∨ requiredArgs params = [] ∧ n ≤ params.length) :
    typeCountR params n = .ok () := by
  rw [type_argument_count_iff]
  rcases h with rfl | ⟨h, hn⟩
  · exact ⟨Nat.le_refl _, List.length_filter_le _ _, .inl rfl⟩
  · rw [h]; exact ⟨Nat.zero_le _, hn, .inr (by simp)⟩

/-- Finding: with required parameters followed by optional ones, as the language asks for, no
optional argument can be supplied. -/
theorem optional_type_argument_finding (req opt : List AArg) (n : Nat) (h1 : req ≠ [])
    (h2 : opt ≠ []) (hr : ∀ a ∈ req, a.default = none) (ho : ∀ a ∈ opt, a.default ≠ none)
    (hn : req.length < n) :
    typeCountR (req ++ opt) n = .error (.asg .invalidTypeArgumentOrder) := by
  have hreq : requiredArgs (req ++ opt) = req := by
    unfold requiredArgs
    rw [List.filter_append, List.filter_eq_self.2, List.filter_eq_nil_iff.2, List.append_nil]
    · intro a ha; simpa using ho a ha
    · intro a ha; simpa using hr a ha
  unfold typeCountR
  extract_lets m
  have hm : m = req.length := by show (requiredArgs _).length = _; rw [hreq]
  rw [if_pos]
  refine ⟨by omega, List.any_eq_true.2 ⟨opt.getLast h2, ?_, ?_⟩⟩
  · have hlast : (req ++ opt).getLast (by simp [h1]) = opt.getLast h2 := List.getLast_append_right h2
    rw [← hlast]
    have hpos : (req ++ opt).length - m < (req ++ opt).length := by
      have := List.length_pos_iff.2 h1
      simp; omega
    rw [← List.getLast_drop (i := (req ++ opt).length - m) (by
      intro hnil; rw [List.drop_eq_nil_iff] at hnil; omega)]
    exact List.getLast_mem _
  · have := ho _ (List.getLast_mem h2)
    cases hd : (opt.getLast h2).default with
    | none => exact absurd hd this
    | some _ => rfl

/-- The number of arguments alone never makes conversion panic. -/
theorem type_argument_count_no_panic (params : List AArg) (n : Nat) (m : String) :
    typeCountR params n ≠ .error (.panic m) ∧ typeCountR params n ≠ .error .diverge := by
  unfold typeCountR
  extract_lets
  constructor <;> (split; · simp) <;> split <;> simp

example : typeCountR [⟨"length", .scalar Scalar.u64.toE, none⟩] 1 = .ok () ∧
    typeCountR [⟨"length", .scalar Scalar.u64.toE, none⟩] 2 =
      .error (.asg (.invalidTypeArgumentCount 1 1 2)) ∧
    typeCountR [⟨"a", .bool, none⟩, ⟨"b", .bool, some (.bool true)⟩] 2 =
      .error (.asg .invalidTypeArgumentOrder) := ⟨rfl, rfl, rfl⟩
example : ∃ t s, (convTy (preludeEnv []) ⟨[("utf8", 0)], [], [], []⟩ [] (.ref "utf8" [.int "4" none])
    .fieldInterior).run ⟨[{ blankField "utf8" true with
      arguments := (builtinType "utf8").getD [], type := .foreign "utf8" }], 0⟩ = .ok (t, s) :=
  ⟨_, _, rfl⟩

/-! ## C43: arguments of functions and transforms -/

/-- C43, exactly: which numbers of arguments pass. -/
theorem argument_count_iff (params : List FfiArg) (n : Nat) :
    ffiCountR params n = .ok () ↔
      required params ≤ n ∧ n ≤ params.length ∧
      (n = required params ∨
        ∀ a ∈ params.drop (params.length - required params), a.optional = true) := by
  unfold ffiCountR required
  rw [List.countP_eq_length_filter]
  extract_lets m
  split
  · rename_i h
    obtain ⟨h1, h2⟩ := h
    simp only [List.any_eq_true, reduceCtorEq, false_iff] at h2 ⊢
    obtain ⟨a, ha, hs⟩ := h2
    rintro ⟨-, -, h3 | h3⟩
    · omega
    · rw [h3 a ha] at hs; cases hs
  · rename_i h
    split
    · rename_i h'
      simp only [reduceCtorEq, false_iff]
      omega
    · rename_i h'
      simp only [true_iff]
      refine ⟨by omega, by omega, ?_⟩
      by_cases hn : m < n
      · right
        intro a ha
        cases hd : a.optional with
        | true => rfl
        | false =>
          exact absurd ⟨hn, List.any_eq_true.2 ⟨a, ha, by rw [hd]; rfl⟩⟩ h
      · left; omega

/-- C43, exactly: which numbers of arguments make the compiler panic. -/
theorem argument_count_panics_iff (params : List FfiArg) (n : Nat) :
    (∃ m, ffiCountR params n = .error (.panic m)) ↔
      required params < n ∧
        ∃ a ∈ params.drop (params.length - required params), a.optional = false := by
  unfold ffiCountR required
  rw [List.countP_eq_length_filter]
  extract_lets m
  split
  · rename_i h
    obtain ⟨h1, h2⟩ := h
    obtain ⟨a, ha, hs⟩ := List.any_eq_true.1 h2
    exact ⟨fun _ => ⟨h1, a, ha, by simpa using hs⟩, fun _ => ⟨_, rfl⟩⟩
  · rename_i h
    constructor
    · rintro ⟨m, hm⟩; split at hm <;> cases hm
    · rintro ⟨h1, a, ha, hs⟩
      exact absurd ⟨h1, List.any_eq_true.2 ⟨a, ha, by rw [hs]; rfl⟩⟩ h

/-- C43: an accepted call supplies all required and at most all arguments, each of the type its
parameter asks for; the function is the one of that name. -/
theorem call_arity (env : Env) (p : Prog) (sc : Scope) (fn : String)
    (args : List Ast.Expression) (P : PType) (s s' : St) (e : AExpr)
    (h : (convE env p sc (.call fn args) P).run s = .ok (e, s')) :
    ∃ sig args', IMap.get p.functions fn = some sig ∧
      (e = .call fn sig.ret args' ∨ ∃ u, e = .cast (.call fn sig.ret args') u) ∧
      required sig.arguments ≤ args.length ∧ args.length ≤ sig.arguments.length ∧
      args'.length = args.length ∧
      WellTypedArgs env p sc s.heap args' (sig.arguments.map (·.type)) := by
  change convE env p sc (.call fn args) P s = .ok (e, s') at h
  rw [convE] at h
  simp only [bind_run_ok, lookup_ok] at h
  obtain ⟨sig, s0, ⟨hf, rfl⟩, u, s1, h1, args', s2, h2, h3⟩ := h
  obtain ⟨hmin, hmax, rfl⟩ := checkFfiCount_ok h1
  obtain ⟨hh, hw, hlen⟩ := convArgs_sound env p sc args _ _ _ _ h2
  rw [List.length_map] at hlen
  refine ⟨sig, args', hf, ?_, hmin, hmax, by omega, hw⟩
  rcases (finish_ok h3).2.2 with rfl | ⟨-, u, -, -, rfl⟩
  · exact .inl rfl
  · exact .inr ⟨u, rfl⟩

/-- C43, the part that holds: a number of arguments that is too small is an error; exactly the
required number passes; and if every parameter is optional, everything up to the total passes and
everything above is an error. -/
theorem argument_count_partial (params : List FfiArg) (n : Nat) :
    (n < required params → ffiCountR params n =
      .error (.asg (.invalidFFIArgumentCount (required params) params.length n))) ∧
    (n = required params → ffiCountR params n = .ok ()) ∧
    (required params = 0 → n ≤ params.length → ffiCountR params n = .ok ()) ∧
    (required params = 0 → params.length < n → ffiCountR params n =
      .error (.asg (.invalidFFIArgumentCount 0 params.length n))) := by
  refine ⟨?_, ?_, ?_, ?_⟩
  · intro h
    unfold ffiCountR required at *
    rw [List.countP_eq_length_filter] at *
    simp only
    rw [if_neg (by omega), if_pos (by omega)]
  · intro h
    rw [argument_count_iff]
    exact ⟨by omega, h ▸ List.countP_le_length, .inl h⟩
  · intro h hn
    rw [argument_count_iff]
    refine ⟨by omega, hn, .inr ?_⟩
    rw [h]; simp
  · intro h hn
    unfold ffiCountR
    unfold required at h
    rw [List.countP_eq_length_filter] at h
    simp only [h]
    rw [if_neg (by simp), if_pos (by omega)]

/-- Finding: every function or transform all of whose parameters are required, that is every one in
the prelude that has any, panics when called with too many arguments. -/
theorem too_many_arguments_finding (params : List FfiArg) (n : Nat)
    (hne : params ≠ []) (hr : ∀ a ∈ params, a.optional = false) (hn : params.length < n) :
    ∃ m, ffiCountR params n = .error (.panic m) := by
  rw [argument_count_panics_iff]
  have hreq : required params = params.length := by
    unfold required; rw [List.countP_eq_length]; intro a ha; rw [hr a ha]; rfl
  rw [hreq]
  obtain ⟨a, ha⟩ := List.exists_mem_of_ne_nil _ hne
  exact ⟨hn, a, by simpa using ha, hr a ha⟩

/-- Finding: with two required parameters and one optional one, supplying the optional one panics. -/
theorem optional_argument_finding (a b c : FfiArg) (ha : a.optional = false)
    (hb : b.optional = false) (hc : c.optional = true) :
    ∃ m, ffiCountR [a, b, c] 3 = .error (.panic m) := by
  rw [argument_count_panics_iff]
  have : required [a, b, c] = 2 := by simp [required, ha, hb, hc]
  rw [this]
  exact ⟨by decide, b, by simp, hb⟩

example : ffiCountR [anyArg "target"] 1 = .ok () ∧
    (∃ m, ffiCountR [anyArg "target"] 2 = .error (.panic m)) ∧
    ffiCountR [u64Arg "pad", u64Arg "base"] 1 =
      .error (.asg (.invalidFFIArgumentCount 2 2 1)) := ⟨rfl, ⟨_, rfl⟩, rfl⟩

end Verif.Props
