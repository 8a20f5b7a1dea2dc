import Verif.Sem.Spec
/-!
# Lemmas on the conversion monad and on the pieces of expression conversion
-/
namespace Verif.Sem
open Verif

/-! ## The monad -/

theorem run_bind {α β} (m : M α) (f : α → M β) (s : St) :
    (m >>= f) s = (m s).bind fun x => f x.1 x.2 := by
  show StateT.bind m f s = _
  unfold StateT.bind
  show Except.bind _ _ = _
  rfl

theorem run_pure {α} (a : α) (s : St) : (pure a : M α) s = .ok (a, s) := rfl
theorem run_fail {α} (e : AsgError) (s : St) : (fail e : M α) s = .error (.asg e) := rfl
theorem run_panic {α} (e : String) (s : St) : (panic e : M α) s = .error (.panic e) := rfl
theorem run_withHeap {α} (f : Heap → R α) (s : St) :
    withHeap f s = (f s.heap).map fun a => (a, s) := rfl
theorem run_fresh (s : St) : fresh s = .ok (s.tag, { s with tag := s.tag + 1 }) := rfl

theorem rbind_ok {α β} {x : R α} {f : α → R β} {b : β} :
    x.bind f = .ok b ↔ ∃ a, x = .ok a ∧ f a = .ok b := by
  cases x <;> simp [Except.bind]

theorem rmap_ok {α β} {x : R α} {f : α → β} {b : β} :
    x.map f = .ok b ↔ ∃ a, x = .ok a ∧ f a = b := by
  cases x <;> simp [Except.map]

theorem bind_run_ok {α β} {m : M α} {f : α → M β} {s : St} {r : β × St} :
    (m >>= f) s = .ok r ↔ ∃ a s', m s = .ok (a, s') ∧ f a s' = .ok r := by
  rw [run_bind, rbind_ok]
  constructor
  · rintro ⟨⟨a, s'⟩, h1, h2⟩; exact ⟨a, s', h1, h2⟩
  · rintro ⟨a, s', h1, h2⟩; exact ⟨(a, s'), h1, h2⟩

theorem pure_run_ok {α} {a b : α} {s s' : St} :
    (pure a : M α) s = .ok (b, s') ↔ a = b ∧ s = s' := by
  rw [run_pure]; simp

theorem withHeap_ok {α} {f : Heap → R α} {s s' : St} {a : α} :
    withHeap f s = .ok (a, s') ↔ f s.heap = .ok a ∧ s = s' := by
  rw [run_withHeap, rmap_ok]
  constructor
  · rintro ⟨x, h1, h2⟩; simp only [Prod.mk.injEq] at h2; obtain ⟨rfl, rfl⟩ := h2; exact ⟨h1, rfl⟩
  · rintro ⟨h1, rfl⟩; exact ⟨a, h1, rfl⟩

theorem fail_ok {α} {e : AsgError} {s : St} {r : α × St} : (fail e : M α) s = .ok r ↔ False := by
  rw [run_fail]; simp

theorem panic_ok {α} {e : String} {s : St} {r : α × St} : (panic e : M α) s = .ok r ↔ False := by
  rw [run_panic]; simp

theorem peek_ok {α} {m : M α} {s s' : St} {a : α} :
    peek m s = .ok (a, s') ↔ (∃ s1, m s = .ok (a, s1)) ∧ s = s' := by
  unfold peek
  rw [rmap_ok]
  constructor
  · rintro ⟨⟨x, s1⟩, h1, h2⟩; simp only [Prod.mk.injEq] at h2; obtain ⟨rfl, rfl⟩ := h2
    exact ⟨⟨s1, h1⟩, rfl⟩
  · rintro ⟨⟨s1, h1⟩, rfl⟩; exact ⟨(a, s1), h1, rfl⟩

theorem attempt_ok {α} {m : M α} {s s' : St} {o : Option α} :
    attempt m s = .ok (o, s') ↔
      (∃ a, m s = .ok (a, s') ∧ o = some a) ∨ (∃ e, m s = .error (.asg e) ∧ o = none ∧ s = s') := by
  unfold attempt
  cases hm : m s with
  | ok x => cases x; simp; constructor
            · rintro ⟨rfl, rfl⟩; exact ⟨_, ⟨rfl, rfl⟩, rfl⟩
            · rintro ⟨_, ⟨rfl, rfl⟩, rfl⟩; exact ⟨rfl, rfl⟩
  | error e => cases e <;> simp [eq_comm]

/-- `if … then pure () else fail e` succeeded. -/
theorem guard_ok {c : Prop} [Decidable c] {e : AsgError} {s s' : St} {u : Unit} :
    (if c then (pure () : M Unit) else fail e) s = .ok (u, s') ↔ c ∧ s = s' := by
  by_cases hc : c
  · rw [if_pos hc, pure_run_ok]; simp [hc]
  · rw [if_neg hc, fail_ok]; simp [hc]

theorem guardNot_ok {c : Prop} [Decidable c] {e : AsgError} {s s' : St} {u : Unit} :
    (if c then fail e else (pure () : M Unit)) s = .ok (u, s') ↔ ¬ c ∧ s = s' := by
  by_cases hc : c
  · rw [if_pos hc, fail_ok]; simp [hc]
  · rw [if_neg hc, pure_run_ok]; simp [hc]

/-! ## Pieces -/

theorem typeOf_ok {e : AExpr} {s s' : St} {o : Option AType} :
    typeOf e s = .ok (o, s') ↔ getType s.heap e = .ok o ∧ s = s' := withHeap_ok

theorem liftR_ok {α} {r : R α} {s s' : St} {a : α} :
    liftR r s = .ok (a, s') ↔ r = .ok a ∧ s = s' := by
  unfold liftR
  rw [rmap_ok]
  constructor
  · rintro ⟨x, h1, h2⟩; simp only [Prod.mk.injEq] at h2; obtain ⟨rfl, rfl⟩ := h2; exact ⟨h1, rfl⟩
  · rintro ⟨h1, rfl⟩; exact ⟨a, h1, rfl⟩

theorem check_ok {c : Bool} {e : AsgError} {s s' : St} {u : Unit} :
    check c e s = .ok (u, s') ↔ c = true ∧ s = s' := by
  unfold check
  rw [guard_ok]

theorem lookup_ok {α} {m : List (String × α)} {n : String} {e : AsgError} {s s' : St} {a : α} :
    lookup m n e s = .ok (a, s') ↔ IMap.get m n = some a ∧ s = s' := by
  unfold lookup
  cases IMap.get m n with
  | none => simp only [fail_ok]; simp
  | some x => simp only [pure_run_ok]; simp

theorem fresh_ok {s s' : St} {n : Nat} :
    fresh s = .ok (n, s') ↔ n = s.tag ∧ s' = { s with tag := s.tag + 1 } := by
  rw [run_fresh]
  simp [eq_comm]

theorem finish_ok {env : Env} {P : PType} {e e' : AExpr} {s s' : St} :
    finish env P e s = .ok (e', s') → s = s' ∧ Fits env s.heap P e' ∧
      (e' = e ∨ ∃ t u, HasType s.heap e t ∧ Widens s.heap P t u ∧ e' = .cast e u) := by
  intro hf
  unfold finish at hf
  rw [withHeap_ok] at hf
  obtain ⟨hf, rfl⟩ := hf
  unfold finishR at hf
  rw [rbind_ok] at hf
  obtain ⟨o, ht, hf⟩ := hf
  cases o with
  | none => cases hf
  | some t =>
    simp only [rbind_ok] at hf
    obtain ⟨b, hb, hf⟩ := hf
    cases b with
    | true =>
      simp only [if_true, Except.ok.injEq] at hf
      subst hf
      exact ⟨rfl, .direct ht hb, .inl rfl⟩
    | false =>
      simp only [Bool.false_eq_true, if_false, rbind_ok] at hf
      obtain ⟨c, hc, hf⟩ := hf
      cases c with
      | false => simp at hf
      | true =>
        simp only [if_true] at hf
        cases hi : P.intoType with
        | none => simp [hi] at hf
        | some u =>
          simp only [hi, Except.ok.injEq] at hf
          subst hf
          exact ⟨rfl, .widened ht ⟨hc, hi⟩, .inr ⟨t, u, ht, ⟨hc, hi⟩, rfl⟩⟩

/-- What `finish` yields is well typed if what it was given is. -/
theorem finish_wt {env : Env} {p : Prog} {sc : Scope} {P : PType} {e e' : AExpr} {s s' : St}
    (h : finish env P e s = .ok (e', s')) (hw : WellTyped env p sc s.heap e) :
    s'.heap = s.heap ∧ Fits env s.heap P e' ∧ WellTyped env p sc s.heap e' := by
  obtain ⟨rfl, hf, hc⟩ := finish_ok h
  refine ⟨rfl, hf, ?_⟩
  rcases hc with rfl | ⟨t, u, ht, hwd, rfl⟩
  · exact hw
  · exact .widen hw ht hwd

theorem expectBoolR_ok {env : Env} {P : PType} {h : Heap} {u : Unit}
    (hb : expectBoolR env P h = .ok u) : Accepts env h P .bool := by
  unfold expectBoolR at hb
  rw [rbind_ok] at hb
  obtain ⟨b, h1, h2⟩ := hb
  cases b with
  | true => exact h1
  | false => cases h2

/-! ### Names -/

theorem resolveField_some {sc : Scope} {n : String} {f : FId} :
    resolveField sc n = some f ↔ FieldVisible sc n f := by
  induction sc with
  | nil => simp only [resolveField]; constructor
           · intro h; cases h
           · intro h; cases h
  | cons fr sc ih =>
    unfold resolveField
    cases hg : IMap.get fr.fields n with
    | none =>
      simp only []
      rw [ih]
      constructor
      · exact .outer hg
      · intro h; cases h with
        | here h => rw [hg] at h; cases h
        | outer _ h => exact h
    | some g =>
      simp only [Option.some.injEq]
      constructor
      · rintro rfl; exact .here hg
      · intro h; cases h with
        | here h => rw [hg] at h; exact Option.some.inj h
        | outer h _ => rw [hg] at h; cases h

theorem resolveInput_some {sc : Scope} {n : String} {t : AType} :
    resolveInput sc n = some t ↔ InputVisible sc n t := by
  induction sc with
  | nil => simp only [resolveInput]; constructor
           · intro h; cases h
           · intro h; cases h
  | cons fr sc ih =>
    unfold resolveInput
    cases hg : IMap.get fr.inputs n with
    | none =>
      simp only []
      rw [ih]
      constructor
      · exact .outer hg
      · intro h; cases h with
        | here h => rw [hg] at h; cases h
        | outer _ h => exact h
    | some g =>
      simp only [Option.some.injEq]
      constructor
      · rintro rfl; exact .here hg
      · intro h; cases h with
        | here h => rw [hg] at h; exact Option.some.inj h
        | outer h _ => rw [hg] at h; cases h

theorem no_field {sc : Scope} {n : String} (h : resolveField sc n = none) (f : FId) :
    ¬ FieldVisible sc n f := by
  rw [← resolveField_some, h]; simp

theorem no_input {sc : Scope} {n : String} (h : resolveInput sc n = none) (t : AType) :
    ¬ InputVisible sc n t := by
  rw [← resolveInput_some, h]; simp

theorem convRef_ok {p : Prog} {sc : Scope} {n : String} {s s' : St} {e : AExpr} :
    convRef p sc n s = .ok (e, s') ↔ Denotes p sc n e ∧ s = s' := by
  unfold convRef
  cases hf : resolveField sc n with
  | some f =>
    simp only [pure_run_ok]
    refine and_congr_left fun _ => ?_
    constructor
    · rintro rfl; exact .field (resolveField_some.1 hf)
    · intro h
      cases h with
      | field h => rw [← resolveField_some, hf] at h; rw [Option.some.inj h]
      | input h => exact absurd (resolveField_some.1 hf) (h _)
      | const h => exact absurd (resolveField_some.1 hf) (h _)
  | none =>
    cases hi : resolveInput sc n with
    | some t =>
      simp only [pure_run_ok]
      refine and_congr_left fun _ => ?_
      constructor
      · rintro rfl; exact .input (no_field hf) (resolveInput_some.1 hi)
      · intro h
        cases h with
        | field h => exact absurd h (no_field hf _)
        | input _ h => rw [← resolveInput_some, hi] at h; rw [Option.some.inj h]
        | const _ h => exact absurd (resolveInput_some.1 hi) (h _)
    | none =>
      cases hc : IMap.get p.consts n with
      | some c =>
        simp only [pure_run_ok]
        refine and_congr_left fun _ => ?_
        constructor
        · rintro rfl; exact .const (no_field hf) (no_input hi) hc
        · intro h
          cases h with
          | field h => exact absurd h (no_field hf _)
          | input _ h => exact absurd h (no_input hi _)
          | const _ _ h => rw [hc] at h; rw [Option.some.inj h]
      | none =>
        simp only [fail_ok, false_iff, not_and]
        intro h
        cases h with
        | field h => exact absurd h (no_field hf _)
        | input _ h => exact absurd h (no_input hi _)
        | const _ _ h => rw [hc] at h; cases h

theorem deref_ok {h : Heap} {f : FId} {x : AField} : deref h f = .ok x ↔ h[f]? = some x := by
  unfold deref
  cases h[f]? <;> simp

end Verif.Sem
