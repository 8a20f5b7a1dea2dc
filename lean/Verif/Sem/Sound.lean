import Verif.Sem.Lemmas
import Verif.ConstLemmas
/-!
# Converted expressions are well typed
-/
namespace Verif.Sem
open Verif

theorem convEnumAccess_ok {env : Env} {p : Prog} {sc : Scope} {n v : String} {s s' : St}
    {e : AExpr} (h : convEnumAccess p n v s = .ok (e, s')) :
    s = s' ∧ WellTyped env p sc s.heap e := by
  unfold convEnumAccess at h
  rw [withHeap_ok] at h
  obtain ⟨h, rfl⟩ := h
  unfold enumAccessR at h
  cases hg : IMap.get p.types n with
  | none => simp only [hg] at h; cases h
  | some f =>
    simp only [hg, rbind_ok, deref_ok] at h
    obtain ⟨x, hx, h⟩ := h
    split at h
    · rename_i tg nm rep items hty
      split at h
      · cases h
      · rename_i c hc
        cases h
        exact ⟨rfl, .variant hg hx ⟨_, _, _, _, hty, List.mem_of_find?_eq_some hc⟩⟩
      · cases h
    · rename_i tg nm rep items hty
      split at h
      · cases h
      · rename_i c hc
        cases h
        exact ⟨rfl, .flag hg hx ⟨_, _, _, _, hty, List.mem_of_find?_eq_some hc⟩⟩
    · cases h

theorem cparse_ok {k : Scalar} {l : List Char} {v : CInt} (h : CInt.parse k l = some v) :
    v.kind = k ∧ k.InRange v.val := by
  have key : ∀ r ds, (fromStrRadix k r ds).map (CInt.mk k) = some v →
      v.kind = k ∧ k.InRange v.val := by
    intro r ds h
    rw [Option.map_eq_some_iff] at h
    obtain ⟨n, hn, rfl⟩ := h
    unfold fromStrRadix at hn
    simp only [Option.bind_eq_some_iff] at hn
    obtain ⟨m, -, hm⟩ := hn
    by_cases hr : k.InRange m
    · rw [if_pos hr] at hm; cases hm; exact ⟨rfl, hr⟩
    · rw [if_neg hr] at hm; cases hm
  unfold CInt.parse at h
  split at h
  · exact key _ _ h
  · exact key _ _ h

theorem convInt_ok {env : Env} {p : Prog} {sc : Scope} {v : String} {t : Option Scalar} {P : PType}
    {s s' : St} {e : AExpr} (h : convInt v t P s = .ok (e, s')) :
    s = s' ∧ WellTyped env p sc s.heap e := by
  unfold convInt at h
  rw [liftR_ok] at h
  obtain ⟨h, rfl⟩ := h
  unfold convIntR at h
  split at h
  · cases h
  · split at h
    · rename_i k hk c hc
      cases h
      have := cparse_ok hc
      exact ⟨rfl, .int this.1 this.2⟩
    · cases h

theorem convMember_ok {env : Env} {p : Prog} {sc : Scope} {n : String} {t : AExpr} {s s' : St}
    {e : AExpr} (h : convMember t n s = .ok (e, s')) (hw : WellTyped env p sc s.heap t) :
    s = s' ∧ WellTyped env p sc s.heap e := by
  unfold convMember at h
  rw [withHeap_ok] at h
  obtain ⟨h, rfl⟩ := h
  unfold convMemberR at h
  rw [rbind_ok] at h
  obtain ⟨o, ht, h⟩ := h
  cases o with
  | none => cases h
  | some t =>
    simp only [rbind_ok] at h
    obtain ⟨r, hr, h⟩ := h
    split at h
    · split at h
      · rename_i c hc
        cases h
        exact ⟨rfl, .member hw ht ⟨_, _, _, _, hr, List.mem_of_find?_eq_some hc⟩⟩
      · cases h
    · cases h

theorem checkFfiCount_ok {ps : List FfiArg} {n : Nat} {s s' : St} {u : Unit}
    (h : checkFfiCount ps n s = .ok (u, s')) : required ps ≤ n ∧ n ≤ ps.length ∧ s = s' := by
  unfold checkFfiCount at h
  rw [liftR_ok] at h
  obtain ⟨h, rfl⟩ := h
  unfold ffiCountR at h
  extract_lets at h
  split at h
  · cases h
  · split at h
    · cases h
    · rename_i h1
      unfold required
      rw [List.countP_eq_length_filter]
      exact ⟨by omega, by omega, rfl⟩

theorem checkTypeCount_ok {ps : List AArg} {n : Nat} {s s' : St} {u : Unit}
    (h : checkTypeCount ps n s = .ok (u, s')) :
    (ps.countP fun a => a.default.isNone) ≤ n ∧ n ≤ ps.length ∧ s = s' := by
  unfold checkTypeCount at h
  rw [liftR_ok] at h
  obtain ⟨h, rfl⟩ := h
  unfold typeCountR at h
  extract_lets at h
  split at h
  · cases h
  · split at h
    · cases h
    · rename_i h1
      rw [List.countP_eq_length_filter]
      exact ⟨by omega, by omega, rfl⟩

/-- The conversion only reads the graph, and what it yields is well typed and fits. -/
def SoundE (env : Env) (p : Prog) (sc : Scope) (m : PType → M AExpr) : Prop :=
  ∀ P s e s', m P s = .ok (e, s') →
    s'.heap = s.heap ∧ Fits env s.heap P e ∧ WellTyped env p sc s.heap e

theorem convOperands_ok {env : Env} {p : Prog} {sc : Scope} {left right : PType → M AExpr}
    (hl : SoundE env p sc left) (hr : SoundE env p sc right) {P : PType} {s s' : St}
    {l r : AExpr} (h : convOperands left right P s = .ok ((l, r), s')) :
    s'.heap = s.heap ∧ WellTyped env p sc s.heap l ∧ WellTyped env p sc s.heap r ∧
      Agree env s.heap P l r := by
  unfold convOperands at h
  simp only [bind_run_ok, attempt_ok] at h
  obtain ⟨o, s1, ho, o2, s2, ho2, h⟩ := h
  have key : s1.heap = s.heap ∧ s2 = s1 := by
    rcases ho with ⟨a, ha, rfl⟩ | ⟨e, he, rfl, rfl⟩
    · simp only [typeOfLeft, typeOf_ok] at ho2
      exact ⟨(hl _ _ _ _ ha).1, ho2.2.symm⟩
    · simp only [typeOfLeft, pure_run_ok] at ho2
      exact ⟨rfl, ho2.2.symm⟩
  obtain ⟨hs1, rfl⟩ := key
  split at h
  · rename_i l0 lt
    rcases ho with ⟨a, ha, hoa⟩ | ⟨e, he, hc, -⟩
    · cases hoa
      obtain ⟨-, hfl, hwl⟩ := hl _ _ _ _ ha
      simp only [typeOfLeft, typeOf_ok] at ho2
      simp only [bind_run_ok, withHeap_ok] at h
      obtain ⟨Q, s3, ⟨hQ, rfl⟩, r0, s4, hr0, h⟩ := h
      simp only [pure_run_ok, Prod.mk.injEq] at h
      obtain ⟨⟨rfl, rfl⟩, rfl⟩ := h
      obtain ⟨hh, hfr, hwr⟩ := hr _ _ _ _ hr0
      rw [hs1] at hfr hwr hQ
      rw [hs1] at ho2
      exact ⟨hh.trans hs1, hwl, hwr, .inl ⟨hfl, _, _, ho2.1, hQ, hfr⟩⟩
    · cases hc
  · simp only [bind_run_ok, typeOf_ok] at h
    obtain ⟨r0, s3, hr0, o3, s4, ⟨ht, rfl⟩, h⟩ := h
    obtain ⟨hh, hfr, hwr⟩ := hr _ _ _ _ hr0
    cases o3 with
    | none => simp only [fail_ok] at h
    | some rt =>
      simp only [bind_run_ok, withHeap_ok] at h
      obtain ⟨Q, s5, ⟨hQ, rfl⟩, l0, s6, hl0, o4, s7, h4, h⟩ := h
      obtain ⟨hh2, hfl, hwl⟩ := hl _ _ _ _ hl0
      rw [typeOf_ok] at h4
      obtain ⟨-, rfl⟩ := h4
      cases o4 with
      | none => simp only [fail_ok] at h
      | some _ =>
        simp only [pure_run_ok, Prod.mk.injEq] at h
        obtain ⟨⟨rfl, rfl⟩, rfl⟩ := h
        rw [hs1] at hfr hwr hh
        rw [hh] at hfl hwl hQ hh2 ht
        exact ⟨hh2, hwl, hwr, .inr ⟨hfr, _, _, ht, hQ, hfl⟩⟩

theorem operandsOf_init (op : BinOp) (P : PType) : OperandsOf op P (initExpected op P) := by
  cases op <;> rfl

theorem checkUnary_ok {env : Env} {p : Prog} {sc : Scope} {op : UnOp} {P : PType} {e : AExpr}
    {s s' : St} {u : Unit} (h : checkUnary env op P e s = .ok (u, s'))
    (hf : Fits env s.heap P e) (hw : WellTyped env p sc s.heap e) :
    s = s' ∧ WellTyped env p sc s.heap (.unary op e) := by
  unfold checkUnary at h
  rw [withHeap_ok] at h
  obtain ⟨h, rfl⟩ := h
  refine ⟨rfl, ?_⟩
  cases op with
  | not => exact .not P hw hf (expectBoolR_ok h)
  | bitNot => exact .bitNot P hw hf
  | negate =>
    refine .negate P hw hf ?_
    intro s2 h2
    simp only [checkUnaryR, rbind_ok] at h
    obtain ⟨o, ho, h⟩ := h
    rw [HasType] at h2
    rw [h2] at ho
    cases ho
    simp only [rbind_ok] at h
    obtain ⟨b, hb, h⟩ := h
    cases b with
    | false => simp at h
    | true =>
      simp only [if_true] at h
      by_cases hs : s2.scalar.signed
      · exact hs
      · simp [hs] at h

theorem checkCast_ok {env : Env} {e : AExpr} {u : AType} {s s' : St} {x : Unit}
    (h : checkCast env e u s = .ok (x, s')) :
    s = s' ∧ ∃ t, HasType s.heap e t ∧ canCast env s.heap t u = .ok true := by
  unfold checkCast at h
  rw [withHeap_ok] at h
  obtain ⟨h, rfl⟩ := h
  unfold checkCastR at h
  rw [rbind_ok] at h
  obtain ⟨o, ht, h⟩ := h
  cases o with
  | none => cases h
  | some t =>
    simp only [rbind_ok] at h
    obtain ⟨b, hb, h⟩ := h
    cases b with
    | false => simp at h
    | true => exact ⟨rfl, t, ht, hb⟩

theorem ternaryRight_ok {P Q : PType} {t : AExpr} {s s' : St}
    (h : ternaryRight P t s = .ok (Q, s')) :
    s = s' ∧ (P = Q ∨ P = .any ∧ ∃ ty, HasType s.heap t ty ∧ Expects s.heap ty Q) := by
  unfold ternaryRight at h
  rw [withHeap_ok] at h
  obtain ⟨h, rfl⟩ := h
  unfold ternaryRightR at h
  split at h
  · rw [rbind_ok] at h
    obtain ⟨o, ht, h⟩ := h
    cases o with
    | none => cases h
    | some ty => exact ⟨rfl, .inr ⟨rfl, ty, ht, h⟩⟩
  · cases h; exact ⟨rfl, .inl rfl⟩

theorem checkBinary_ok {env : Env} {op : BinOp} {P : PType} {s s' : St} {u : Unit}
    (h : checkBinary env op P s = .ok (u, s')) :
    s = s' ∧ (boolOp op = true → Accepts env s.heap P .bool) := by
  unfold checkBinary at h
  rw [withHeap_ok] at h
  obtain ⟨h, rfl⟩ := h
  refine ⟨rfl, fun hb => ?_⟩
  rw [if_pos hb] at h
  exact expectBoolR_ok h

theorem argExpected_ok {t : Option AType} {P : PType} {s s' : St}
    (h : argExpected t s = .ok (P, s')) :
    s = s' ∧ (t = none ∧ P = .any ∨ ∃ t0, t = some t0 ∧ Expects s.heap t0 P) := by
  unfold argExpected at h
  rw [withHeap_ok] at h
  obtain ⟨h, rfl⟩ := h
  refine ⟨rfl, ?_⟩
  cases t with
  | none => cases h; exact .inl ⟨rfl, rfl⟩
  | some t => exact .inr ⟨t, rfl, h⟩

/-- Conversion of a list of arguments reads the graph only and yields well-typed arguments. -/
def SoundArgs (env : Env) (p : Prog) (sc : Scope)
    (m : List (Option AType) → M (List AExpr)) (n : Nat) : Prop :=
  ∀ ts s es s', m ts s = .ok (es, s') →
    s'.heap = s.heap ∧ WellTypedArgs env p sc s.heap es ts ∧ es.length = min n ts.length

mutual
theorem convE_sound (env : Env) (p : Prog) (sc : Scope) :
    ∀ e : Ast.Expression, SoundE env p sc (convE env p sc e)
  | .binary op l r => by
    intro P s e s' h
    have hl := convE_sound env p sc l
    have hr := convE_sound env p sc r
    rw [convE] at h
    simp only [bind_run_ok] at h
    obtain ⟨u, s1, h1, ⟨l', r'⟩, s2, h2, h3⟩ := h
    obtain ⟨rfl, -⟩ := checkBinary_ok h1
    obtain ⟨hh, hwl, hwr, hag⟩ := convOperands_ok hl hr h2
    have hw : WellTyped env p sc s.heap (.binary op l' r') :=
      .binary P _ hwl hwr (operandsOf_init op P) hag
    have := finish_wt h3 (hh.symm ▸ hw)
    rwa [hh] at this
  | .unary op e => by
    intro P s e' s' h
    have he := convE_sound env p sc e
    rw [convE] at h
    simp only [bind_run_ok, peek_ok] at h
    obtain ⟨i, s1, ⟨⟨s2, h1⟩, rfl⟩, u, s3, h2, i2, s4, h3, h4⟩ := h
    obtain ⟨hh, hf, hw⟩ := he _ _ _ _ h1
    obtain ⟨rfl, hw'⟩ := checkUnary_ok h2 hf hw
    rw [h1] at h3
    cases h3
    have := finish_wt h4 (hh.symm ▸ hw')
    rwa [hh] at this
  | .cast e ty => by
    intro P s e' s' h
    have he := convE_sound env p sc e
    have ht := convTy_sound env p sc ty
    rw [convE] at h
    simp only [bind_run_ok, check_ok] at h
    obtain ⟨u, s1, ⟨hi, rfl⟩, t, s2, h2, i, s3, h3, v, s4, h4, h5⟩ := h
    obtain ⟨hh1, hwt⟩ := ht _ (.inl hi) _ _ _ h2
    obtain ⟨hh2, hf, hw⟩ := he _ _ _ _ h3
    obtain ⟨rfl, tt, htt, hc⟩ := checkCast_ok h4
    rw [hh1] at hw hh2
    rw [hh2] at htt hc
    have := finish_wt h5 (hh2.symm ▸ WellTyped.cast hw hwt htt hc)
    rwa [hh2] at this
  | .index a i => by
    intro P s e' s' h
    have ha := convE_sound env p sc a
    have hi := convE_sound env p sc i
    rw [convE] at h
    simp only [bind_run_ok] at h
    obtain ⟨a', s1, h1, i', s2, h2, h3⟩ := h
    obtain ⟨hh1, hf1, hw1⟩ := ha _ _ _ _ h1
    obtain ⟨hh2, hf2, hw2⟩ := hi _ _ _ _ h2
    rw [hh1] at hf2 hw2 hh2
    have := finish_wt h3 (hh2.symm ▸ WellTyped.index hw1 hw2 hf1 hf2)
    rwa [hh2] at this
  | .enumAccess n v => by
    intro P s e' s' h
    rw [convE] at h
    simp only [bind_run_ok] at h
    obtain ⟨a', s1, h1, h3⟩ := h
    obtain ⟨rfl, hw⟩ := convEnumAccess_ok (env := env) (sc := sc) h1
    exact finish_wt h3 hw
  | .int v t => by
    intro P s e' s' h
    rw [convE] at h
    simp only [bind_run_ok] at h
    obtain ⟨a', s1, h1, h3⟩ := h
    obtain ⟨rfl, hw⟩ := convInt_ok (env := env) (p := p) (sc := sc) h1
    exact finish_wt h3 hw
  | .ref n => by
    intro P s e' s' h
    rw [convE] at h
    simp only [bind_run_ok, convRef_ok] at h
    obtain ⟨a', s1, ⟨h1, rfl⟩, h3⟩ := h
    exact finish_wt h3 (.name h1)
  | .str c => by
    intro P s e' s' h
    rw [convE] at h
    simp only [bind_run_ok, run_fresh, Except.ok.injEq, Prod.mk.injEq] at h
    obtain ⟨a', s1, ⟨rfl, rfl⟩, h3⟩ := h
    exact finish_wt (s := { s with tag := s.tag + 1 }) h3 .str
  | .ternary c t f => by
    intro P s e' s' h
    have hc := convE_sound env p sc c
    have ht := convE_sound env p sc t
    have hf := convE_sound env p sc f
    rw [convE] at h
    simp only [bind_run_ok] at h
    obtain ⟨c', s1, h1, t', s2, h2, Q, s3, h3, f', s4, h4, h5⟩ := h
    obtain ⟨hh1, hf1, hw1⟩ := hc _ _ _ _ h1
    obtain ⟨hh2, hf2, hw2⟩ := ht _ _ _ _ h2
    obtain ⟨rfl, hq⟩ := ternaryRight_ok h3
    obtain ⟨hh4, hf4, hw4⟩ := hf _ _ _ _ h4
    rw [hh1] at hf2 hw2 hh2
    rw [hh2] at hf4 hw4 hh4 hq
    have := finish_wt h5 (hh4.symm ▸ WellTyped.ternary P Q hw1 hw2 hw4 hf1 hf2 hf4 hq)
    rwa [hh4] at this
  | .bool b => by
    intro P s e' s' h
    rw [convE] at h
    exact finish_wt h .bool
  | .call fn args => by
    intro P s e' s' h
    have ha := convArgs_sound env p sc args
    rw [convE] at h
    simp only [bind_run_ok, lookup_ok] at h
    obtain ⟨sig, s0, ⟨hsig, rfl⟩, u, s1, h1, args', s2, h2, h3⟩ := h
    obtain ⟨hmin, hmax, rfl⟩ := checkFfiCount_ok h1
    obtain ⟨hh, hw, hlen⟩ := ha _ _ _ _ h2
    rw [List.length_map] at hlen
    have := finish_wt h3 (hh.symm ▸ WellTyped.call hsig (by omega) (by omega) hw)
    rwa [hh] at this
  | .member t m => by
    intro P s e' s' h
    have ht := convE_sound env p sc t
    rw [convE] at h
    simp only [bind_run_ok] at h
    obtain ⟨t', s1, h1, e1, s2, h2, h3⟩ := h
    obtain ⟨hh, hf, hw⟩ := ht _ _ _ _ h1
    rw [← hh] at hw
    obtain ⟨rfl, hw'⟩ := convMember_ok h2 hw
    have := finish_wt h3 hw'
    rwa [hh] at this
theorem convArgs_sound (env : Env) (p : Prog) (sc : Scope) :
    ∀ es : List Ast.Expression, SoundArgs env p sc (convArgs env p sc es) es.length
  | [] => by
    intro ts s es s' h
    rw [convArgs] at h
    simp only [pure_run_ok] at h
    obtain ⟨rfl, rfl⟩ := h
    exact ⟨rfl, .nil, by simp⟩
  | e :: es => by
    intro ts s es' s' h
    have he := convE_sound env p sc e
    have hes := convArgs_sound env p sc es
    cases ts with
    | nil =>
      rw [convArgs] at h
      simp only [pure_run_ok] at h
      obtain ⟨rfl, rfl⟩ := h
      exact ⟨rfl, .nil, by simp⟩
    | cons t ts =>
      rw [convArgs] at h
      simp only [bind_run_ok, pure_run_ok] at h
      obtain ⟨P, s1, h1, e', s2, h2, es2, s3, h3, rfl, rfl⟩ := h
      obtain ⟨rfl, hP⟩ := argExpected_ok h1
      obtain ⟨hh, hf, hw⟩ := he _ _ _ _ h2
      obtain ⟨hh3, hw3, hl3⟩ := hes _ _ _ _ h3
      rw [hh] at hw3 hh3
      refine ⟨hh3, ?_, by simp only [List.length_cons, hl3]; omega⟩
      rcases hP with ⟨rfl, rfl⟩ | ⟨t0, rfl, hP⟩
      · exact .any hw hf hw3
      · exact .typed hw hP hf hw3
theorem convOpt_sound (env : Env) (p : Prog) (sc : Scope) :
    ∀ (o : Option Ast.Expression) P s o' s', convOpt env p sc o P s = .ok (o', s') →
      s'.heap = s.heap ∧
        ∀ e, o' = some e → Fits env s.heap P e ∧ WellTyped env p sc s.heap e
  | none => by
    intro P s o' s' h
    rw [convOpt] at h
    simp only [pure_run_ok] at h
    obtain ⟨rfl, rfl⟩ := h
    exact ⟨rfl, fun _ h => by cases h⟩
  | some e => by
    intro P s o' s' h
    have he := convE_sound env p sc e
    rw [convOpt] at h
    simp only [bind_run_ok, pure_run_ok] at h
    obtain ⟨e', s1, h1, rfl, rfl⟩ := h
    obtain ⟨hh, hf, hw⟩ := he _ _ _ _ h1
    exact ⟨hh, fun _ h => by cases h; exact ⟨hf, hw⟩⟩
theorem convTy_sound (env : Env) (p : Prog) (sc : Scope) :
    ∀ (ty : Ast.Ty) (pu : Purpose) (_ : inlinable ty = true ∨ pu = .arrayInterior) s t s',
      convTy env p sc ty pu s = .ok (t, s') → s'.heap = s.heap ∧ WellTypedT env p sc s.heap t
  | .container len fl items => by
    intro pu hi s t s' h
    rcases hi with hi | rfl
    · cases hi
    · rw [convTy] at h; simp only [bind_run_ok, check_ok] at h; obtain ⟨_, _, ⟨h, _⟩, _⟩ := h; cases h
  | .enum rep items => by
    intro pu hi s t s' h
    rcases hi with hi | rfl
    · cases hi
    · rw [convTy] at h; simp only [bind_run_ok, definedName, fail_ok] at h; obtain ⟨_, _, h, _⟩ := h; exact h.elim
  | .bitfield rep items => by
    intro pu hi s t s' h
    rcases hi with hi | rfl
    · cases hi
    · rw [convTy] at h; simp only [bind_run_ok, definedName, fail_ok] at h; obtain ⟨_, _, h, _⟩ := h; exact h.elim
  | .scalar sc' => by
    intro pu hi s t s' h
    rw [convTy] at h
    simp only [pure_run_ok] at h
    obtain ⟨rfl, rfl⟩ := h
    exact ⟨rfl, .scalar⟩
  | .array el x len => by
    intro pu hi s t s' h
    have hel := convTy_sound env p sc el
    have hlen := convOpt_sound env p sc len
    rw [convTy] at h
    simp only [bind_run_ok, pure_run_ok, run_fresh, Except.ok.injEq, Prod.mk.injEq] at h
    obtain ⟨len', s1, h1, el', s2, h2, tg, s3, ⟨rfl, rfl⟩, rfl, rfl⟩ := h
    obtain ⟨hh1, hw1⟩ := hlen _ _ _ _ h1
    obtain ⟨hh2, hw2⟩ := hel _ (.inr rfl) _ _ _ h2
    rw [hh1] at hh2 hw2
    refine ⟨hh2, ?_⟩
    cases len' with
    | none => exact .array hw2
    | some l =>
      obtain ⟨hf, hw⟩ := hw1 l rfl
      cases x with
      | true => exact .terminated hw2 hw hf
      | false => exact .sized hw2 hw hf
  | .f32 => by
    intro pu hi s t s' h
    rw [convTy] at h
    simp only [pure_run_ok] at h
    obtain ⟨rfl, rfl⟩ := h
    exact ⟨rfl, .f32⟩
  | .f64 => by
    intro pu hi s t s' h
    rw [convTy] at h
    simp only [pure_run_ok] at h
    obtain ⟨rfl, rfl⟩ := h
    exact ⟨rfl, .f64⟩
  | .bool => by
    intro pu hi s t s' h
    rw [convTy] at h
    simp only [pure_run_ok] at h
    obtain ⟨rfl, rfl⟩ := h
    exact ⟨rfl, .bool⟩
  | .ref n args => by
    intro pu hi s t s' h
    have ha := convArgs_sound env p sc args
    rw [convTy] at h
    simp only [bind_run_ok, lookup_ok, withHeap_ok, deref_ok, pure_run_ok] at h
    obtain ⟨f, s0, ⟨hf, rfl⟩, x, s1, ⟨hx, rfl⟩, u, s2, h2, args', s3, h3, rfl, rfl⟩ := h
    obtain ⟨hmin, hmax, rfl⟩ := checkTypeCount_ok h2
    obtain ⟨hh, hw, hlen⟩ := ha _ _ _ _ h3
    rw [List.length_map] at hlen
    exact ⟨hh, .ref hf hx (by omega) (by omega) hw⟩
end

end Verif.Sem
