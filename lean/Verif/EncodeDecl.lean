import Verif.EncodeSim
/-!
# The generated encoders compute the specified function: declarations
-/
namespace Verif.Enc

/-! ## Binding the names of a container -/

theorem genRefs_le (src : Nat) (as : List FAttr) (c : Nat) : c ≤ (genRefs src as c).1 := by
  induction as generalizing c with
  | nil => exact Nat.le_refl _
  | cons a as ih =>
    simp only [genRefs]
    split
    · exact ih c
    · have := ih (c + 1); simp only; omega

theorem genCalculated_le (as : List FAttr) (c : Nat) : c ≤ (genCalculated as c).1 := by
  induction as generalizing c with
  | nil => exact Nat.le_refl _
  | cons a as ih =>
    simp only [genCalculated]
    cases a.auto with
    | none => exact ih c
    | some e =>
      simp only
      split
      · have := ih (c + 1); simp only; omega
      · exact ih c

theorem refs_genRefs (src : Nat) (as : List FAttr) (c : Nat) (m : Refs) :
    ∃ ns, RefsStep c (genRefs src as c).1 ns m (refsAfter (genRefs src as c).2 m) := by
  induction as generalizing c m with
  | nil => exact ⟨[], RefsStep.refl c m⟩
  | cons a as ih =>
    simp only [genRefs]
    split
    · exact ih c m
    · simp only [refsAfter]
      obtain ⟨ns, h⟩ := ih (c + 1) (upd m a.name (some c))
      exact ⟨_, (RefsStep.one m a.name).trans h (by omega) (genRefs_le _ _ _)⟩

theorem refs_genCalculated (as : List FAttr) (c : Nat) (m : Refs) :
    ∃ ns, RefsStep c (genCalculated as c).1 ns m (refsAfter (genCalculated as c).2 m) := by
  induction as generalizing c m with
  | nil => exact ⟨[], RefsStep.refl c m⟩
  | cons a as ih =>
    simp only [genCalculated]
    cases a.auto with
    | none => exact ih c m
    | some e =>
      simp only
      split
      · simp only [refsAfter]
        obtain ⟨ns, h⟩ := ih (c + 1) (upd m a.name (some c))
        exact ⟨_, (RefsStep.one m a.name).trans h (by omega) (genCalculated_le _ _)⟩
      · exact ih c m

theorem sim_refs {X : Ext} {t T : Target} {src : Nat} {v : Val} (as : List FAttr) :
    ∀ (m : Refs) (s : State) (c : Nat) (env : Env), Ctx m s c t env → src < c → s.regs src = some v →
      Sim X m (genRefs src as c).2 s c (genRefs src as c).1 T
        (do let env' ← encStored v as env; .ok (env', []))
        (fun env' regs => (fun n => (refsAfter (genRefs src as c).2 m n).bind regs) = env') := by
  induction as with
  | nil => intro m s c env h _ _; exact Sim.nil h.env_eq
  | cons a as ih =>
    intro m s c env h hsrc hv
    simp only [genRefs, encStored]
    split
    · exact ih m s c env h hsrc hv
    · have hle := genRefs_le src as (c + 1)
      have h0 : ∀ Q, exec X m (.op (.getName c src a.name) (.op (.setRef a.name c) Q)) s =
          match fieldOf v a.name with
          | .ok x => exec X (upd m a.name (some c)) Q (s.setReg c x)
          | .error f => .fault f := by
        intro Q
        rw [exec_one (by simp) (by simp)]
        simp only [execOp, State.reg, hv, optRes, ok_bind]
        cases fieldOf v a.name <;> rfl
      cases hx : fieldOf v a.name with
      | error f => simp only [err_bind, Sim]; rw [h0, hx]
      | ok x =>
        simp only [ok_bind]
        refine Sim.pre (by rw [h0, hx]) (Frame.setReg _ s x (Nat.le_refl c))
          (Above.setReg s x (by omega)) (by omega : c ≤ c + 1) ?_
        exact ih _ _ _ _ (h.bind a.name x) (by omega) (by rw [setReg_ne _ _ (by omega), hv])

theorem sim_calculated {X : Ext} {t T : Target} (as : List FAttr) :
    ∀ (m : Refs) (s : State) (c : Nat) (env : Env), Ctx m s c t env →
      Sim X m (genCalculated as c).2 s c (genCalculated as c).1 T
        (do let env' ← encCalculated X as env; .ok (env', []))
        (fun env' regs => (fun n => (refsAfter (genCalculated as c).2 m n).bind regs) = env') := by
  induction as with
  | nil => intro m s c env h; exact Sim.nil h.env_eq
  | cons a as ih =>
    intro m s c env h
    simp only [genCalculated, encCalculated]
    cases a.auto with
    | none => exact ih m s c env h
    | some e =>
      simp only
      by_cases hb : e.blens.isEmpty = true
      · simp only [if_pos hb]
        have hle := genCalculated_le as (c + 1)
        cases hx : ev X env e with
        | error f => simp only [err_bind, Sim]; rw [exec_eval h, hx]
        | ok x =>
          simp only [ok_bind]
          refine Sim.pre (by rw [exec_eval h, hx]) (Frame.setReg _ s x (Nat.le_refl c))
            (Above.setReg s x (by omega)) (by omega : c ≤ c + 1) ?_
          exact ih _ _ _ _ (h.bind a.name x)
      · simp only [if_neg hb]
        exact ih m s c env h

theorem genNames_le (ns : List String) (c : Nat) : c ≤ (genNames ns c).1 := by
  induction ns generalizing c with
  | nil => exact Nat.le_refl _
  | cons n ns ih => simp only [genNames]; have := ih (c + 1); omega

theorem genNames_fst (ns : List String) (c : Nat) : (genNames ns c).2.map (·.1) = ns := by
  induction ns generalizing c with
  | nil => rfl
  | cons n ns ih => simp only [genNames, List.map_cons]; rw [ih]

theorem refs_setRefs (ns : List String) (c : Nat) (m : Refs) :
    RefsStep c (genNames ns c).1 ns m (refsAfter (setRefs (genNames ns c).2) m) := by
  induction ns generalizing c m with
  | nil => exact RefsStep.refl c m
  | cons n ns ih =>
    simp only [genNames, setRefs, refsAfter]
    exact (RefsStep.one m n).trans (ih (c + 1) _) (by omega) (genNames_le _ _)

theorem exec_setRefs (X : Ext) (rs : List (String × Nat)) (Q : Prog) (m : Refs) (s : State) :
    exec X m (setRefs rs ++ Q) s = exec X (refsAfter (setRefs rs) m) Q s := by
  induction rs generalizing m with
  | nil => rfl
  | cons p rs ih =>
    obtain ⟨n, r⟩ := p
    simp only [setRefs, Prog.op_append, exec, refsAfter]
    exact ih _

theorem Ctx.bindNames {t : Target} (ns : List String) :
    ∀ {m : Refs} {s : State} {c : Nat} {env : Env} {vs : List Val}, vs.length = ns.length → Ctx m s c t env →
      Ctx (refsAfter (setRefs (genNames ns c).2) m) { s with regs := bindRegs s.regs (genNames ns c).2 vs }
        (genNames ns c).1 t (Enc.bindNames ns vs env) ∧
      Frame c (s.sink t) [] s { s with regs := bindRegs s.regs (genNames ns c).2 vs } ∧
      Above (genNames ns c).1 s { s with regs := bindRegs s.regs (genNames ns c).2 vs } := by
  induction ns with
  | nil =>
    intro m s c env vs _ h
    cases vs <;> exact ⟨h, Frame.refl _ _ _, Above.refl _ _⟩
  | cons n ns ih =>
    intro m s c env vs hl h
    cases vs with
    | nil => simp at hl
    | cons v vs =>
      obtain ⟨h1, h2, h3⟩ := ih (vs := vs) (by simpa using hl) (h.bind n v)
      have hle := genNames_le ns (c + 1)
      refine ⟨h1, ?_, ?_⟩
      · have := (Frame.setReg (s.sink t) s v (Nat.le_refl c)).trans (by rw [setReg_sink] at h2; exact h2)
          (by omega : c ≤ c + 1)
        exact this
      · exact (Above.setReg s v (by simp only [genNames]; omega)).trans h3

/-! ## Tagged enums -/

theorem genArm_ok (en : String) (t : Target) (arm : Arm) (g : GState)
    (h : (genArm en t arm g).1.ok = true) : g.ok = true := by
  simp only [genArm] at h
  cases hb : arm.body with
  | leaf ty => rw [hb] at h; exact h
  | cont len items => rw [hb] at h; have := genItems_ok items _ _ _ _ h; exact this

/-- The code of an arm after its condition. -/
def armBody (en : String) (t : Target) (arm : Arm) (g : GState) (c1 : Nat) : GState × Prog :=
  match arm.body with
  | .leaf ty =>
    let (c2, po, t', pc) := genXforms t (c1 + 1) arm.attr.xfs
    let (c3, pl) := genLeaf t' ty c1 c2
    ({ g with c := c3 }, .op (.unwrapEnum en arm.attr.name 0 c1 variantMsg) (po ++ pl ++ pc ++ .one .brk))
  | .cont _ items =>
    let (c2, rs) := genNames items.names (c1 + 1)
    let (c3, p3) := genCalculated items.leaves c2
    let (g4, p4) := genItems false t items { g with c := c3 } []
    (g4, .op (.unwrapStruct en arm.attr.name 0 rs variantMsg) (setRefs rs ++ p3 ++ p4 ++ .one .brk))

theorem genArm_eq (en : String) (t : Target) (arm : Arm) (g : GState) :
    genArm en t arm g = ((armBody en t arm g (genCond arm.attr.cond g.c).1).1,
      (genCond arm.attr.cond g.c).2.1 ++ wrapCond (genCond arm.attr.cond g.c).2.2
        (armBody en t arm g (genCond arm.attr.cond g.c).1).2) := by
  simp only [genArm, armBody]
  cases arm.body <;> rfl

/-- Counters and names through an arm. -/
theorem armBody_static (en : String) (t : Target) (arm : Arm) (g : GState) (c1 : Nat) (p : Plan) (m : Refs)
    (hp : PlanRel g p) (hok : (armBody en t arm g c1).1.ok = true) :
    c1 ≤ (armBody en t arm g c1).1.c ∧ PlanRel (armBody en t arm g c1).1 (planArm arm p) ∧
      (∃ ns, RefsStep c1 (armBody en t arm g c1).1.c ns m (refsAfter (armBody en t arm g c1).2 m)) ∧
      ∃ new, RefsStep c1 (armBody en t arm g c1).1.c new g.resolved (armBody en t arm g c1).1.resolved := by
  simp only [armBody, planArm] at hok ⊢
  cases hb : arm.body with
  | leaf ty =>
    rw [hb] at hok
    simp only at hok ⊢
    have h1 := genXforms_le t (c1 + 1) arm.attr.xfs
    have h2 := genLeaf_le (genXforms t (c1 + 1) arm.attr.xfs).2.2.1 ty c1 (genXforms t (c1 + 1) arm.attr.xfs).1
    have hle : c1 ≤ (genLeaf (genXforms t (c1 + 1) arm.attr.xfs).2.2.1 ty c1 (genXforms t (c1 + 1) arm.attr.xfs).1).1 :=
      Nat.le_trans (by omega) h2
    refine ⟨hle, hp.setC _, ⟨[], ?_⟩, [], (RefsStep.refl _ _).mono (Nat.le_refl _) hle⟩
    have : ∀ m, refsAfter (.op (.unwrapEnum en arm.attr.name 0 c1 variantMsg)
        ((genXforms t (c1 + 1) arm.attr.xfs).2.1 ++
          (genLeaf (genXforms t (c1 + 1) arm.attr.xfs).2.2.1 ty c1 (genXforms t (c1 + 1) arm.attr.xfs).1).2 ++
          (genXforms t (c1 + 1) arm.attr.xfs).2.2.2 ++ .one .brk)) m = m := by
      intro m
      simp only [refsAfter, refsAfter_append, refsAfter_genXforms, refsAfter_genLeaf, Prog.one_def]
    rw [this]
    exact (RefsStep.refl _ _).mono (Nat.le_refl _) hle
  | cont len items =>
    rw [hb] at hok
    simp only at hok ⊢
    have h1 := genNames_le items.names (c1 + 1)
    have r1 := refs_setRefs items.names (c1 + 1) m
    generalize hN : genNames items.names (c1 + 1) = N at *
    obtain ⟨c2, rs⟩ := N
    simp only at hok h1 r1 ⊢
    have h2 := genCalculated_le items.leaves c2
    obtain ⟨n2, r2⟩ := refs_genCalculated items.leaves c2 (refsAfter (setRefs rs) m)
    generalize hC : genCalculated items.leaves c2 = C at *
    obtain ⟨c3, p3⟩ := C
    simp only at hok h2 r2 ⊢
    obtain ⟨i1, i2, i3, i4, new, i5, i6⟩ := genItems_static items false t { g with c := c3 } [] p
      (refsAfter p3 (refsAfter (setRefs rs) m)) (hp.setC _) (by simp) hok
    simp only at i2 i3 i6
    refine ⟨by omega, i4, ⟨items.names ++ n2 ++ (setNames false items ++ []), ?_⟩, new, i6.mono (by omega) (Nat.le_refl _)⟩
    simp only [refsAfter, refsAfter_append, Prog.one_def]
    exact (((r1.trans r2 h1 h2).trans i3 (by omega) i2)).mono (by omega) (Nat.le_refl _)

theorem mapM_optRes_length {α β : Type} (f : α → Res β) : ∀ (l : List α) (vs : List β), l.mapM f = .ok vs → vs.length = l.length := by
  intro l
  induction l with
  | nil => intro vs h; simp [pure, Except.pure] at h; subst h; rfl
  | cons a l ih =>
    intro vs h
    simp only [List.mapM_cons] at h
    cases ha : f a with
    | error e => rw [ha] at h; simp [err_bind] at h
    | ok b =>
      rw [ha, ok_bind] at h
      cases hl : l.mapM f with
      | error e => rw [hl] at h; cases h
      | ok bs =>
        rw [hl, ok_bind] at h
        simp [pure, Except.pure] at h
        subst h
        simp [ih bs hl]

theorem unwrapStruct_length {en d msg : String} {names : List String} {v : Val} {vs : List Val}
    (h : unwrapStruct en d msg names v = .ok vs) : vs.length = names.length := by
  unfold unwrapStruct at h
  split at h
  · split at h
    · cases h
    · split at h
      · exact mapM_optRes_length _ _ _ h
      · cases h
  · split at h
    · cases h
    · split at h <;> cases h
  · cases h

/-- The code of an arm that was chosen. -/
theorem sim_armBody {X : Ext} {en : String} {t : Target} {arm : Arm} {g : GState} {c1 : Nat} {p : Plan}
    {m : Refs} {s : State} {v : Val}
    (h : Ctx m s c1 t Env.empty) (_h0 : 0 < c1) (hv : s.regs 0 = some v) (hfresh : Fresh c1 s)
    (hp : PlanRel g p) (hl : (fun f => (g.resolved f).bind s.regs) = Env.empty)
    (hr : ∀ f r, g.resolved f = some r → r < c1)
    (hok : (armBody en t arm g c1).1.ok = true) :
    match encArm X en arm p v with
    | .ok bs => ∃ s', exec X m (armBody en t arm g c1).2 s = .brk s' ∧ Frame c1 (s.sink t) bs s s'
    | .error f => exec X m (armBody en t arm g c1).2 s = .fault f := by
  simp only [armBody, encArm] at hok ⊢
  cases hb : arm.body with
  | leaf ty =>
    simp only
    have hxle := genXforms_le t (c1 + 1) arm.attr.xfs
    have hex : ∀ Q, exec X m (.op (.unwrapEnum en arm.attr.name 0 c1 variantMsg) Q) s =
        match unwrapEnum en arm.attr.name variantMsg v with
        | .ok w => exec X m Q (s.setReg c1 w)
        | .error f => .fault f := by
      intro Q
      rw [exec_one (by simp) (by simp)]
      simp only [execOp, State.reg, hv, optRes, ok_bind]
      cases unwrapEnum en arm.attr.name variantMsg v <;> rfl
    cases hw : unwrapEnum en arm.attr.name variantMsg v with
    | error f => simp only [err_bind]; rw [hex, hw]
    | ok w =>
      simp only [ok_bind]
      have hctx := h.set w (Nat.le_refl c1) (by omega : c1 ≤ c1 + 1)
      have hx := sim_xforms (X := X) (m := m) (env := Env.empty)
        (B := (genLeaf (genXforms t (c1 + 1) arm.attr.xfs).2.2.1 ty c1 (genXforms t (c1 + 1) arm.attr.xfs).1).2)
        (c3 := (genLeaf (genXforms t (c1 + 1) arm.attr.xfs).2.2.1 ty c1 (genXforms t (c1 + 1) arm.attr.xfs).1).1)
        (r := bare (encLeaf X Env.empty ty w)) (post := noPost) arm.attr.xfs (s.setReg c1 w) (c1 + 1) t hctx
        (genLeaf_le _ _ _ _) (by
          intro s1 k1 k2 k3
          exact sim_leaf ty s1 c1 _ w k1 (by omega) (by rw [k2.regs c1 (by omega)]; simp))
      have hbare : (do let bs ← encLeaf X Env.empty ty w; Except.ok ((), bs)) = bare (encLeaf X Env.empty ty w) := rfl
      rw [hbare]
      have hassoc : ∀ (a b c d : Prog), a ++ b ++ c ++ d = (a ++ (b ++ c)) ++ d := by
        intro a b c d; simp only [Prog.append_assoc]
      rw [hassoc, hex, hw]
      simp only
      rw [setReg_sink] at hx
      cases hr : encXforms X Env.empty arm.attr.xfs (bare (encLeaf X Env.empty ty w)) with
      | error f =>
        rw [hr] at hx
        simp only [Sim] at hx
        simp only [err_bind]
        rw [exec_append, hx]; rfl
      | ok q =>
        obtain ⟨a, bs⟩ := q
        rw [hr] at hx
        obtain ⟨s1, k1, k2, k3, _⟩ := hx
        simp only [ok_bind]
        refine ⟨s1, ?_, ?_⟩
        · rw [exec_append, k1]; rfl
        · exact (Frame.setReg _ s w (Nat.le_refl c1)).trans k2 (by omega)
  | cont len items =>
    rw [hb] at hok
    simp only at hok ⊢
    have hnle := genNames_le items.names (c1 + 1)
    have hfst := genNames_fst items.names (c1 + 1)
    have hbn := fun (vs : List Val) (hvs : vs.length = items.names.length) =>
      Ctx.bindNames (t := t) items.names hvs
        (h.step (Frame.refl c1 (s.sink t) s) (by omega : c1 ≤ c1 + 1))
    generalize hN : genNames items.names (c1 + 1) = N at *
    obtain ⟨c2, rs⟩ := N
    simp only at hok hnle hfst hbn ⊢
    have hcle := genCalculated_le items.leaves c2
    have hcs := fun m s env hh => @sim_calculated X t (s.sink t) items.leaves m s c2 env hh
    obtain ⟨n2, r2⟩ := refs_genCalculated items.leaves c2 (refsAfter (setRefs rs) m)
    generalize hC : genCalculated items.leaves c2 = C at *
    obtain ⟨c3, p3⟩ := C
    simp only at hok hcle hcs r2 ⊢
    have hex : ∀ Q, exec X m (.op (.unwrapStruct en arm.attr.name 0 rs variantMsg) Q) s =
        match unwrapStruct en arm.attr.name variantMsg items.names v with
        | .ok vs => exec X m Q { s with regs := bindRegs s.regs rs vs }
        | .error f => .fault f := by
      intro Q
      rw [exec_one (by simp) (by simp)]
      simp only [execOp, State.reg, hv, optRes, ok_bind, hfst]
      cases unwrapStruct en arm.attr.name variantMsg items.names v <;> rfl
    rw [hex]
    cases hw : unwrapStruct en arm.attr.name variantMsg items.names v with
    | error f => simp only [err_bind]
    | ok vs =>
      simp only [ok_bind]
      obtain ⟨b1, b2, b3⟩ := hbn vs (unwrapStruct_length hw)
      generalize hs1 : ({ s with regs := bindRegs s.regs rs vs } : State) = s1 at *
      simp only [Prog.append_assoc]
      rw [exec_setRefs]
      have hsk1 : s1.sink t = s.sink t := by rw [← hs1]; cases t <;> rfl
      have hc := hcs _ _ _ b1
      cases hE : encCalculated X items.leaves (bindNames items.names vs Env.empty) with
      | error f =>
        rw [hE] at hc
        simp only [err_bind, Sim] at hc ⊢
        rw [exec_append, hc]; rfl
      | ok env =>
        rw [hE] at hc
        simp only [ok_bind, Sim] at hc ⊢
        obtain ⟨s2, k1, k2, k3, k4⟩ := hc
        have hf2 : Frame c1 (s.sink t) [] s s2 := by
          have := (b2.mono (by omega : c1 ≤ c1 + 1)).trans (by rw [hsk1] at k2; exact k2) (by omega : c1 ≤ c2)
          simpa using this
        have ha2 : Above c3 s s2 := (b3.mono hcle).trans k3
        have hst2 := b1.step k2 hcle
        have hic : ICtx (refsAfter p3 (refsAfter (setRefs rs) m)) s2 c3 c3 t env Env.empty g.resolved [] [] := by
          refine ⟨⟨k4, r2.lt b1.refs_lt hcle, hst2.tlt, hst2.slt, hst2.live, hst2.root⟩, Nat.le_refl _, hst2.tlt,
            hst2.slt, ?_, ?_, trivial, hfresh.step ha2 (by omega)⟩
          · rw [← hl]; exact env_frame hr hf2.regs
          · intro f r hf; have := hr f r hf; omega
        have hi := sim_items X items false t { g with c := c3 } p c3 Env.empty [] _ s2 env [] (hp.setC _) hic hok
        have hsk2 : s2.sink t = s.sink t := sink_eq hf2.info h.tlt
        rw [hsk2] at hi
        rw [exec_append, k1]
        simp only [Out.andThen]
        rw [exec_append]
        cases hei : encItems X false items p env Env.empty [] with
        | error f =>
          rw [hei] at hi
          simp only [LSim] at hi
          simp only [err_bind]
          rw [hi]; rfl
        | ok q =>
          obtain ⟨x, bs⟩ := q
          rw [hei] at hi
          obtain ⟨s3, j1, j2, j3, _⟩ := hi
          simp only [ok_bind]
          refine ⟨s3, ?_, ?_⟩
          · rw [j1]; rfl
          · have := hf2.trans j2 (by omega : c1 ≤ c3)
            simpa using this

/-- All arms. -/
theorem sim_arms {X : Ext} {en : String} {t : Target} {v : Val} (arms : List Arm) :
    ∀ (g : GState) (p : Plan) (m : Refs) (s : State), Ctx m s g.c t Env.empty → 0 < g.c →
      s.regs 0 = some v → Fresh g.c s → PlanRel g p → (fun f => (g.resolved f).bind s.regs) = Env.empty →
      (∀ f r, g.resolved f = some r → r < g.c) → (genArms en t arms g).1.ok = true →
      match encArms X en arms p v with
      | .ok bs => ∃ s', (exec X m (genArms en t arms g).2 s = .next s' ∨
          exec X m (genArms en t arms g).2 s = .brk s') ∧ Frame g.c (s.sink t) bs s s'
      | .error f => exec X m (genArms en t arms g).2 s = .fault f := by
  induction arms with
  | nil =>
    intro g p m s h _ _ _ _ _ _ _
    exact ⟨s, Or.inl rfl, Frame.refl _ _ _⟩
  | cons arm arms ih =>
    intro g p m s h h0 hv hfresh hp hl hr hok
    simp only [genArms, encArms] at hok ⊢
    have hok1 : (genArm en t arm g).1.ok = true := by
      have : ∀ (arms : List Arm) (g : GState), (genArms en t arms g).1.ok = true → g.ok = true := by
        intro arms
        induction arms with
        | nil => intro g h; exact h
        | cons a as ih => intro g h; exact genArm_ok _ _ _ _ (ih _ h)
      exact this _ _ hok
    rw [genArm_eq] at hok hok1 ⊢
    simp only at hok hok1 ⊢
    cases hc : arm.attr.cond with
    | none =>
      rw [hc] at hok hok1
      simp only [genCond, wrapCond, Prog.nil_append] at hok hok1 ⊢
      have hs := sim_armBody (X := X) (en := en) (arm := arm) h h0 hv hfresh hp hl hr hok1
      rw [exec_append]
      cases he : encArm X en arm p v with
      | error f => rw [he] at hs; simp only at hs ⊢; rw [hs]; rfl
      | ok bs =>
        rw [he] at hs
        obtain ⟨s', k1, k2⟩ := hs
        exact ⟨s', Or.inr (by rw [k1]; rfl), k2⟩
    | some e =>
      rw [hc] at hok hok1
      simp only [genCond, wrapCond, Prog.one_append, Prog.op_append, Prog.cond_append, Prog.nil_append] at hok hok1 ⊢
      cases hev : ev X Env.empty e with
      | error f => simp only [err_bind]; rw [exec_eval h, hev]
      | ok cv =>
        simp only [ok_bind]
        rw [exec_eval h, hev]
        simp only
        cases cv with
        | bool b =>
          simp only [Val.toBool, ok_bind, exec, setReg_same]
          have hctx := h.set (.bool b) (Nat.le_refl g.c) (by omega : g.c ≤ g.c + 1)
          have hv1 : (s.setReg g.c (.bool b)).regs 0 = some v := by rw [setReg_ne _ _ (by omega), hv]
          have hfresh1 : Fresh (g.c + 1) (s.setReg g.c (.bool b)) :=
            hfresh.step (Above.setReg s _ (by omega)) (by omega)
          have hl1 : (fun f => (g.resolved f).bind (s.setReg g.c (.bool b)).regs) = Env.empty := by
            rw [← hl]; exact env_frame hr (Frame.setReg (s.sink t) s (.bool b) (Nat.le_refl g.c)).regs
          have hr1 : ∀ f r, g.resolved f = some r → r < g.c + 1 := fun f r hf => by
            have := hr f r hf; omega
          cases b with
          | true =>
            simp only [if_true]
            have hs := sim_armBody (X := X) (en := en) (arm := arm) hctx (by omega) hv1 hfresh1 hp hl1 hr1 hok1
            rw [setReg_sink] at hs
            cases he : encArm X en arm p v with
            | error f => rw [he] at hs; simp only at hs ⊢; rw [hs]
            | ok bs =>
              rw [he] at hs
              obtain ⟨s', k1, k2⟩ := hs
              refine ⟨s', Or.inr (by rw [k1]), ?_⟩
              exact (Frame.setReg _ s _ (Nat.le_refl _)).trans k2 (by omega)
          | false =>
            simp only [Bool.false_eq_true, if_false]
            obtain ⟨a1, a2, ⟨ns, a3⟩, new, a4⟩ := armBody_static en t arm g (g.c + 1) p m hp hok1
            generalize armBody en t arm g (g.c + 1) = AB at *
            obtain ⟨g1, P⟩ := AB
            simp only at hok a1 a2 a3 a4 ⊢
            have hstep := hctx.step (Frame.refl (g.c + 1) (s.sink t) _) a1
            have hctx1 : Ctx (refsAfter P m) (s.setReg g.c (.bool false)) g1.c t Env.empty := by
              refine ⟨?_, a3.lt hctx.refs_lt a1, hstep.tlt, hstep.slt, hstep.live, hstep.root⟩
              rw [a3.dead hfresh1, hctx.env_eq]
              funext n; simp only [erase, Env.empty]; split <;> rfl
            have hi := ih g1 (planArm arm p) (refsAfter P m) (s.setReg g.c (.bool false)) hctx1 (by omega) hv1
              (fun r hr => hfresh1 r (by omega)) a2 (by
                rw [a4.dead hfresh1, hl1]
                funext n; simp only [erase, Env.empty]; split <;> rfl)
              (a4.lt hr1 a1) hok
            rw [setReg_sink] at hi
            cases he : encArms X en arms (planArm arm p) v with
            | error f => rw [he] at hi; exact hi
            | ok bs =>
              rw [he] at hi
              obtain ⟨s', k1, k2⟩ := hi
              exact ⟨s', k1, (Frame.setReg _ s _ (Nat.le_refl _)).trans (k2.mono (by omega : g.c ≤ g1.c)) (Nat.le_refl _)⟩
        | _ => simp only [Val.toBool, err_bind, exec, setReg_same]

/-! ## Declarations -/

/-- The bytes of a result. -/
def bytesOf {α} (r : Res (α × Bytes)) : Res Bytes := do let (_, bs) ← r; .ok bs

/-- Transforms see only the bytes. -/
theorem encXforms_bytes {α β} (X : Ext) (env : Env) (xs : List XformUse) (r : Res (α × Bytes))
    (r' : Res (β × Bytes)) (h : bytesOf r = bytesOf r') :
    bytesOf (encXforms X env xs r) = bytesOf (encXforms X env xs r') := by
  induction xs with
  | nil => exact h
  | cons x xs ih =>
    have step : ∀ vs : List Val,
        bytesOf (do
          let (a, bs) ← encXforms X env xs r
          let out ← X.xform x.name vs bs
          .ok (a, out)) =
        bytesOf (do
          let (a, bs) ← encXforms X env xs r'
          let out ← X.xform x.name vs bs
          .ok (a, out)) := by
      intro vs
      cases h1 : encXforms X env xs r with
      | error f =>
        cases h2 : encXforms X env xs r' with
        | error f' => rw [h1, h2] at ih; cases ih; rfl
        | ok q => rw [h1, h2] at ih; cases ih
      | ok q =>
        cases h2 : encXforms X env xs r' with
        | error f' => rw [h1, h2] at ih; cases ih
        | ok q' =>
          rw [h1, h2] at ih
          obtain ⟨a, bs⟩ := q
          obtain ⟨a', bs'⟩ := q'
          have : bs = bs' := Except.ok.inj ih
          subst this
          simp only [ok_bind]
          cases X.xform x.name vs bs <;> rfl
    simp only [encXforms]
    cases x.cond with
    | none =>
      simp only
      cases x.args.mapM (ev X env) with
      | error f => rfl
      | ok vs => exact step vs
    | some e =>
      simp only
      cases ev X env e with
      | error f => rfl
      | ok c =>
        simp only [ok_bind]
        cases c.toBool with
        | error f => rfl
        | ok b =>
          simp only [ok_bind]
          cases b with
          | false => simp only [Bool.false_eq_true, if_false]; exact ih
          | true =>
            simp only [if_true]
            cases x.args.mapM (ev X env) with
            | error f => rfl
            | ok vs => exact step vs

theorem init_ctx (v : Val) : Ctx (fun _ => none) (initState v) 1 .direct Env.empty where
  env_eq := rfl
  refs_lt := fun _ _ h => by cases h
  tlt := trivial
  slt := trivial
  live := rfl
  root := rfl

theorem init_fresh (v : Val) : Fresh 1 (initState v) := by
  intro r hr
  simp only [initState]
  rw [if_neg (by omega)]

theorem init_plan : PlanRel GState.init Plan.init := ⟨by intro f; simp [GState.init, Plan.init], rfl⟩

/-- The outcome of code that writes what `r` says to the writer argument. -/
def outcome (o : Out) : Res Bytes :=
  match o with
  | .next s => optRes (s.mem .direct)
  | .brk _ => .error .ill
  | .fault f => .error f

theorem runProg_eq (X : Ext) (p : Prog) (v : Val) :
    runProg X p v = outcome (exec X (fun _ => none) p (initState v)) := rfl

theorem run_of_sim {α X m P s c c'} {r : Res (α × Bytes)} {post} (hs : s.mem .direct = some [])
    (h : Sim X m P s c c' .direct r post) : outcome (exec X m P s) = bytesOf r := by
  cases r with
  | error f => simp only [Sim] at h; rw [h]; rfl
  | ok q =>
    obtain ⟨a, bs⟩ := q
    obtain ⟨s', k1, k2, _, _⟩ := h
    rw [k1]
    simp only [outcome]
    rw [k2.mem .direct trivial, if_pos rfl, hs]
    rfl

theorem run_leaf (X : Ext) (d : Decl) (v : Val) (cond : Option Expr) (ty : LTy) (hb : d.body = .leaf cond ty) :
    runProg X (genDecl d).2 v = encDecl X d v := by
  simp only [genDecl, encDecl, hb, runProg_eq]
  rw [exec_one (by simp) (by simp)]
  have hr0 : (initState v).reg 0 = .ok v := rfl
  simp only [execOp, hr0, ok_bind]
  cases hw : innerOf v with
  | error f => rfl
  | ok w =>
    simp only [ok_bind]
    have hc0 : Ctx (fun _ => none) ((initState v).setReg 0 w) 1 .direct Env.empty :=
      ⟨rfl, (fun _ _ h => nomatch h), trivial, trivial, rfl, rfl⟩
    have hs := sim_field (X := X) ⟨d.name, cond, d.xfs, none⟩ ty _ 0 1 w hc0 (by omega) (by simp)
    have := run_of_sim (by rfl) hs
    rw [this]
    cases encField X Env.empty ⟨d.name, cond, d.xfs, none⟩ ty w <;> rfl

theorem run_repr (X : Ext) (d : Decl) (v : Val) (t : ReprTy) (hb : d.body = .repr t) :
    runProg X (genDecl d).2 v = encDecl X d v := by
  simp only [genDecl, encDecl, hb, runProg_eq]
  have hs := sim_xforms (X := X) (m := fun _ => none) (env := Env.empty)
      (B := .one (.repr (genXforms .direct 1 d.xfs).2.2.1 0 t)) (c3 := (genXforms .direct 1 d.xfs).1)
      (r := bare (encRepr t v)) (post := noPost) d.xfs (initState v) 1 .direct (init_ctx v) (Nat.le_refl _) (by
    intro s1 k1 k2 k3
    refine sim_write k1 ?_ (by simp) (by simp)
    have : s1.regs 0 = some v := k2.regs 0 (by omega)
    simp only [execOp, State.reg, this, optRes, ok_bind])
  rw [Prog.append_assoc]
  exact run_of_sim (by rfl) hs

theorem genClose_le (t : Target) (name : String) (len : Option Expr) (bt : Target) (g : GState) :
    g.c ≤ (genClose t name len bt g).1.c := by
  cases len with
  | none => cases bt <;> exact Nat.le_refl _
  | some e =>
    cases bt with
    | buf b => simp only [genClose]; split <;> simp
    | _ => exact Nat.le_refl _

theorem run_struct (X : Ext) (d : Decl) (v : Val) (len : Option Expr) (items : Fields)
    (hb : d.body = .struct len items) (hok : (genDecl d).1.ok = true) :
    runProg X (genDecl d).2 v = encDecl X d v := by
  have hctx := init_ctx v
  have hfr := init_fresh v
  simp only [genDecl, encDecl, hb, runProg_eq] at hok ⊢
  have hxle := genXforms_le .direct 1 d.xfs
  have hxs := fun c3 B (r : Res ((Env × Env) × Bytes)) post =>
    @sim_xforms _ X (fun _ => none) Env.empty B c3 r post d.xfs (initState v) 1 .direct hctx
  generalize hXF : genXforms .direct 1 d.xfs = XF at *
  obtain ⟨c1, po, t', pc⟩ := XF
  simp only at hok hxle hxs ⊢
  have hOs := genOpen_spec t' d.name len { GState.init with c := c1 }
  generalize hO : genOpen t' d.name len { GState.init with c := c1 } = O at *
  obtain ⟨g2, p2, bt⟩ := O
  simp only at hok hOs ⊢
  obtain ⟨c2, hc2, rfl⟩ := hOs
  simp only at hok ⊢
  have hRle := genRefs_le 0 items.leaves c2
  have hRs := fun t T m s env hc hv => @sim_refs X t T 0 v items.leaves m s c2 env hc (by omega) hv
  obtain ⟨n3, r3⟩ := refs_genRefs 0 items.leaves c2 (fun _ => none)
  generalize hR : genRefs 0 items.leaves c2 = R at *
  obtain ⟨c3, p3⟩ := R
  simp only at hok hRle hRs r3 ⊢
  have hKle := genCalculated_le items.leaves c3
  have hKs := fun t T m s env hc => @sim_calculated X t T items.leaves m s c3 env hc
  obtain ⟨n4, r4⟩ := refs_genCalculated items.leaves c3 (refsAfter p3 (fun _ => none))
  generalize hK : genCalculated items.leaves c3 = K at *
  obtain ⟨c4, p4⟩ := K
  simp only at hok hKle hKs r4 ⊢
  have hIs := genItems_static items false bt { { GState.init with c := c2 } with c := c4 } [] Plan.init
    (fun _ => none) (init_plan.setC _) (by simp)
  generalize hI : genItems false bt items { { GState.init with c := c2 } with c := c4 } [] = I at *
  obtain ⟨g5, p5⟩ := I
  simp only at hok hIs ⊢
  have hCok := genClose_ok t' d.name len bt g5
  have hCs := genClose_le t' d.name len bt g5
  generalize hC : genClose t' d.name len bt g5 = C at *
  obtain ⟨g6, p6⟩ := C
  simp only at hok hCok hCs ⊢
  have hok5 : g5.ok = true := by rw [← hCok]; exact hok
  have hlt0 : ∀ (n : String) (r : Nat), (fun _ => none : Refs) n = some r → r < c2 := fun _ _ h => nomatch h
  have hlt3 := r3.lt hlt0 hRle
  have hlt4 := r4.lt hlt3 hKle
  have hbody := fun (s1 : State) (k1 : Ctx (fun _ => none) s1 c1 t' Env.empty)
      (k2 : Frame 1 ((initState v).sink .direct) [] (initState v) s1) (k3 : Above c1 (initState v) s1) =>
    sim_body (X := X) (sim_items X items) (cond := false) (g := { GState.init with c := c1 }) (p := Plan.init)
      (p4 := p3 ++ p4) (c4 := c4) (lens := Env.empty)
      (E := do let env ← encStored v items.leaves Env.empty; encCalculated X items.leaves env)
      k1 (hfr.step k3 hxle) rfl (fun _ _ h => nomatch h) (init_plan.setC c1) hO (by simp only; omega)
      (by
        intro s2 j1 j2 j3
        have hv2 : s2.regs 0 = some v := by
          rw [j2.regs 0 (by simp only; omega), k2.regs 0 (by omega)]; rfl
        have q1 := hRs bt (s2.sink bt) _ s2 _ j1 hv2
        have q2 := Sim.seq (k := fun env => do let env' ← encCalculated X items.leaves env; .ok (env', []))
          hRle hKle q1
          (by
            intro a bs s' w0 w1 w2 w3
            have hst := j1.step w1 hRle
            exact hKs bt (s2.sink bt) _ s' a ⟨w3, hlt3, hst.tlt, hst.slt, hst.live, hst.root⟩)
        rw [refsAfter_append]
        cases hst : encStored v items.leaves Env.empty with
        | error f => rw [hst] at q2; exact q2
        | ok env =>
          rw [hst] at q2
          simp only [andThen, ok_bind] at q2 ⊢
          cases hcc : encCalculated X items.leaves env with
          | error f => rw [hcc] at q2; exact q2
          | ok env' => rw [hcc] at q2; exact q2)
      (by rw [refsAfter_append]; exact hlt4)
      hI hok5 hC
  have hle : c1 ≤ g6.c := by
    obtain ⟨i1, i2, i3, i4, _⟩ := hIs hok5
    exact Nat.le_trans (by omega) (Nat.le_trans i2 hCs)
  have hs := hxs g6.c _ _ _ hle hbody
  have := run_of_sim (by rfl) hs
  simp only [Prog.append_assoc] at this ⊢
  rw [this]
  clear this hs hbody hxs
  have hgen : ∀ (r : Res ((Env × Env) × Bytes)) (r' : Res (Unit × Bytes)), bytesOf r = bytesOf r' →
      bytesOf (encXforms X Env.empty d.xfs r) = bytesOf (encXforms X Env.empty d.xfs r') :=
    fun r r' h => encXforms_bytes X Env.empty d.xfs r r' h
  refine hgen _ _ ?_
  cases checkCapacity X Env.empty d.name len Plan.init with
  | error f => rfl
  | ok _ =>
    simp only [ok_bind]
    cases encStored v items.leaves Env.empty with
    | error f => rfl
    | ok env =>
      simp only [ok_bind]
      cases encCalculated X items.leaves env with
      | error f => rfl
      | ok env1 =>
        simp only [ok_bind]
        cases encItems X false items Plan.init env1 Env.empty [] with
        | error f => rfl
        | ok q => obtain ⟨⟨_, _⟩, _⟩ := q; rfl

theorem genArms_static (en : String) (t : Target) (arms : List Arm) :
    ∀ (g : GState) (p : Plan), PlanRel g p → (genArms en t arms g).1.ok = true →
      g.ok = true ∧ g.c ≤ (genArms en t arms g).1.c := by
  induction arms with
  | nil => intro g p _ h; exact ⟨h, Nat.le_refl _⟩
  | cons arm arms ih =>
    intro g p hp h
    simp only [genArms] at h ⊢
    have hg : ∀ (arms : List Arm) (g : GState), (genArms en t arms g).1.ok = true → g.ok = true := by
      intro arms
      induction arms with
      | nil => intro g h; exact h
      | cons a as ih => intro g h; exact genArm_ok _ _ _ _ (ih _ h)
    have h1 := hg _ _ h
    have h0 := genArm_ok _ _ _ _ h1
    rw [genArm_eq] at h h1 ⊢
    simp only at h h1 ⊢
    obtain ⟨a1, a2, _⟩ := armBody_static en t arm g (genCond arm.attr.cond g.c).1 p (fun _ => none) hp h1
    have := (ih _ _ a2 h).2
    have hc : g.c ≤ (genCond arm.attr.cond g.c).1 := by
      cases arm.attr.cond <;> simp [genCond]
    exact ⟨h0, Nat.le_trans hc (Nat.le_trans a1 this)⟩

theorem run_tagged (X : Ext) (d : Decl) (v : Val) (len : Option Expr) (arms : List Arm)
    (hb : d.body = .tagged len arms) (hok : (genDecl d).1.ok = true) :
    runProg X (genDecl d).2 v = encDecl X d v := by
  have hctx := init_ctx v
  have hfr := init_fresh v
  simp only [genDecl, encDecl, hb, runProg_eq] at hok ⊢
  have hxle := genXforms_le .direct 1 d.xfs
  have hxs := fun c3 B (r : Res ((Unit × Bytes) × Bytes)) post =>
    @sim_xforms _ X (fun _ => none) Env.empty B c3 r post d.xfs (initState v) 1 .direct hctx
  generalize hXF : genXforms .direct 1 d.xfs = XF at *
  obtain ⟨c1, po, t', pc⟩ := XF
  simp only at hok hxle hxs ⊢
  have hOs := genOpen_spec t' d.name len { GState.init with c := c1 }
  generalize hO : genOpen t' d.name len { GState.init with c := c1 } = O at *
  obtain ⟨g2, p2, bt⟩ := O
  simp only at hok hOs ⊢
  obtain ⟨c2, hc2, rfl⟩ := hOs
  have hAs := genArms_static d.name bt arms { GState.init with c := c2 } Plan.init (init_plan.setC _)
  have hsim := fun m s => @sim_arms X d.name bt v arms { GState.init with c := c2 } Plan.init m s
  generalize hA : genArms d.name bt arms { GState.init with c := c2 } = A at *
  obtain ⟨g3, p3⟩ := A
  simp only at hok hAs hsim ⊢
  have hCok := genClose_ok t' d.name len bt g3
  have hCs := genClose_le t' d.name len bt g3
  generalize hC : genClose t' d.name len bt g3 = C at *
  obtain ⟨g4, p4⟩ := C
  simp only at hok hCok hCs ⊢
  have hok3 : g3.ok = true := by rw [← hCok]; exact hok
  have h23 : c2 ≤ g3.c := (hAs hok3).2
  have hbody := fun (s1 : State) (k1 : Ctx (fun _ => none) s1 c1 t' Env.empty)
      (k2 : Frame 1 ((initState v).sink .direct) [] (initState v) s1) (k3 : Above c1 (initState v) s1) =>
    sim_buffered (X := X) (B := .block p3 .nil) (g := { GState.init with c := c1 }) (p := Plan.init)
      (r := bare (encArms X d.name arms Plan.init v)) (post := noPost) k1 rfl hO h23 hC
      (by
        intro s2 j1 j2 j3 j4
        have hv2 : s2.regs 0 = some v := by
          rw [j3.regs 0 (by simp only; omega), k2.regs 0 (by omega)]; rfl
        have hf2 : Fresh c2 s2 := (hfr.step k3 hxle).step j4 hc2
        have q := hsim _ s2 j1 (by omega) hv2 hf2 (init_plan.setC _) rfl (fun _ _ h => nomatch h) hok3
        cases he : encArms X d.name arms Plan.init v with
        | error f =>
          rw [he] at q
          simp only at q
          show exec X _ (.block p3 .nil) s2 = .fault f
          simp only [exec, q]
        | ok bs =>
          rw [he] at q
          obtain ⟨s3, w1, w2⟩ := q
          refine ⟨s2.leave s3, ?_, w2.leave, fun _ _ => rfl, trivial⟩
          rcases w1 with w1 | w1 <;> simp only [exec, w1])
  have hs := hxs g4.c _ _ _ (Nat.le_trans hc2 (Nat.le_trans h23 hCs)) hbody
  have := run_of_sim (by rfl) hs
  simp only [Prog.append_assoc] at this ⊢
  rw [this]
  clear this hs hbody hxs
  refine encXforms_bytes X Env.empty d.xfs _ _ ?_
  cases checkCapacity X Env.empty d.name len Plan.init with
  | error f => rfl
  | ok _ =>
    simp only [ok_bind]
    cases encArms X d.name arms Plan.init v with
    | error f => rfl
    | ok bs => rfl

/-- The generated encoder of a declaration computes the specified function. -/
theorem runProg_genDecl (X : Ext) (d : Decl) (v : Val) (hok : (genDecl d).1.ok = true) :
    runProg X (genDecl d).2 v = encDecl X d v := by
  cases hb : d.body with
  | leaf cond ty => exact run_leaf X d v cond ty hb
  | repr t => exact run_repr X d v t hb
  | struct len items => exact run_struct X d v len items hb hok
  | tagged len arms => exact run_tagged X d v len arms hb hok

theorem runDecl_eq (X : Ext) (d : Decl) (v : Val) :
    runDecl X d v = if Accepts d v then encDecl X d v else .error .ill := by
  unfold runDecl
  by_cases h : Accepts d v
  · rw [if_pos h, if_pos (show _ ∧ _ from h), runProg_genDecl X d v h.1]
  · rw [if_neg h, if_neg (show ¬ (_ ∧ _) from h)]

theorem runEncode_eq (sch : Schema) (L : Lib) (fuel : Nat) (n : String) (args : List Val) (v : Val) :
    runEncode sch L fuel n args v = specEncode sch L fuel n args v := by
  unfold runEncode specEncode
  have : runDecl = fun X d v => if Accepts d v then encDecl X d v else .error .ill := by
    funext X d v; exact runDecl_eq X d v
  rw [this]

end Verif.Enc
