import Verif.EncodeRefine
/-!
# The generated encoders compute the specified function: fields and containers
-/
namespace Verif.Enc

/-! ## Conditions and fields -/

theorem genField_le (t : Target) (src : Nat) (a : FAttr) (ty : LTy) (c : Nat) :
    c ≤ (genField t src a ty c).1 := by
  have h1 : c ≤ (genCond a.cond c).1 := by cases a.cond <;> simp [genCond]
  simp only [genField]
  have h2 := genXforms_le t (genCond a.cond c).1 a.xfs
  split
  · exact Nat.le_trans (Nat.le_trans h1 (Nat.le_trans h2 (Nat.le_succ _))) (genLeaf_le _ _ _ _)
  · exact Nat.le_trans (Nat.le_trans h1 h2) (genLeaf_le _ _ _ _)

theorem refsAfter_genCond (cond : Option Expr) (c : Nat) (m : Refs) :
    refsAfter (genCond cond c).2.1 m = m := by cases cond <;> rfl

theorem refsAfter_wrapCond (cr : Option Nat) (p : Prog) (m : Refs) :
    refsAfter (wrapCond cr p) m = refsAfter p m := by cases cr <;> rfl

theorem refsAfter_genField (t : Target) (src : Nat) (a : FAttr) (ty : LTy) (c : Nat) (m : Refs) :
    refsAfter (genField t src a ty c).2 m = m := by
  simp only [genField]
  split <;>
    simp [refsAfter_append, refsAfter_genCond, refsAfter_wrapCond, refsAfter_genXforms,
      refsAfter_genLeaf, refsAfter]

/-- A conditional block: the registers declared in it are gone afterwards. -/
theorem sim_cond {α β X m s c t env T Q c'} {e : Expr} {r : Res (α × Bytes)} {post} (x : β)
    (h : Ctx m s c t env) (hc : c + 1 ≤ c')
    (hQ : ∀ s1, Ctx m s1 (c + 1) t env → Frame c T [] s s1 → Above (c + 1) s s1 →
      Sim X m Q s1 (c + 1) c' T r post) :
    Sim X m (.op (.eval c e) (.cond c Q .nil)) s c c' T
      (do let cv ← ev X env e
          let b ← cv.toBool
          if b then do let (_, bs) ← r; .ok (x, bs) else .ok (x, []))
      (fun y regs => y = x ∧ ∀ q, q ≠ c → regs q = s.regs q) := by
  cases hev : ev X env e with
  | error f => simp only [err_bind, Sim]; rw [exec_eval h, hev]
  | ok cv =>
    simp only [ok_bind]
    have hctx : Ctx m (s.setReg c cv) (c + 1) t env := h.set cv (Nat.le_refl c) (by omega)
    have h0 : exec X m (.op (.eval c e) (.cond c Q .nil)) s = exec X m (.cond c Q .nil) (s.setReg c cv) := by
      rw [exec_eval h, hev]
    have hf0 : Frame c T [] s (s.setReg c cv) := Frame.setReg T s cv (Nat.le_refl c)
    have ha0 : Above (c + 1) s (s.setReg c cv) := Above.setReg s cv (by omega)
    have hq := hQ _ hctx hf0 ha0
    cases cv with
    | bool b =>
      simp only [Val.toBool, ok_bind]
      cases b with
      | false =>
        simp only [Bool.false_eq_true, if_false, Sim]
        refine ⟨s.setReg c (.bool false), ?_, hf0, ha0.mono hc, trivial, fun q hq => setReg_ne _ _ hq⟩
        rw [h0]; simp only [exec, setReg_same]
      | true =>
        simp only [if_true]
        cases r with
        | error f =>
          simp only [err_bind, Sim] at hq ⊢
          rw [h0]; simp only [exec, setReg_same, hq]
        | ok p =>
          obtain ⟨a, bs⟩ := p
          obtain ⟨s', k1, k2, k3, k4⟩ := hq
          simp only [ok_bind, Sim]
          refine ⟨(s.setReg c (.bool true)).leave s', ?_, ?_, ?_, trivial, ?_⟩
          · rw [h0]; simp only [exec, setReg_same, k1]
          · have := hf0.trans k2.leave (by omega : c ≤ c + 1)
            simpa using this
          · intro q hq; exact setReg_ne _ _ (by omega)
          · intro q hq; exact setReg_ne _ _ hq
    | _ => simp only [Val.toBool, err_bind, Sim]; rw [h0]; simp only [exec, setReg_same]

theorem bare_eq (r : Res Bytes) (k : Res (Unit × Bytes)) (h : r = (do let (_, bs) ← k; .ok bs)) :
    bare r = k := by
  subst h
  cases k with
  | error f => rfl
  | ok p => obtain ⟨⟨⟩, bs⟩ := p; rfl

/-- A field that is not a container. -/
theorem sim_field {X m t env} (a : FAttr) (ty : LTy) (s : State) (src c : Nat) (v : Val)
    (h : Ctx m s c t env) (hsrc : src < c) (hv : s.regs src = some v) :
    Sim X m (genField t src a ty c).2 s c (genField t src a ty c).1 (s.sink t)
      (bare (encField X env a ty v)) noPost := by
  -- the code under the condition
  have body : ∀ (c1 c4 : Nat) (P : Prog) (s1 : State), c ≤ c1 → Ctx m s1 c1 t env →
      s1.regs src = some v → s1.sink t = s.sink t →
      (let (c2, po, t', pc) := genXforms t c1 a.xfs
       if a.cond.isSome && a.auto.isNone then
        (c4, P) = ((genLeaf t' ty c2 (c2 + 1)).1,
          po ++ .op (.nullCheck src c2 missingMsg) (genLeaf t' ty c2 (c2 + 1)).2 ++ pc)
       else (c4, P) = ((genLeaf t' ty src c2).1, po ++ (genLeaf t' ty src c2).2 ++ pc)) →
      Sim X m P s1 c1 c4 (s.sink t)
        (encXforms X env a.xfs do
          let w ← if a.cond.isSome && a.auto.isNone then nullCheck missingMsg v else .ok v
          let bs ← encLeaf X env ty w
          .ok ((), bs)) noPost := by
    intro c1 c4 P s1 hc1 hctx hv1 hsk hP
    rw [← hsk]
    have hx := @sim_xforms Unit X m env
    have hxle := genXforms_le t c1 a.xfs
    cases hb : (a.cond.isSome && a.auto.isNone) with
    | true =>
      rw [hb] at hP
      simp only [if_true, Prod.mk.injEq] at hP
      obtain ⟨rfl, rfl⟩ := hP
      simp only [if_true, Prog.append_assoc]
      refine hx a.xfs s1 c1 t hctx ?_ ?_
      · exact Nat.le_trans (Nat.le_succ _) (genLeaf_le _ _ _ _)
      · intro s2 k1 k2 k3
        generalize hc2 : (genXforms t c1 a.xfs).1 = c2 at *
        generalize (genXforms t c1 a.xfs).2.2.1 = t' at *
        have hv2 : s2.regs src = some v := by rw [k2.regs src (by omega), hv1]
        cases hn : nullCheck missingMsg v with
        | error f =>
          simp only [err_bind, Sim]
          rw [exec_one (by simp) (by simp)]
          simp only [execOp, State.reg, hv2, optRes, ok_bind, hn, err_bind]
        | ok w =>
          simp only [ok_bind]
          have hl := genLeaf_le t' ty c2 (c2 + 1)
          refine Sim.pre (s1 := s2.setReg c2 w) (m' := m) (Q := (genLeaf t' ty c2 (c2 + 1)).2) ?_ (Frame.setReg _ s2 w (Nat.le_refl _))
            (Above.setReg s2 w (by omega)) (by omega : c2 ≤ c2 + 1) ?_
          · rw [exec_one (by simp) (by simp)]
            simp only [execOp, State.reg, hv2, optRes, ok_bind, hn]
          · have := sim_leaf (X := X) ty (s2.setReg c2 w) c2 (c2 + 1) w
              (k1.set w (Nat.le_refl _) (by omega)) (by omega) (by simp)
            rw [setReg_sink] at this
            exact this
    | false =>
      rw [hb] at hP
      simp only [Bool.false_eq_true, if_false, Prod.mk.injEq] at hP
      obtain ⟨rfl, rfl⟩ := hP
      simp only [Bool.false_eq_true, if_false, Prog.append_assoc, ok_bind]
      refine hx a.xfs s1 c1 t hctx ?_ ?_
      · exact genLeaf_le _ _ _ _
      · intro s2 k1 k2 k3
        exact sim_leaf (X := X) ty s2 src _ v k1 (by omega) (by rw [k2.regs src (by omega), hv1])
  cases hcond : a.cond with
  | none =>
    have hb := body c (genField t src a ty c).1 (genField t src a ty c).2 s (Nat.le_refl _) h hv rfl (by
      simp only [genField, genCond, hcond, Option.isSome_none, Bool.false_and, Bool.false_eq_true, if_false,
        wrapCond, Prog.nil_append])
    rw [hcond] at hb
    rw [bare_eq]
    · exact hb
    · simp only [encField, hcond]
  | some e =>
    have hle := genField_le t src a ty c
    have hG : ∃ c4 Q, genField t src a ty c = (c4, .op (.eval c e) (.cond c Q .nil)) ∧ c + 1 ≤ c4 ∧
        (let (c2, po, t', pc) := genXforms t (c + 1) a.xfs
         if a.cond.isSome && a.auto.isNone then
          (c4, Q) = ((genLeaf t' ty c2 (c2 + 1)).1,
            po ++ .op (.nullCheck src c2 missingMsg) (genLeaf t' ty c2 (c2 + 1)).2 ++ pc)
         else (c4, Q) = ((genLeaf t' ty src c2).1, po ++ (genLeaf t' ty src c2).2 ++ pc)) := by
      have hx := genXforms_le t (c + 1) a.xfs
      simp only [genField, genCond, hcond, Option.isSome_some, Bool.true_and, wrapCond]
      cases hau : a.auto with
      | none =>
        simp only [Option.isNone_none, if_true]
        refine ⟨_, _, rfl, ?_, rfl⟩
        exact Nat.le_trans (Nat.le_trans hx (Nat.le_succ _)) (genLeaf_le _ _ _ _)
      | some y =>
        simp only [Option.isNone_some, Bool.false_eq_true, if_false]
        refine ⟨_, _, rfl, ?_, rfl⟩
        exact Nat.le_trans hx (genLeaf_le _ _ _ _)
    obtain ⟨c4, Q, hG, hc4, hQ⟩ := hG
    rw [hG]
    simp only
    have hs := sim_cond (X := X) (T := s.sink t) (Q := Q) (c' := c4) (e := e) (post := noPost)
      (r := encXforms X env a.xfs do
          let w ← if a.cond.isSome && a.auto.isNone then nullCheck missingMsg v else .ok v
          let bs ← encLeaf X env ty w
          .ok ((), bs)) () h hc4 (by
        intro s1 k1 k2 k3
        exact body (c + 1) c4 Q s1 (by omega) k1 (by rw [k2.regs src hsrc, hv]) (sink_eq k2.info h.tlt) hQ)
    have heq : bare (encField X env a ty v) = (do
        let cv ← ev X env e
        let b ← cv.toBool
        if b then do
          let (_, bs) ← (encXforms X env a.xfs do
            let w ← if a.cond.isSome && a.auto.isNone then nullCheck missingMsg v else .ok v
            let bs ← encLeaf X env ty w
            .ok ((), bs))
          .ok ((), bs)
        else .ok ((), [])) := by
      apply bare_eq
      simp only [encField, hcond]
      cases ev X env e with
      | error f => rfl
      | ok cv =>
        simp only [ok_bind]
        cases cv.toBool with
        | error f => rfl
        | ok b =>
          simp only [ok_bind]
          cases b
          · rfl
          · simp only [if_true]
            generalize encXforms X env a.xfs _ = z
            cases z with
            | error f => rfl
            | ok p => rfl
    rw [heq]
    exact hs.weaken (fun _ _ _ => trivial)

/-! ## What generating code does to the names -/

/-- Exactly the names `ns` were given new registers, in `[c, c')`. -/
def RefsStep (c c' : Nat) (ns : List String) (m m' : Refs) : Prop :=
  (∀ n, n ∈ ns → ∃ r, m' n = some r ∧ c ≤ r ∧ r < c') ∧ ∀ n, n ∉ ns → m' n = m n

theorem RefsStep.refl (c : Nat) (m : Refs) : RefsStep c c [] m m :=
  ⟨fun _ h => (by simp at h), fun _ _ => rfl⟩

theorem RefsStep.mono {c0 c c' c1 : Nat} {ns m m'} (h : RefsStep c c' ns m m') (h0 : c0 ≤ c)
    (h1 : c' ≤ c1) : RefsStep c0 c1 ns m m' :=
  ⟨fun n hn => by obtain ⟨r, a, b, d⟩ := h.1 n hn; exact ⟨r, a, by omega, by omega⟩, h.2⟩

theorem RefsStep.trans {c c1 c2 : Nat} {ns ns' m m1 m2} (h : RefsStep c c1 ns m m1)
    (h' : RefsStep c1 c2 ns' m1 m2) (hc : c ≤ c1) (hc2 : c1 ≤ c2) : RefsStep c c2 (ns ++ ns') m m2 := by
  refine ⟨fun n hn => ?_, fun n hn => ?_⟩
  · by_cases hn' : n ∈ ns'
    · obtain ⟨r, a, b, d⟩ := h'.1 n hn'; exact ⟨r, a, by omega, d⟩
    · have : n ∈ ns := by simpa [hn'] using hn
      obtain ⟨r, a, b, d⟩ := h.1 n this
      exact ⟨r, by rw [h'.2 n hn', a], b, by omega⟩
  · rw [List.mem_append, not_or] at hn
    rw [h'.2 n hn.2, h.2 n hn.1]

theorem RefsStep.congr {c c' : Nat} {ns ns' m m'} (h : RefsStep c c' ns m m')
    (hn : ∀ n, n ∈ ns ↔ n ∈ ns') : RefsStep c c' ns' m m' :=
  ⟨fun n h' => h.1 n ((hn n).2 h'), fun n h' => h.2 n (fun h'' => h' ((hn n).1 h''))⟩

theorem RefsStep.one {c : Nat} (m : Refs) (n : String) : RefsStep c (c + 1) [n] m (upd m n (some c)) :=
  ⟨fun x hx => by simp at hx; subst hx; exact ⟨c, by simp, Nat.le_refl _, by omega⟩,
   fun x hx => by simp at hx; exact upd_ne _ _ hx⟩

theorem RefsStep.lt {c c' : Nat} {ns m m'} (h : RefsStep c c' ns m m') (hm : ∀ n r, m n = some r → r < c)
    (hc : c ≤ c') : ∀ n r, m' n = some r → r < c' := by
  intro n r hn
  by_cases hns : n ∈ ns
  · obtain ⟨r', a, b, d⟩ := h.1 n hns
    rw [a] at hn; cases hn; exact d
  · rw [h.2 n hns] at hn; have := hm n r hn; omega

/-- After a block, the names given registers in it have no value, the others their old one. -/
theorem RefsStep.dead {c c' : Nat} {ns m m'} {s : State} (h : RefsStep c c' ns m m') (hf : Fresh c s) :
    (fun n => (m' n).bind s.regs) = erase ns (fun n => (m n).bind s.regs) := by
  funext n
  simp only [erase]
  by_cases hn : n ∈ ns
  · obtain ⟨r, a, b, _⟩ := h.1 n hn
    rw [if_pos hn, a]; exact hf r b
  · rw [if_neg hn, h.2 n hn]

/-! ### Deferred fields -/

theorem genFlush_rest (t : Target) (res : String → Option Nat) (autos : List Deferred) (c : Nat) :
    (genFlush t res autos c).2.2 = autos.filter (fun d => !allResolved res (FAttr.blens d.attr)) := by
  induction autos generalizing c with
  | nil => rfl
  | cons d ds ih =>
    simp only [genFlush, List.filter_cons]
    cases hr : allResolved res (FAttr.blens d.attr) <;> simp [ih]

theorem genFlush_le (t : Target) (res : String → Option Nat) (autos : List Deferred) (c : Nat) :
    c ≤ (genFlush t res autos c).1 := by
  induction autos generalizing c with
  | nil => exact Nat.le_refl _
  | cons d ds ih =>
    simp only [genFlush]
    split
    · exact Nat.le_trans (Nat.le_trans (ih c) (Nat.le_succ _)) (genField_le _ _ _ _ _)
    · exact ih c

theorem refsAfter_genBlen {res : String → Option Nat} {a : FAttr} {e : Expr} (h : a.auto = some e) (c : Nat)
    (m : Refs) : refsAfter (genBlen res a c) m = upd m a.name (some c) := by
  simp [genBlen, h, refsAfter, Prog.one_def]

theorem refs_genFlush (t : Target) (res : String → Option Nat) (autos : List Deferred) (c : Nat) (m : Refs)
    (ha : ∀ d ∈ autos, d.attr.auto.isSome) :
    RefsStep c (genFlush t res autos c).1
      ((autos.filter (fun d => allResolved res (FAttr.blens d.attr))).map (·.attr.name)) m
      (refsAfter (genFlush t res autos c).2.1 m) := by
  induction autos generalizing c with
  | nil => exact RefsStep.refl c m
  | cons d ds ih =>
    have hi := ih c (fun d hd => ha d (by simp [hd]))
    have hle := genFlush_le t res ds c
    simp only [genFlush, List.filter_cons]
    cases hr : allResolved res (FAttr.blens d.attr) with
    | false => simpa using hi
    | true =>
      obtain ⟨e, he⟩ := Option.isSome_iff_exists.mp (ha d (by simp))
      simp only [if_true, refsAfter_append, Prog.one_def, refsAfter, refsAfter_genField,
        refsAfter_genBlen he]
      have h2 := genField_le (nextTarget t (genFlush t res ds c).2.2) (genFlush t res ds c).1 d.attr d.ty ((genFlush t res ds c).1 + 1)
      refine ((hi.trans (RefsStep.one _ d.attr.name) hle (by omega)).mono (Nat.le_refl _) h2).congr ?_
      intro n; simp [or_comm]

/-! ### Null checks -/

theorem genNullchecks_le (fs : Fields) (c : Nat) : c ≤ (genNullchecks fs c).1 := by
  induction fs generalizing c with
  | nil => exact Nat.le_refl _
  | pad _ _ _ ih => exact ih c
  | cont _ _ _ _ _ ih => exact ih c
  | leaf a ty rest ih =>
    simp only [genNullchecks]
    split
    · exact ih c
    · have := ih (c + 1); simp only; omega

theorem refs_genNullchecks (fs : Fields) (c : Nat) (m : Refs) :
    RefsStep c (genNullchecks fs c).1 (nullNames fs) m (refsAfter (genNullchecks fs c).2 m) := by
  induction fs generalizing c m with
  | nil => exact RefsStep.refl c m
  | pad _ _ _ ih => exact ih c m
  | cont _ _ _ _ _ ih => exact ih c m
  | leaf a ty rest ih =>
    simp only [genNullchecks, nullNames]
    split
    · exact ih c m
    · simp only [refsAfter]
      have hle := genNullchecks_le rest (c + 1)
      exact (RefsStep.one m a.name).trans (ih (c + 1) _) (by omega) hle

theorem sim_nullchecks {X t T} (fs : Fields) :
    ∀ (m : Refs) (s : State) (c : Nat) (env : Env), Ctx m s c t env →
      Sim X m (genNullchecks fs c).2 s c (genNullchecks fs c).1 T
        (do let env' ← encNulls (nullNames fs) env; .ok (env', []))
        (fun env' regs => (fun n => (refsAfter (genNullchecks fs c).2 m n).bind regs) = env') := by
  induction fs with
  | nil => intro m s c env h; exact Sim.nil h.env_eq
  | pad _ _ _ ih => exact ih
  | cont _ _ _ _ _ ih => exact ih
  | leaf a ty rest ih =>
    intro m s c env h
    simp only [genNullchecks, nullNames]
    split
    · exact ih m s c env h
    · have hle := genNullchecks_le rest (c + 1)
      simp only [encNulls, refsAfter]
      have hget : execOp X m s (.getRef c a.name) = (do let v ← optRes (env a.name); .ok (s.setReg c v)) := by
        simp only [execOp, ← h.env_eq]
      cases hv : env a.name with
      | none =>
        rw [hv] at hget
        simp only [optRes, err_bind, Sim] at hget ⊢
        rw [exec_one (by simp) (by simp), hget]
      | some v =>
        rw [hv] at hget
        simp only [optRes, ok_bind] at hget ⊢
        have h1 : exec X m (.op (.getRef c a.name) (.op (.nullCheck c c interiorMsg)
            (.op (.setRef a.name c) (genNullchecks rest (c + 1)).2))) s =
            match nullCheck interiorMsg v with
            | .ok w => exec X (upd m a.name (some c)) (genNullchecks rest (c + 1)).2
              ((s.setReg c v).setReg c w)
            | .error f => .fault f := by
          rw [exec_one (by simp) (by simp), hget]
          simp only
          rw [exec_one (by simp) (by simp)]
          simp only [execOp, State.reg, setReg_same, optRes, ok_bind]
          cases nullCheck interiorMsg v <;> rfl
        cases hw : nullCheck interiorMsg v with
        | error f => simp only [err_bind, Sim]; rw [h1, hw]
        | ok w =>
          rw [hw] at h1
          simp only [ok_bind]
          have hf : Frame c T [] s ((s.setReg c v).setReg c w) :=
            (Frame.setReg T s v (Nat.le_refl c)).trans (Frame.setReg T _ w (Nat.le_refl c)) (Nat.le_refl _)
          have ha : Above (c + 1) s ((s.setReg c v).setReg c w) :=
            (Above.setReg s v (by omega)).trans (Above.setReg _ w (by omega))
          have hstep := h.step hf (by omega : c ≤ c + 1)
          have hctx : Ctx (upd m a.name (some c)) ((s.setReg c v).setReg c w) (c + 1) t
              (upd env a.name (some w)) := by
            refine ⟨?_, ?_, hstep.tlt, hstep.slt, hstep.live, hstep.root⟩
            · funext n
              by_cases hn : n = a.name
              · subst hn; simp
              · rw [upd_ne _ _ hn, upd_ne _ _ hn]
                exact congrFun hstep.env_eq n
            · intro n r hn
              by_cases hn' : n = a.name
              · subst hn'; simp at hn; omega
              · rw [upd_ne _ _ hn'] at hn; exact hstep.refs_lt n r hn
          exact Sim.pre h1 hf (ha.mono hle) (by omega) (ih _ _ _ _ hctx)

/-! ### Containers -/

/-- The generator's view of the known lengths agrees with the plan. -/
structure PlanRel (g : GState) (p : Plan) : Prop where
  log : ∀ f, (g.resolved f).isSome = true ↔ f ∈ p.log
  pending : g.pending = p.pending

theorem PlanRel.known {g p} (h : PlanRel g p) (fs : List String) : allResolved g.resolved fs = p.known fs := by
  simp only [allResolved, Plan.known]
  congr 1
  funext f
  rw [Bool.eq_iff_iff, h.log f]; simp

theorem PlanRel.setC {g p} (h : PlanRel g p) (c : Nat) : PlanRel { g with c := c } p := ⟨h.log, h.pending⟩

theorem PlanRel.await {g p} (h : PlanRel g p) (a : FAttr) (c : Nat) :
    PlanRel { g with c := c, pending := g.pending ++ (FAttr.blens a).filter fun f => (g.resolved f).isNone }
      (p.await a) := by
  refine ⟨h.log, ?_⟩
  simp only [Plan.await, h.pending]
  congr 1
  apply List.filter_congr
  intro f _
  have := h.log f
  by_cases hf : f ∈ p.log
  · have h2 := this.2 hf
    simp [hf, h2]
  · have h2 : (g.resolved f).isSome = false := by
      cases hb : (g.resolved f).isSome with
      | false => rfl
      | true => exact absurd (this.1 hb) hf
    simp [hf] at h2 ⊢
    exact h2

theorem genOpen_spec (t : Target) (name : String) (len : Option Expr) (g : GState) :
    ∃ c', g.c ≤ c' ∧ (genOpen t name len g).1 = { g with c := c' } := by
  cases len with
  | none => exact ⟨g.c, Nat.le_refl _, rfl⟩
  | some e =>
    simp only [genOpen]
    split
    · exact ⟨g.c + 1, by omega, rfl⟩
    · exact ⟨g.c + 2, by omega, rfl⟩

theorem refsAfter_genOpen (t : Target) (name : String) (len : Option Expr) (g : GState) (m : Refs) :
    refsAfter (genOpen t name len g).2.1 m = m := by
  cases len with
  | none => rfl
  | some e => simp only [genOpen]; split <;> rfl

/-- Targets of a container: its own if it has no length, else a buffer. -/
theorem genOpen_target (t : Target) (name : String) (len : Option Expr) (g : GState) :
    (genOpen t name len g).2.2 = if len.isSome then .buf g.c else t := by
  cases len with
  | none => rfl
  | some e => simp only [genOpen]; split <;> rfl

theorem refsAfter_genClose (t : Target) (name : String) (len : Option Expr) (bt : Target) (g : GState)
    (m : Refs) : refsAfter (genClose t name len bt g).2 m = m := by
  cases len with
  | none => cases bt <;> rfl
  | some e =>
    cases bt with
    | buf b => simp only [genClose]; split <;> rfl
    | _ => rfl

theorem genClose_spec {g : GState} {p : Plan} (h : PlanRel g p) (t : Target) (name : String)
    (len : Option Expr) (bt : Target) (hbt : len.isSome = true → ∃ b, bt = .buf b) :
    g.c ≤ (genClose t name len bt g).1.c ∧ (genClose t name len bt g).1.ok = g.ok ∧
      PlanRel (genClose t name len bt g).1 (p.close name len) ∧
      ∃ new, (p.close name len).log = p.log ++ new ∧
        new = (if len.isSome && decide (name ∈ p.pending) then [name] else []) ∧
        RefsStep g.c (genClose t name len bt g).1.c new g.resolved (genClose t name len bt g).1.resolved := by
  cases len with
  | none =>
    refine ⟨?_, ?_, ?_, [], ?_, ?_, ?_⟩
    · cases bt <;> exact Nat.le_refl _
    · cases bt <;> rfl
    · cases bt <;> exact h
    · simp [Plan.close]
    · rfl
    · cases bt <;> exact RefsStep.refl _ _
  | some e =>
    obtain ⟨b, rfl⟩ := hbt rfl
    simp only [genClose, Plan.close, Option.isSome_some, Bool.true_and, decide_eq_true_eq, h.pending]
    by_cases hn : name ∈ p.pending
    · simp only [if_pos hn]
      refine ⟨by omega, trivial, ⟨?_, ?_⟩, [name], rfl, rfl, RefsStep.one _ _⟩
      · intro f
        by_cases hf : f = name
        · subst hf; simp
        · simp only [upd_ne _ _ hf, h.log f]; simp [hf]
      · simp
    · simp only [if_neg hn]
      exact ⟨Nat.le_refl _, trivial, h, [], by simp, rfl, RefsStep.refl _ _⟩

theorem PlanRel.mk' {g : GState} {p : Plan} (h : PlanRel g p) (g' : GState) (h1 : g'.resolved = g.resolved)
    (h2 : g'.pending = g.pending) : PlanRel g' p := ⟨by rw [h1]; exact h.log, by rw [h2]; exact h.pending⟩

theorem allResolved_nil (res : String → Option Nat) : allResolved res [] = true := rfl

theorem blens_auto {a : FAttr} (h : (FAttr.blens a).isEmpty = false) : ∃ e, a.auto = some e := by
  unfold FAttr.blens at h
  cases ha : a.auto with
  | none => rw [ha] at h; simp at h
  | some e => exact ⟨e, rfl⟩

theorem genClose_ok (t : Target) (name : String) (len : Option Expr) (bt : Target) (g : GState) :
    (genClose t name len bt g).1.ok = g.ok := by
  cases len with
  | none => cases bt <;> rfl
  | some e =>
    cases bt with
    | buf b => simp only [genClose]; split <;> rfl
    | _ => rfl

theorem genOpen_ok (t : Target) (name : String) (len : Option Expr) (g : GState) :
    (genOpen t name len g).1.ok = g.ok := by
  obtain ⟨c', _, h⟩ := genOpen_spec t name len g
  rw [h]

theorem genItems_ok (fs : Fields) : ∀ (cond : Bool) (t : Target) (g : GState) (as : List Deferred),
    (genItems cond t fs g as).1.ok = true → g.ok = true := by
  induction fs with
  | nil => intro cond t g as h; simp only [genItems, Bool.and_eq_true] at h; exact h.1
  | pad _ _ _ ih => intro cond t g as h; simp only [genItems] at h; have := ih _ _ _ _ h; exact this
  | leaf a ty rest ih =>
    intro cond t g as h
    simp only [genItems] at h
    split at h
    · have := ih _ _ _ _ h; exact this
    · have := ih _ _ _ _ h; exact this
  | cont a len items rest ihi ihr =>
    intro cond t g as h
    simp only [genItems] at h
    have h1 := ihr _ _ _ _ h
    simp only [genClose_ok] at h1
    have h3 := ihi _ _ _ _ h1
    simp only [genOpen_ok] at h3
    exact h3

/-- Counters and names through the items of a container. -/
theorem genItems_static (fs : Fields) :
    ∀ (cond : Bool) (t : Target) (g : GState) (autos : List Deferred) (p : Plan) (m : Refs),
      PlanRel g p → (∀ d ∈ autos, d.attr.auto.isSome) → (genItems cond t fs g autos).1.ok = true →
      g.ok = true ∧ g.c ≤ (genItems cond t fs g autos).1.c ∧
      RefsStep g.c (genItems cond t fs g autos).1.c (setNames cond fs ++ autos.map (·.attr.name)) m
        (refsAfter (genItems cond t fs g autos).2 m) ∧
      PlanRel (genItems cond t fs g autos).1 (planItems fs p) ∧
      ∃ new, (planItems fs p).log = p.log ++ new ∧
        RefsStep g.c (genItems cond t fs g autos).1.c new g.resolved (genItems cond t fs g autos).1.resolved := by
  induction fs with
  | nil =>
    intro cond t g autos p m hp ha hok
    simp only [genItems, Bool.and_eq_true, List.isEmpty_iff] at hok ⊢
    obtain ⟨hok, rfl⟩ := hok
    exact ⟨hok, Nat.le_refl _, RefsStep.refl _ _, hp.mk' _ rfl rfl, [], by simp [planItems], RefsStep.refl _ _⟩
  | pad nm e rest ih =>
    intro cond t g autos p m hp ha hok
    simp only [genItems] at hok ⊢
    generalize hF : genFlush t g.resolved autos (g.c + 1) = F at *
    obtain ⟨c2, p2, autos2⟩ := F
    simp only at hok ⊢
    have hrest := genFlush_rest t g.resolved autos (g.c + 1)
    have hle := genFlush_le t g.resolved autos (g.c + 1)
    have hstep := refs_genFlush t g.resolved autos (g.c + 1) m ha
    rw [hF] at hrest hle hstep
    simp only at hrest hle hstep
    have ha2 : ∀ d ∈ autos2, d.attr.auto.isSome := by
      intro d hd; rw [hrest] at hd; exact ha d (List.mem_filter.mp hd).1
    obtain ⟨i1, i2, i3, i4, new, i5, i6⟩ := ih cond t { g with c := c2 } autos2 p
      (refsAfter p2 m) (hp.setC c2) ha2 hok
    simp only at i2 i3 i6
    refine ⟨i1, by omega, ?_, i4, new, i5, i6.mono (by omega) (Nat.le_refl _)⟩
    simp only [refsAfter_append, refsAfter, Prog.one_def, setNames]
    refine ((hstep.trans i3 hle i2).mono (by omega) (Nat.le_refl _)).congr ?_
    intro n
    subst hrest
    simp only [List.mem_append, List.mem_map, List.mem_filter]
    constructor
    · rintro (⟨d, ⟨h1, _⟩, h3⟩ | h | ⟨d, ⟨h1, _⟩, h3⟩)
      · exact Or.inr ⟨d, h1, h3⟩
      · exact Or.inl h
      · exact Or.inr ⟨d, h1, h3⟩
    · rintro (h | ⟨d, h1, h3⟩)
      · exact Or.inr (Or.inl h)
      · cases hb : allResolved g.resolved (FAttr.blens d.attr)
        · exact Or.inr (Or.inr ⟨d, ⟨h1, by simp [hb]⟩, h3⟩)
        · exact Or.inl ⟨d, ⟨h1, hb⟩, h3⟩
  | leaf a ty rest ih =>
    intro cond t g autos p m hp ha hok
    simp only [genItems, planItems] at hok ⊢
    rw [hp.known] at *
    by_cases hk : ((FAttr.blens a).isEmpty || p.known (FAttr.blens a)) = true
    · simp only [if_pos hk] at hok ⊢
      generalize hr : (if (FAttr.blens a).isEmpty then g.c else g.c + 1) = r at *
      generalize hFi : genField (realTarget t autos) r a ty (r + 1) = Fi at *
      obtain ⟨c1, p1⟩ := Fi
      simp only at hok ⊢
      generalize hF : genFlush t g.resolved autos c1 = F at *
      obtain ⟨c2, p2, autos2⟩ := F
      simp only at hok ⊢
      have hc1 : r + 1 ≤ c1 := by have := genField_le (realTarget t autos) r a ty (r + 1); rw [hFi] at this; exact this
      have hp1 : ∀ m, refsAfter p1 m = m := by
        intro m; have := refsAfter_genField (realTarget t autos) r a ty (r + 1) m; rw [hFi] at this; exact this
      have hcr : g.c ≤ r := by rw [← hr]; split <;> omega
      have hpre : RefsStep g.c (r + 1) (if (FAttr.blens a).isEmpty then [] else [a.name]) m
          (refsAfter (if (FAttr.blens a).isEmpty then Prog.nil else genBlen g.resolved a g.c) m) := by
        cases hb : (FAttr.blens a).isEmpty with
        | true => exact (RefsStep.refl g.c m).mono (Nat.le_refl _) (by omega)
        | false =>
          obtain ⟨e, he⟩ := blens_auto hb
          rw [hb] at hr
          simp only [Bool.false_eq_true, if_false] at hr ⊢
          rw [refsAfter_genBlen he]
          exact (RefsStep.one m a.name).mono (Nat.le_refl _) (by omega)
      generalize hm1 : refsAfter (if (FAttr.blens a).isEmpty then Prog.nil else genBlen g.resolved a g.c) m = m1 at *
      have hrest := genFlush_rest t g.resolved autos c1
      have hle := genFlush_le t g.resolved autos c1
      have hstep := refs_genFlush t g.resolved autos c1 m1 ha
      rw [hF] at hrest hle hstep
      simp only at hrest hle hstep
      have ha2 : ∀ d ∈ autos2, d.attr.auto.isSome := by
        intro d hd; rw [hrest] at hd; exact ha d (List.mem_filter.mp hd).1
      obtain ⟨i1, i2, i3, i4, new, i5, i6⟩ := ih cond t { g with c := c2 } autos2 p
        (refsAfter p2 m1) (hp.setC c2) ha2 hok
      simp only at i2 i3 i6
      refine ⟨i1, by omega, ?_, i4, new, i5, i6.mono (by omega) (Nat.le_refl _)⟩
      have hall : refsAfter ((((if (FAttr.blens a).isEmpty then Prog.nil else genBlen g.resolved a g.c) ++
          .op (.getRef r a.name) p1) ++ p2) ++ (genItems cond t rest { g with c := c2 } autos2).2) m =
          refsAfter (genItems cond t rest { g with c := c2 } autos2).2 (refsAfter p2 m1) := by
        simp only [refsAfter_append, refsAfter, hp1, hm1]
      rw [hall]
      simp only [setNames]
      refine (((hpre.mono (Nat.le_refl _) hc1).trans (hstep.trans i3 hle i2) (by omega) (by omega))).congr ?_
      intro n
      subst hrest
      simp only [List.mem_append, List.mem_map, List.mem_filter]
      constructor
      · rintro (h | ⟨d, ⟨h1, _⟩, h3⟩ | h | ⟨d, ⟨h1, _⟩, h3⟩)
        · exact Or.inl (Or.inl h)
        · exact Or.inr ⟨d, h1, h3⟩
        · exact Or.inl (Or.inr h)
        · exact Or.inr ⟨d, h1, h3⟩
      · rintro ((h | h) | ⟨d, h1, h3⟩)
        · exact Or.inl h
        · exact Or.inr (Or.inr (Or.inl h))
        · cases hb : allResolved g.resolved (FAttr.blens d.attr)
          · exact Or.inr (Or.inr (Or.inr ⟨d, ⟨h1, by simp [hb]⟩, h3⟩))
          · exact Or.inr (Or.inl ⟨d, ⟨h1, hb⟩, h3⟩)
    · simp only [if_neg hk] at hok ⊢
      have hne : (FAttr.blens a).isEmpty = false := by
        cases hb : (FAttr.blens a).isEmpty
        · rfl
        · simp [hb] at hk
      obtain ⟨e, he⟩ := blens_auto hne
      obtain ⟨i1, i2, i3, i4, new, i5, i6⟩ := ih cond t _ (autos ++ [⟨g.c, a, ty⟩]) (p.await a) m
        (hp.await a (g.c + 1)) (by
          intro d hd
          simp only [List.mem_append, List.mem_singleton] at hd
          rcases hd with hd | rfl
          · exact ha d hd
          · simp [he]) hok
      simp only at i1 i2 i3 i6
      refine ⟨i1, by omega, ?_, i4, new, i5, i6.mono (by omega) (Nat.le_refl _)⟩
      simp only [refsAfter, setNames, hne, Bool.false_eq_true, if_false]
      refine (i3.mono (by omega) (Nat.le_refl _)).congr ?_
      intro n
      simp only [List.mem_append, List.map_append, List.map_cons, List.map_nil, List.mem_singleton]
      constructor
      · rintro (h | h | h)
        · exact Or.inl (Or.inr h)
        · exact Or.inr h
        · exact Or.inl (Or.inl h)
      · rintro ((h | h) | h)
        · exact Or.inr (Or.inr h)
        · exact Or.inl h
        · exact Or.inr (Or.inl h)
  | cont a len items rest ihi ihr =>
    intro cond t g autos p m hp ha hok
    simp only [genItems, planItems] at hok ⊢
    generalize hC : genCond a.cond g.c = C at *
    obtain ⟨c1, p1, cr⟩ := C
    simp only at hok ⊢
    have hc1 : g.c ≤ c1 := by
      have : g.c ≤ (genCond a.cond g.c).1 := by cases a.cond <;> simp [genCond]
      rw [hC] at this; exact this
    have hcr : cr.isSome = a.cond.isSome := by
      have : (genCond a.cond g.c).2.2.isSome = a.cond.isSome := by cases a.cond <;> rfl
      rw [hC] at this; exact this
    have hp1 : refsAfter p1 m = m := by
      have := refsAfter_genCond a.cond g.c m; rw [hC] at this; exact this
    generalize hX : genXforms (realTarget t autos) c1 a.xfs = Y at *
    obtain ⟨c2, po, t', pc⟩ := Y
    simp only at hok ⊢
    have hc2 : c1 ≤ c2 := by have := genXforms_le (realTarget t autos) c1 a.xfs; rw [hX] at this; exact this
    have hpo := fun m => refsAfter_genXforms (realTarget t autos) c1 a.xfs m
    rw [hX] at hpo
    simp only at hpo
    obtain ⟨c3, hc3, hO⟩ := genOpen_spec t' a.name len { g with c := c2 }
    have hO2 := fun m => refsAfter_genOpen t' a.name len { g with c := c2 } m
    have hO3 := genOpen_target t' a.name len { g with c := c2 }
    generalize hOo : genOpen t' a.name len { g with c := c2 } = O at *
    obtain ⟨g3, p3, bt⟩ := O
    simp only at hO hO2 hO3 hok ⊢
    subst hO
    simp only at hc3 hok ⊢
    rw [hcr] at *
    generalize hcd : (a.cond.isSome || cond) = cond' at *
    generalize hN : (if cond' = true then genNullchecks items c3 else (c3, Prog.nil)) = N at *
    obtain ⟨c4, p4⟩ := N
    simp only at hok ⊢
    have hN1 : c3 ≤ c4 ∧ RefsStep c3 c4 (if cond' then nullNames items else []) m (refsAfter p4 m) := by
      cases cond' with
      | true =>
        simp only [if_true] at hN ⊢
        have h1 := genNullchecks_le items c3
        have h2 := refs_genNullchecks items c3 m
        rw [hN] at h1 h2
        exact ⟨h1, h2⟩
      | false =>
        simp only [Bool.false_eq_true, if_false, Prod.mk.injEq] at hN ⊢
        obtain ⟨rfl, rfl⟩ := hN
        exact ⟨Nat.le_refl _, RefsStep.refl _ _⟩
    generalize hI : genItems cond' bt items { g with c := c4 } [] = I at *
    obtain ⟨g5, p5⟩ := I
    simp only at hok ⊢
    generalize hCl : genClose t' a.name len bt g5 = Cl at *
    obtain ⟨g6, p6⟩ := Cl
    simp only at hok ⊢
    generalize hF : genFlush t g6.resolved autos g6.c = F at *
    obtain ⟨c7, p7, autos7⟩ := F
    simp only at hok ⊢
    have hrest := genFlush_rest t g6.resolved autos g6.c
    have hle := genFlush_le t g6.resolved autos g6.c
    rw [hF] at hrest hle
    simp only at hrest hle
    have ha7 : ∀ d ∈ autos7, d.attr.auto.isSome := by
      intro d hd; rw [hrest] at hd; exact ha d (List.mem_filter.mp hd).1
    have hok6 : g6.ok = true := by have := genItems_ok rest cond t _ autos7 hok; exact this
    have hok5 : g5.ok = true := by
      have h1 := genClose_ok t' a.name len bt g5
      rw [hCl] at h1; rw [← h1]; exact hok6
    obtain ⟨j1, j2, j3, j4, new1, j5, j6⟩ := ihi cond' bt { g with c := c4 } [] p (refsAfter p4 m)
      (hp.setC c4) (by simp) (by rw [hI]; exact hok5)
    rw [hI] at j2 j3 j4 j6
    simp only at j1 j2 j3 j6
    have hbt : len.isSome = true → ∃ b, bt = .buf b := by
      intro h; rw [hO3, if_pos h]; exact ⟨c2, rfl⟩
    obtain ⟨k1, k2, k3, new2, k4, _, k5⟩ := genClose_spec j4 t' a.name len bt hbt
    rw [hCl] at k1 k2 k3 k5
    simp only at k1 k2 k3 k5
    obtain ⟨l1, l2, l3, l4, new3, l5, l6⟩ := ihr cond t { g6 with c := c7 } autos7
      ((planItems items p).close a.name len) (refsAfter p7 (refsAfter p5 (refsAfter p4 m)))
      (k3.setC c7) ha7 hok
    simp only at l2 l3 l6
    refine ⟨j1, by omega, ?_, l4, new1 ++ (new2 ++ new3), ?_, ?_⟩
    · have hstep := refs_genFlush t g6.resolved autos g6.c (refsAfter p5 (refsAfter p4 m)) ha
      rw [hF] at hstep
      simp only at hstep
      have hp6 : ∀ m, refsAfter p6 m = m := by
        intro m; have := refsAfter_genClose t' a.name len bt g5 m; rw [hCl] at this; exact this
      have hall : refsAfter (p1 ++ wrapCond cr (po ++ p3 ++ p4 ++ p5 ++ p6 ++ pc) ++ p7 ++
          (genItems cond t rest { g6 with c := c7 } autos7).2) m =
          refsAfter (genItems cond t rest { g6 with c := c7 } autos7).2
            (refsAfter p7 (refsAfter p5 (refsAfter p4 m))) := by
        simp only [refsAfter_append, refsAfter_wrapCond, hp1, (hpo _).1, (hpo _).2, hO2, hp6]
      rw [hall]
      simp only [setNames, hcd]
      have s1 := hN1.2.trans j3 hN1.1 j2
      have s2 := s1.trans (hstep.mono k1 (Nat.le_refl _)) (by omega) (by omega)
      have s3 := s2.trans l3 (by omega) l2
      refine (s3.mono (by omega) (Nat.le_refl _)).congr ?_
      intro n
      subst hrest
      simp only [List.mem_append, List.mem_map, List.mem_filter, List.map_nil, List.append_nil]
      constructor
      · rintro (((h | h) | ⟨d, ⟨h1, _⟩, h3⟩) | h | ⟨d, ⟨h1, _⟩, h3⟩)
        · exact Or.inl (Or.inl (Or.inl h))
        · exact Or.inl (Or.inl (Or.inr h))
        · exact Or.inr ⟨d, h1, h3⟩
        · exact Or.inl (Or.inr h)
        · exact Or.inr ⟨d, h1, h3⟩
      · rintro (((h | h) | h) | ⟨d, h1, h3⟩)
        · exact Or.inl (Or.inl (Or.inl h))
        · exact Or.inl (Or.inl (Or.inr h))
        · exact Or.inr (Or.inl h)
        · cases hb : allResolved g6.resolved (FAttr.blens d.attr)
          · exact Or.inr (Or.inr ⟨d, ⟨h1, by simp [hb]⟩, h3⟩)
          · exact Or.inl (Or.inr ⟨d, ⟨h1, hb⟩, h3⟩)
    · rw [l5, k4, j5]; simp only [List.append_assoc]
    · have s1 := j6.trans k5 j2 k1
      have s2 := s1.trans (l6.mono hle (Nat.le_refl _)) (by omega) (by omega)
      rw [List.append_assoc] at s2
      exact s2.mono (by omega) (Nat.le_refl _)

end Verif.Enc
