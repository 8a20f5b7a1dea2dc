import Verif.EncodeItems
/-!
# The generated encoders compute the specified function: items, arms and declarations
-/
namespace Verif.Enc

/-! ## Deferred fields -/

/-- The deferred fields and their buffers: each buffer is newer than the one before, and holds the bytes
that follow the field. -/
def ARel (s : State) (c : Nat) : Nat → List Deferred → List Def → Prop
  | _, [], [] => True
  | c0, d :: ds, e :: es => c0 ≤ d.buf ∧ d.buf < c ∧ d.attr = e.attr ∧ d.ty = e.ty ∧
      d.attr.auto.isSome = true ∧ s.mem (.buf d.buf) = some e.data ∧ ARel s c (d.buf + 1) ds es
  | _, _, _ => False

theorem ARel.autos {s c c0 autos ds} (h : ARel s c c0 autos ds) : ∀ d ∈ autos, d.attr.auto.isSome = true := by
  induction autos generalizing c0 ds with
  | nil => simp
  | cons d as ih =>
    cases ds with
    | nil => exact h.elim
    | cons e es =>
      obtain ⟨_, _, _, _, h1, _, h2⟩ := h
      intro x hx
      rcases List.mem_cons.mp hx with rfl | hx
      · exact h1
      · exact ih h2 x hx

/-- Nothing older than `c` but `T` was written, and `T` is older than the buffers. -/
theorem ARel.frame {s s' : State} {c c' c0 : Nat} {T bs autos ds} (h : ARel s c c0 autos ds)
    (hf : Frame c T bs s s') (hT : T.lt c0) (hc : c ≤ c') : ARel s' c' c0 autos ds := by
  induction autos generalizing c0 ds with
  | nil =>
    cases ds
    · trivial
    · exact h.elim
  | cons d as ih =>
    cases ds with
    | nil => exact h.elim
    | cons e es =>
      obtain ⟨h1, h2, h3, h4, h5, h6, h7⟩ := h
      refine ⟨h1, by omega, h3, h4, h5, ?_, ih h7 (Target.lt_mono hT (by omega))⟩
      rw [hf.mem _ (by simpa [Target.lt] using h2), if_neg, h6]
      rintro rfl
      simp [Target.lt] at hT; omega

theorem ARel.mono {s : State} {c c0 c1 : Nat} {autos ds} (h : ARel s c c0 autos ds) (h1 : c1 ≤ c0) :
    ARel s c c1 autos ds := by
  cases autos with
  | nil =>
    cases ds
    · trivial
    · exact h.elim
  | cons d as =>
    cases ds with
    | nil => exact h.elim
    | cons e es =>
      obtain ⟨h1, h2⟩ := h
      exact ⟨by omega, h2⟩

theorem ARel.snoc {s : State} {c c0 : Nat} {autos ds} (h : ARel s c c0 autos ds) (hc : c0 ≤ c) (a : FAttr)
    (ty : LTy) (ha : a.auto.isSome = true) :
    ARel { s with mem := upd s.mem (.buf c) (some []) } (c + 1) c0 (autos ++ [⟨c, a, ty⟩])
      (ds ++ [⟨a, ty, []⟩]) := by
  induction autos generalizing c0 ds with
  | nil =>
    cases ds with
    | cons _ _ => exact h.elim
    | nil =>
      refine ⟨hc, by simp, rfl, rfl, ha, ?_, trivial⟩
      simp
  | cons d as ih =>
    cases ds with
    | nil => exact h.elim
    | cons e es =>
      obtain ⟨h1, h2, h3, h4, h5, h6, h7⟩ := h
      refine ⟨h1, by omega, h3, h4, h5, ?_, ih h7 (by omega)⟩
      have : (Target.buf d.buf) ≠ .buf c := by simp; omega
      show upd s.mem (.buf c) (some []) (.buf d.buf) = _
      rw [upd_ne _ _ this, h6]

theorem realTarget_cons (t : Target) (d d' : Deferred) (ds : List Deferred) :
    realTarget t (d :: d' :: ds) = realTarget t (d' :: ds) := by
  simp only [realTarget, List.getLast?_cons_cons]

theorem put_cons (d d' : Def) (ds : List Def) (bs : Bytes) :
    put (d :: d' :: ds) bs = (d :: (put (d' :: ds) bs).1, (put (d' :: ds) bs).2) := rfl

/-- Writing an item: after the last deferred field, or to the container's target. -/
theorem ARel.put {s s' : State} {c : Nat} {bs : Bytes} {t : Target} {autos : List Deferred} :
    ∀ {c0 : Nat} {ds : List Def}, ARel s c c0 autos ds → c0 ≤ c → (s.sink t).lt c0 →
      Frame c (s.sink (realTarget t autos)) bs s s' →
      Frame c0 (s.sink t) (put ds bs).2 s s' ∧ ARel s' c c0 autos (Enc.put ds bs).1 := by
  induction autos with
  | nil =>
    intro c0 ds h hc hT hf
    cases ds with
    | cons _ _ => exact h.elim
    | nil => exact ⟨hf.mono hc, trivial⟩
  | cons d as ih =>
    intro c0 ds h hc hT hf
    cases ds with
    | nil => exact h.elim
    | cons e es =>
      obtain ⟨h1, h2, h3, h4, h5, h6, h7⟩ := h
      cases as with
      | nil =>
        cases es with
        | cons _ _ => exact h7.elim
        | nil =>
          have hr : s.sink (realTarget t [d]) = .buf d.buf := rfl
          rw [hr] at hf
          refine ⟨(hf.mono hc).other (by simp [Target.lt]; omega), h1, h2, h3, h4, h5, ?_, trivial⟩
          rw [hf.mem _ (by simpa [Target.lt] using h2), if_pos rfl, h6]; rfl
      | cons d' as' =>
        cases es with
        | nil => exact h7.elim
        | cons e' es' =>
          rw [realTarget_cons] at hf
          obtain ⟨i1, i2⟩ := ih h7 (by omega) (Target.lt_mono hT (by omega)) hf
          rw [put_cons]
          refine ⟨i1.mono (by omega), h1, h2, h3, h4, h5, ?_, i2⟩
          rw [i1.mem _ (by simp [Target.lt]), if_neg, h6]
          intro heq
          rw [← heq] at hT
          simp [Target.lt] at hT; omega

/-! ## Flushing -/

/-- What holds between the items of a container whose code starts at register `c0`. -/
structure ICtx (m : Refs) (s : State) (c0 c : Nat) (t : Target) (env lens : Env)
    (res : String → Option Nat) (autos : List Deferred) (ds : List Def) : Prop where
  base : Ctx m s c t env
  le : c0 ≤ c
  t0 : t.lt c0
  s0 : (s.sink t).lt c0
  lens_eq : (fun f => (res f).bind s.regs) = lens
  res_lt : ∀ f r, res f = some r → r < c
  autos : ARel s c c0 autos ds
  fresh : Fresh c s

/-- The context for the real target. -/
theorem ARel.real {s : State} {c c0 : Nat} {autos ds} (h : ARel s c c0 autos ds) (t : Target) :
    autos = [] ∨ ∃ b, realTarget t autos = .buf b ∧ c0 ≤ b ∧ b < c ∧ (s.mem (.buf b)).isSome = true := by
  induction autos generalizing c0 ds with
  | nil => exact Or.inl rfl
  | cons d as ih =>
    right
    cases ds with
    | nil => exact h.elim
    | cons e es =>
      obtain ⟨h1, h2, h3, h4, h5, h6, h7⟩ := h
      cases as with
      | nil => exact ⟨d.buf, rfl, h1, h2, by simp [h6]⟩
      | cons d' as' =>
        rcases ih h7 with h | ⟨b, k1, k2, k3, k4⟩
        · cases h
        · exact ⟨b, by rw [realTarget_cons, k1], by omega, k3, k4⟩

theorem ICtx.real {m s c0 c t env lens res autos ds} (h : ICtx m s c0 c t env lens res autos ds) :
    Ctx m s c (realTarget t autos) env := by
  rcases h.autos.real t with rfl | ⟨b, h1, h2, h3, h4⟩
  · exact h.base
  · rw [h1]
    exact ⟨h.base.env_eq, h.base.refs_lt, by simpa [Target.lt] using h3, by simpa [State.sink, Target.lt] using h3,
      h4, rfl⟩

/-- After an item: `bs` was written to the real target, the names and lengths may have changed. -/
theorem ICtx.wrote {m s c0 c t env lens res autos ds} (h : ICtx m s c0 c t env lens res autos ds)
    {s' : State} {bs : Bytes} (hf : Frame c (s.sink (realTarget t autos)) bs s s')
    {m' c' env' lens' res'} (hc : c ≤ c') (he : (fun n => (m' n).bind s'.regs) = env')
    (hm : ∀ n r, m' n = some r → r < c') (hl : (fun f => (res' f).bind s'.regs) = lens')
    (hr : ∀ f r, res' f = some r → r < c') (ha : Fresh c' s') :
    ICtx m' s' c0 c' t env' lens' res' autos (put ds bs).1 ∧ Frame c0 (s.sink t) (put ds bs).2 s s' := by
  obtain ⟨h1, h2⟩ := h.autos.put h.le h.s0 hf
  have hst := h.base.step hf hc
  refine ⟨⟨⟨he, hm, hst.tlt, hst.slt, hst.live, hst.root⟩, by have := h.le; omega, h.t0, ?_, hl, hr, ?_, ha⟩, h1⟩
  · rw [sink_eq hf.info h.base.tlt]; exact h.s0
  · have : ARel s' c c0 autos (put ds bs).1 := h2
    exact this.frame (Frame.refl c (s.sink t) s') h.s0 hc

theorem overlay_bind {regs : Nat → Option Val} {m res : String → Option Nat} {env lens : Env}
    (hm : (fun n => (m n).bind regs) = env) (hr : (fun f => (res f).bind regs) = lens) (l : List String) :
    (fun n => (overlay m (l.map fun f => (blenName f, res f)) n).bind regs) =
      overlay env (l.map fun f => (blenName f, lens f)) := by
  induction l with
  | nil => exact hm
  | cons f l ih =>
    funext n
    simp only [List.map_cons, overlay, List.foldr_cons] at ih ⊢
    by_cases hn : n = blenName f
    · subst hn
      simp only [upd_same]
      exact congrFun hr f
    · rw [upd_ne _ _ hn, upd_ne _ _ hn]
      exact congrFun ih n

/-- Evaluating a calculated field that uses `blen`. -/
theorem exec_genBlen {X m s c t env lens res} (h : Ctx m s c t env)
    (hl : (fun f => (res f).bind s.regs) = lens) (a : FAttr) {e : Expr} (he : a.auto = some e) (Q : Prog) :
    exec X m (genBlen res a c ++ Q) s =
      match evBlen X env lens a with
      | .ok v => exec X (upd m a.name (some c)) Q (s.setReg c v)
      | .error f => .fault f := by
  simp only [genBlen, he, Prog.op_append, Prog.one_append, evBlen, ev]
  rw [exec_one (by simp) (by simp)]
  simp only [execOp, overlay_bind h.env_eq hl]
  cases runE X.oc ⟨overlay env (e.blens.map fun f => (blenName f, lens f)), X.input⟩ e.unblen with
  | error f => rfl
  | ok v => simp only [ok_bind]; rfl

theorem Ctx.bind {m s c t env} (h : Ctx m s c t env) (n : String) (v : Val) :
    Ctx (upd m n (some c)) (s.setReg c v) (c + 1) t (upd env n (some v)) := by
  have hs := h.set v (Nat.le_refl c) (by omega : c ≤ c + 1)
  refine ⟨?_, ?_, hs.tlt, hs.slt, hs.live, hs.root⟩
  · funext x
    by_cases hx : x = n
    · subst hx; simp
    · rw [upd_ne _ _ hx, upd_ne _ _ hx]; exact congrFun hs.env_eq x
  · intro x r hx
    by_cases hx' : x = n
    · subst hx'; simp at hx; omega
    · rw [upd_ne _ _ hx'] at hx; exact hs.refs_lt x r hx

/-- A result with a bytes output, as the simulation statements want it. -/
def flushRes (r : Res (Env × List Def × Bytes)) : Res ((Env × List Def) × Bytes) := do
  let (e, d, b) ← r
  .ok ((e, d), b)

/-- Running `P` gives what `r` says, where the names, lengths and deferred fields go on in the state. -/
def LSim {α} (X : Ext) (m : Refs) (P : Prog) (s : State) (c0 c' : Nat) (T : Target) (r : Res (α × Bytes))
    (post : α → State → Prop) : Prop :=
  match r with
  | .ok (a, bs) => ∃ s', exec X m P s = .next s' ∧ Frame c0 T bs s s' ∧ Above c' s s' ∧ post a s'
  | .error f => exec X m P s = .fault f

theorem sim_flush {X : Ext} {t : Target} {res : String → Option Nat} {p : Plan} {lens : Env}
    (hp : ∀ fs, allResolved res fs = p.known fs) (autos : List Deferred) :
    ∀ (c0 c : Nat) (m : Refs) (s : State) (env : Env) (ds : List Def), ICtx m s c0 c t env lens res autos ds →
      LSim X m (genFlush t res autos c).2.1 s c0 (genFlush t res autos c).1 (s.sink t)
        (flushRes (encFlush X p lens ds env))
        (fun r s' => (∀ q, q < c → s'.regs q = s.regs q) ∧
          (∀ q, q < c → s'.info q = s.info q) ∧
          ICtx (refsAfter (genFlush t res autos c).2.1 m) s' c0 (genFlush t res autos c).1 t r.1 lens res
            (genFlush t res autos c).2.2 r.2) := by
  induction autos with
  | nil =>
    intro c0 c m s env ds h
    cases ds with
    | cons _ _ => exact h.autos.elim
    | nil => exact ⟨s, rfl, Frame.refl _ _ _, Above.refl _ _, fun _ _ => rfl, fun _ _ => rfl, h⟩
  | cons d as ih =>
    intro c0 c m s env ds h
    cases ds with
    | nil => exact h.autos.elim
    | cons e es =>
      obtain ⟨a1, a2, a3, a4, a5, a6, a7⟩ := h.autos
      have hin : ICtx m s (d.buf + 1) c t env lens res as es :=
        ⟨h.base, by omega, Target.lt_mono h.t0 (by omega), Target.lt_mono h.s0 (by omega), h.lens_eq, h.res_lt,
          a7, h.fresh⟩
      have hi := ih (d.buf + 1) c m s env es hin
      have hle := genFlush_le t res as c
      have hra : ∀ x, x ∈ as → x.attr.auto.isSome = true := a7.autos
      simp only [genFlush, encFlush]
      generalize hF : genFlush t res as c = F at *
      obtain ⟨c1, p1, rest⟩ := F
      simp only at hi hle ⊢
      cases hef : encFlush X p lens es env with
      | error f =>
        rw [hef] at hi
        simp only [flushRes, err_bind, LSim] at hi ⊢
        split
        · simp only [Prog.append_assoc]; rw [exec_append, hi]; rfl
        · exact hi
      | ok q =>
        obtain ⟨env1, rest', out⟩ := q
        rw [hef] at hi
        simp only [flushRes, ok_bind, LSim] at hi ⊢
        obtain ⟨s1, k1, k2, k3, k4, k4', k5⟩ := hi
        have hbuf : s1.mem (.buf d.buf) = some e.data := by
          rw [k2.mem _ (by simp [Target.lt]), if_neg, a6]
          intro heq
          have := h.s0
          rw [← heq] at this
          simp [Target.lt] at this; omega
        rw [hp, ← a3]
        by_cases hk : p.known (FAttr.blens d.attr) = true
        · simp only [if_pos hk]
          obtain ⟨ex, hex⟩ := Option.isSome_iff_exists.mp a5
          generalize htg : nextTarget t rest = tgt
          -- the target of the flushed field
          have htc : Ctx (refsAfter p1 m) s1 c1 tgt env1 ∧ (tgt = t ∧ rest = [] ∧ rest' = [] ∨
              ∃ d' r' e' re', rest = d' :: r' ∧ rest' = e' :: re' ∧ tgt = .buf d'.buf) := by
            cases rest with
            | nil =>
              refine ⟨by rw [← htg]; exact k5.base, Or.inl ⟨htg.symm, rfl, ?_⟩⟩
              cases rest' with
              | nil => rfl
              | cons _ _ => exact k5.autos.elim
            | cons d' r' =>
              cases rest' with
              | nil => exact k5.autos.elim
              | cons e' re' =>
                obtain ⟨b1, b2, b3, b4, b5, b6, b7⟩ := k5.autos
                refine ⟨?_, Or.inr ⟨d', r', e', re', rfl, rfl, htg.symm⟩⟩
                rw [← htg]
                simp only [nextTarget]
                exact ⟨k5.base.env_eq, k5.base.refs_lt, by simpa [Target.lt] using b2,
                  by simpa [State.sink, Target.lt] using b2, by simp [State.sink, b6], rfl⟩
          obtain ⟨htc, htgt⟩ := htc
          have hfl := genField_le tgt c1 d.attr d.ty (c1 + 1)
          have hrf := fun m => refsAfter_genField tgt c1 d.attr d.ty (c1 + 1) m
          simp only [Prog.append_assoc]
          have hgb := exec_genBlen (X := X) htc k5.lens_eq d.attr hex
            ((genField tgt c1 d.attr d.ty (c1 + 1)).2 ++ .one (.emitBuf tgt d.buf))
          cases hv : evBlen X env1 lens d.attr with
          | error f =>
            rw [hv] at hgb
            simp only [err_bind]
            rw [exec_append, k1]; exact hgb
          | ok v =>
            rw [hv] at hgb
            simp only [ok_bind] at hgb ⊢
            have hctx := htc.bind d.attr.name v
            have hfs := sim_field (X := X) d.attr d.ty (s1.setReg c1 v) c1 (c1 + 1) v hctx (by omega) (by simp)
            rw [setReg_sink] at hfs
            rw [← a4]
            cases hb : encField X (upd env1 d.attr.name (some v)) d.attr d.ty v with
            | error f =>
              rw [hb] at hfs
              simp only [bare_error, Sim] at hfs
              simp only [err_bind]
              rw [exec_append, k1]
              simp only [Out.andThen]
              rw [hgb, exec_append, hfs]; rfl
            | ok b =>
              rw [hb] at hfs
              obtain ⟨s2, q1, q2, q3, _⟩ := hfs
              simp only [ok_bind]
              generalize hc2 : (genField tgt c1 d.attr d.ty (c1 + 1)).1 = c2 at *
              generalize hp2 : (genField tgt c1 d.attr d.ty (c1 + 1)).2 = p2 at *
              have hfr1 : Frame c1 (s1.sink tgt) b s1 s2 := by
                have := (Frame.setReg (s1.sink tgt) s1 v (Nat.le_refl c1)).trans q2 (by omega : c1 ≤ c1 + 1)
                simpa using this
              have hctx2 : Ctx (upd (refsAfter p1 m) d.attr.name (some c1)) s2 c2 tgt
                  (upd env1 d.attr.name (some v)) := hctx.step q2 hfl
              have hsk : s2.sink tgt = s1.sink tgt := sink_eq hfr1.info htc.tlt
              obtain ⟨s3, w1, w2, w3⟩ := write_ok hctx2 e.data
              rw [hsk] at w2
              have hTne : s1.sink tgt ≠ .buf d.buf := by
                rcases htgt with ⟨rfl, rfl, rfl⟩ | ⟨d', r', e', re', rfl, rfl, rfl⟩
                · intro heq
                  have := k5.s0; rw [heq] at this
                  have h0 : (s1.sink tgt).lt c0 := by
                    rw [sink_eq k4' h.base.tlt]; exact h.s0
                  rw [heq] at h0; simp [Target.lt] at h0; omega
                · obtain ⟨b1, _⟩ := k5.autos
                  simp [State.sink]; omega
              have hbuf2 : s2.mem (.buf d.buf) = some e.data := by
                rw [hfr1.mem _ (by simp [Target.lt]; omega), if_neg (Ne.symm hTne), hbuf]
              have hemit : exec X (upd (refsAfter p1 m) d.attr.name (some c1)) (.one (.emitBuf tgt d.buf)) s2 =
                  .next s3 := by
                rw [Prog.one_def, exec_one (by simp) (by simp)]
                simp only [execOp, hbuf2, optRes, ok_bind, w1]; rfl
              have hrun : exec X m (p1 ++ (genBlen res d.attr c1 ++ (p2 ++ .one (.emitBuf tgt d.buf)))) s =
                  .next s3 := by
                rw [exec_append, k1]
                simp only [Out.andThen]
                rw [hgb, exec_append, q1]
                simp only [Out.andThen, hrf, hemit]
              have hrefs : refsAfter (p1 ++ (genBlen res d.attr c1 ++ (p2 ++ .one (.emitBuf tgt d.buf)))) m =
                  upd (refsAfter p1 m) d.attr.name (some c1) := by
                simp only [refsAfter_append, refsAfter_genBlen hex, hrf]; rfl
              have hfr3 : Frame c1 (s1.sink tgt) (b ++ e.data) s1 s3 := hfr1.trans w2 (by omega)
              have hab3 : Above c2 s1 s3 := by
                intro r hr; rw [w3, q3 r hr]; exact setReg_ne _ _ (by omega)
              have hctx3 : Ctx (upd (refsAfter p1 m) d.attr.name (some c1)) s3 c2 tgt
                  (upd env1 d.attr.name (some v)) := hctx2.step w2 (Nat.le_refl _)
              have hctx3t : Ctx (upd (refsAfter p1 m) d.attr.name (some c1)) s3 c2 t
                  (upd env1 d.attr.name (some v)) := by
                have := k5.base.step hfr3 (by omega : c1 ≤ c2)
                exact ⟨hctx3.env_eq, hctx3.refs_lt, this.tlt, this.slt, this.live, this.root⟩
              have hsk1 : s1.sink t = s.sink t := sink_eq k4' h.base.tlt
              have hsk3 : s3.sink t = s.sink t := by rw [sink_eq hfr3.info k5.base.tlt, hsk1]
              have hab : Above c2 s s3 := (k3.mono (by omega)).trans hab3
              have hfresh : Fresh c2 s3 := h.fresh.step hab (by omega)
              have hregs : ∀ q, q < c → s3.regs q = s.regs q := by
                intro q hq; rw [hfr3.regs q (by omega), k4 q hq]
              have hinfo : ∀ q, q < c → s3.info q = s.info q := by
                intro q hq; rw [hfr3.info q (by omega), k4' q hq]
              have hlens : (fun f => (res f).bind s3.regs) = lens := by
                rw [← k5.lens_eq]; exact env_frame k5.res_lt hfr3.regs
              have hreslt : ∀ f r, res f = some r → r < c2 := fun f r hf => by
                have := k5.res_lt f r hf; omega
              rcases htgt with ⟨rfl, rfl, rfl⟩ | ⟨d', r', e', re', rfl, rfl, rfl⟩
              · simp only
                refine ⟨s3, hrun, ?_, hab, hregs, hinfo, ?_⟩
                · rw [hsk1] at hfr3
                  exact (k2.trans (hfr3.mono (by omega : d.buf + 1 ≤ c1)) (Nat.le_refl _)).mono (by omega)
                · rw [hrefs]
                  exact ⟨hctx3t, by have := h.le; omega, h.t0, by rw [hsk3]; exact h.s0, hlens, hreslt, trivial, hfresh⟩
              · obtain ⟨b1, b2, b3, b4, b5, b6, b7⟩ := k5.autos
                simp only
                have hsb : s1.sink (.buf d'.buf) = .buf d'.buf := rfl
                rw [hsb] at hfr3
                refine ⟨s3, hrun, ?_, hab, hregs, hinfo, ?_⟩
                · have h0 : Frame (d.buf + 1) (s.sink t) [] s1 s3 :=
                    (hfr3.mono (by omega)).other (by simp [Target.lt]; omega)
                  have := (k2.trans h0 (Nat.le_refl _)).mono (by omega : c0 ≤ d.buf + 1)
                  simpa using this
                · rw [hrefs]
                  refine ⟨hctx3t, by have := h.le; omega, h.t0, by rw [hsk3]; exact h.s0, hlens, hreslt, ?_, hfresh⟩
                  refine ⟨by omega, by omega, b3, b4, b5, ?_, ?_⟩
                  · rw [hfr3.mem _ (by simpa [Target.lt] using b2), if_pos rfl, b6]; rfl
                  · exact b7.frame hfr3 (by simp [Target.lt]) (by omega)
        · simp only [if_neg hk]
          refine ⟨s1, k1, k2.mono (by omega), k3, k4, k4', ?_⟩
          have hsk1 : s1.sink t = s.sink t := sink_eq k4' h.base.tlt
          refine ⟨k5.base, by have := h.le; omega, h.t0, by rw [hsk1]; exact h.s0, k5.lens_eq, k5.res_lt, ?_, k5.fresh⟩
          exact ⟨a1, by omega, a3, a4, a5, hbuf, k5.autos⟩

/-! ## Containers with a length -/

theorem Frame.allocNew {c r : Nat} (T : Target) (s : State) (h : c ≤ r) :
    Frame c T [] s { s with mem := upd s.mem (.buf r) (some []) } where
  regs := fun _ _ => rfl
  info := fun _ _ => rfl
  mem := fun w hw => by
    have hne : w ≠ .buf r := by rintro rfl; simp [Target.lt] at hw; omega
    show upd s.mem (.buf r) (some []) w = _
    rw [upd_ne _ _ hne]
    exact (Frame.refl c T s).mem w hw

/-- Whether the length of a container gets recorded at its end. -/
def recorded (name : String) (len : Option Expr) (pending : List String) : Bool :=
  len.isSome && decide (name ∈ pending)

/-- A container's buffer around the code for its contents. -/
theorem sim_buffered {α X m s t env B} {g g3 g5 g6 : GState} {p : Plan} {name : String} {len : Option Expr}
    {p3 p6 : Prog} {bt : Target} {r : Res (α × Bytes)} {post : α → (Nat → Option Val) → Prop}
    (h : Ctx m s g.c t env) (hp : g.pending = p.pending) (hO : genOpen t name len g = (g3, p3, bt))
    (h35 : g3.c ≤ g5.c) (hC : genClose t name len bt g5 = (g6, p6))
    (hB : ∀ s1, Ctx m s1 g3.c bt env → (s1.sink bt).lt g3.c → Frame g.c (s.sink t) [] s s1 → Above g3.c s s1 →
      Sim X m B s1 g3.c g5.c (s1.sink bt) r post) :
    Sim X m (p3 ++ (B ++ p6)) s g.c g6.c (s.sink t)
      (do checkCapacity X env name len p; let (a, bs) ← r; .ok ((a, bs), bs))
      (fun x regs => ∃ regs0, post x.1 regs0 ∧ (∀ q, q < g5.c → regs q = regs0 q) ∧
        (recorded name len g5.pending = true → regs g5.c = some (.int ⟨.u64, x.2.length⟩))) := by
  cases len with
  | none =>
    simp only [genOpen, Prod.mk.injEq] at hO
    obtain ⟨rfl, rfl, rfl⟩ := hO
    have hC' : g6 = g5 ∧ p6 = .nil := by
      cases t <;> simp only [genClose, Prod.mk.injEq] at hC <;> exact ⟨hC.1.symm, hC.2.symm⟩
    obtain ⟨rfl, rfl⟩ := hC'
    simp only [Prog.nil_append, Prog.append_nil, checkCapacity, ok_bind]
    have := hB s h h.slt (Frame.refl _ _ _) (Above.refl _ _)
    cases r with
    | error f => exact this
    | ok q =>
      obtain ⟨a, bs⟩ := q
      obtain ⟨s', k1, k2, k3, k4⟩ := this
      exact ⟨s', k1, k2, k3, s'.regs, k4, fun _ _ => rfl, by simp [recorded]⟩
  | some e =>
    -- the buffer is `g.c`
    have hbt : bt = .buf g.c := by
      have := genOpen_target t name (some e) g; rw [hO] at this; simpa using this
    subst hbt
    have hg3 : g.c < g3.c := by
      simp only [genOpen] at hO
      split at hO <;> simp only [Prod.mk.injEq] at hO <;> rw [← hO.1] <;> simp
    -- opening
    have hopen : Sim X m p3 s g.c g3.c (s.sink t) (do checkCapacity X env name (some e) p; .ok ((), []))
        noPost ∧ ∀ s1, exec X m p3 s = .next s1 → s1.mem (.buf g.c) = some [] := by
      simp only [genOpen] at hO
      by_cases hn : name ∈ g.pending
      · rw [if_pos hn] at hO
        simp only [Prod.mk.injEq] at hO
        obtain ⟨h1, rfl, _⟩ := hO
        have hn' : name ∈ p.pending := hp ▸ hn
        simp only [checkCapacity, if_pos hn', ok_bind]
        have hex : exec X m (.one (.allocDyn g.c)) s = .next { s with mem := upd s.mem (.buf g.c) (some []) } := rfl
        refine ⟨⟨_, hex, Frame.allocNew _ s (Nat.le_refl _), fun _ _ => rfl, trivial⟩, ?_⟩
        intro s1 hs1
        rw [hex] at hs1; cases hs1; simp
      · rw [if_neg hn] at hO
        simp only [Prod.mk.injEq] at hO
        obtain ⟨h1, rfl, _⟩ := hO
        have hn' : name ∉ p.pending := hp ▸ hn
        simp only [checkCapacity, if_neg hn']
        cases hv : ev X env e with
        | error f =>
          have hex : exec X m (.op (.eval (g.c + 1) e) (.one (.allocBuf g.c (g.c + 1)))) s = .fault f := by
            rw [exec_eval h, hv]
          refine ⟨by simp only [err_bind, Sim]; exact hex, ?_⟩
          intro s1 hs1; rw [hex] at hs1; cases hs1
        | ok v =>
          simp only [ok_bind]
          have hex : exec X m (.op (.eval (g.c + 1) e) (.one (.allocBuf g.c (g.c + 1)))) s =
              match (do let n ← asUsize v; if 2 ^ 63 ≤ n then .error Fault.panic else .ok () : Res Unit) with
              | .ok _ => .next { (s.setReg (g.c + 1) v) with mem := upd s.mem (.buf g.c) (some []) }
              | .error f => .fault f := by
            rw [exec_eval h, hv]
            simp only [Prog.one_def]
            rw [exec_one (by simp) (by simp)]
            simp only [execOp, State.reg, setReg_same, optRes, ok_bind]
            cases asUsize v with
            | error f => rfl
            | ok n =>
              simp only [ok_bind]
              by_cases hb : 2 ^ 63 ≤ n
              · simp only [if_pos hb]
              · simp only [if_neg hb]; rfl
          cases hz : (do let n ← asUsize v; if 2 ^ 63 ≤ n then .error Fault.panic else .ok () : Res Unit) with
          | error f =>
            rw [hz] at hex
            refine ⟨by simp only [err_bind, Sim]; exact hex, ?_⟩
            intro s1 hs1; rw [hex] at hs1; cases hs1
          | ok _ =>
            rw [hz] at hex
            simp only at hex
            refine ⟨⟨_, hex, ?_, ?_, trivial⟩, ?_⟩
            · exact (Frame.setReg _ s v (by omega : g.c ≤ g.c + 1)).trans
                (Frame.allocNew _ (s.setReg (g.c + 1) v) (Nat.le_refl _)) (Nat.le_refl _)
            · have : Above g3.c s (s.setReg (g.c + 1) v) := Above.setReg s v (by rw [← h1]; simp)
              exact this
            · intro s1 hs1; rw [hex] at hs1; cases hs1; simp
    obtain ⟨hopen, hmem⟩ := hopen
    cases hcap : checkCapacity X env name (some e) p with
    | error f =>
      rw [hcap] at hopen
      simp only [err_bind, Sim] at hopen ⊢
      rw [exec_append, hopen]; rfl
    | ok _ =>
      rw [hcap] at hopen
      simp only [ok_bind, Sim] at hopen ⊢
      obtain ⟨s1, o1, o2, o3, _⟩ := hopen
      have hm1 := hmem s1 o1
      have hra : refsAfter p3 m = m := by
        have := refsAfter_genOpen t name (some e) g m; rw [hO] at this; exact this
      have hctx0 := h.step o2 (Nat.le_of_lt hg3)
      have hctx : Ctx m s1 g3.c (.buf g.c) env :=
        ⟨hctx0.env_eq, hctx0.refs_lt, hg3, hg3, by simp [State.sink, hm1], rfl⟩
      have hb := hB s1 hctx hg3 o2 o3
      have hsb : s1.sink (.buf g.c) = .buf g.c := rfl
      rw [hsb] at hb
      cases r with
      | error f =>
        simp only [Sim, err_bind] at hb ⊢
        rw [exec_append, o1]
        simp only [Out.andThen, hra]
        rw [exec_append, hb]; rfl
      | ok q =>
        obtain ⟨a, bs⟩ := q
        obtain ⟨s2, k1, k2, k3, k4⟩ := hb
        simp only [ok_bind]
        have hm2 : s2.mem (.buf g.c) = some bs := by
          rw [k2.mem (.buf g.c) hg3, if_pos rfl, hm1]; rfl
        have hfr12 : Frame g.c (s.sink t) [] s1 s2 :=
          (k2.mono (Nat.le_of_lt hg3)).other (by simp [Target.lt])
        have hfr02 := o2.trans hfr12 (Nat.le_refl _)
        have hctx2 := h.step hfr02 (Nat.le_refl _)
        have hrun : ∀ Q, exec X m (p3 ++ (B ++ Q)) s = exec X (refsAfter B m) Q s2 := by
          intro Q
          rw [exec_append, o1]
          simp only [Out.andThen, hra]
          rw [exec_append, k1]; rfl
        have hsk2 : s2.sink t = s.sink t := sink_eq hfr02.info h.tlt
        simp only [genClose] at hC
        by_cases hn : name ∈ g5.pending
        · rw [if_pos hn] at hC
          simp only [Prod.mk.injEq] at hC
          obtain ⟨h6, rfl⟩ := hC
          have hctx3 := hctx2.set (.int ⟨.u64, bs.length⟩) (by omega : g.c ≤ g5.c) (Nat.le_refl g.c)
          obtain ⟨s3, w1, w2, w3⟩ := write_ok hctx3 bs
          rw [setReg_sink, hsk2] at w2
          refine ⟨s3, ?_, ?_, ?_, s2.regs, k4, ?_, ?_⟩
          · rw [hrun, exec_one (by simp) (by simp)]
            simp only [execOp, hm2, optRes, ok_bind, Prog.one_def]
            rw [exec_one (by simp) (by simp)]
            simp only [execOp]
            have : (s2.setReg g5.c (.int ⟨.u64, bs.length⟩)).mem (.buf g.c) = some bs := hm2
            simp only [this, optRes, ok_bind, w1]; rfl
          · have := (hfr02.trans (Frame.setReg _ s2 (.int ⟨.u64, bs.length⟩) (by omega : g.c ≤ g5.c))
              (Nat.le_refl _)).trans w2 (Nat.le_refl _)
            simpa using this
          · have h6c : g6.c = g5.c + 1 := by rw [← h6]
            intro q hq
            rw [w3, setReg_ne _ _ (by omega), k3 q (by omega), o3 q (by omega)]
          · intro q hq
            rw [w3, setReg_ne _ _ (by omega)]
          · intro _
            rw [w3, setReg_same]
        · rw [if_neg hn] at hC
          simp only [Prod.mk.injEq] at hC
          obtain ⟨rfl, rfl⟩ := hC
          obtain ⟨s3, w1, w2, w3⟩ := write_ok hctx2 bs
          rw [hsk2] at w2
          refine ⟨s3, ?_, ?_, ?_, s2.regs, k4, ?_, ?_⟩
          · rw [hrun, Prog.one_def, exec_one (by simp) (by simp)]
            simp only [execOp, hm2, optRes, ok_bind, w1]; rfl
          · have := hfr02.trans w2 (Nat.le_refl _)
            simpa using this
          · intro q hq
            rw [w3, k3 q hq, o3 q (by omega)]
          · intro q hq; rw [w3]
          · intro hrec; simp [recorded, hn] at hrec

/-! ## Items -/

/-- Flushing, then the rest of the items. -/
theorem sim_flush_rest {X : Ext} {rest : Fields} {cond : Bool} {t : Target} {g : GState} {p : Plan}
    {autos : List Deferred} {m : Refs} {s : State} {c0 : Nat} {env lens : Env} {ds : List Def} {T : Target}
    (h : ICtx m s c0 g.c t env lens g.resolved autos ds) (hp : PlanRel g p) (hT : s.sink t = T)
    (hok : (genItems cond t rest { g with c := (genFlush t g.resolved autos g.c).1 }
      (genFlush t g.resolved autos g.c).2.2).1.ok = true)
    (ih : ∀ (autos : List Deferred) (m : Refs) (s : State) (c : Nat) (env : Env) (ds : List Def),
      ICtx m s c0 c t env lens g.resolved autos ds →
      (genItems cond t rest { g with c := c } autos).1.ok = true →
      LSim X m (genItems cond t rest { g with c := c } autos).2 s c0
        (genItems cond t rest { g with c := c } autos).1.c (s.sink t)
        (encItems X cond rest p env lens ds)
        (fun r s' => (fun n => (refsAfter (genItems cond t rest { g with c := c } autos).2 m n).bind s'.regs) = r.1 ∧
          (fun f => ((genItems cond t rest { g with c := c } autos).1.resolved f).bind s'.regs) = r.2)) :
    LSim X m ((genFlush t g.resolved autos g.c).2.1 ++
        (genItems cond t rest { g with c := (genFlush t g.resolved autos g.c).1 }
          (genFlush t g.resolved autos g.c).2.2).2) s c0
      (genItems cond t rest { g with c := (genFlush t g.resolved autos g.c).1 }
          (genFlush t g.resolved autos g.c).2.2).1.c T
      (do let (env2, ds2, b2) ← encFlush X p lens ds env
          let (r, b3) ← encItems X cond rest p env2 lens ds2
          .ok (r, b2 ++ b3))
      (fun r s' => (fun n => (refsAfter ((genFlush t g.resolved autos g.c).2.1 ++
        (genItems cond t rest { g with c := (genFlush t g.resolved autos g.c).1 }
          (genFlush t g.resolved autos g.c).2.2).2) m n).bind s'.regs) = r.1 ∧
        (fun f => ((genItems cond t rest { g with c := (genFlush t g.resolved autos g.c).1 }
          (genFlush t g.resolved autos g.c).2.2).1.resolved f).bind s'.regs) = r.2) := by
  have hfl := sim_flush (X := X) (p := p) hp.known autos c0 g.c m s env ds h
  have hst := (genItems_static rest cond t { g with c := (genFlush t g.resolved autos g.c).1 }
    (genFlush t g.resolved autos g.c).2.2 p m (hp.setC _) (by
      intro d hd; rw [genFlush_rest] at hd; exact h.autos.autos d (List.mem_filter.mp hd).1) hok).2.1
  simp only at hst
  subst hT
  generalize genFlush t g.resolved autos g.c = F at *
  obtain ⟨c2, p2, autos2⟩ := F
  simp only at hfl hok hst ⊢
  cases hef : encFlush X p lens ds env with
  | error f =>
    rw [hef] at hfl
    simp only [flushRes, err_bind, LSim] at hfl ⊢
    rw [exec_append, hfl]; rfl
  | ok q =>
    obtain ⟨env2, ds2, b2⟩ := q
    rw [hef] at hfl
    simp only [flushRes, ok_bind, LSim] at hfl ⊢
    obtain ⟨s1, k1, k2, k3, k4, k4', k5⟩ := hfl
    have hi := ih autos2 (refsAfter p2 m) s1 c2 env2 ds2 k5 hok
    have hsk : s1.sink t = s.sink t := sink_eq k4' h.base.tlt
    rw [hsk] at hi
    cases hei : encItems X cond rest p env2 lens ds2 with
    | error f =>
      rw [hei] at hi
      simp only [LSim, err_bind] at hi ⊢
      rw [exec_append, k1]; exact hi
    | ok q =>
      obtain ⟨r, b3⟩ := q
      rw [hei] at hi
      obtain ⟨s2, j1, j2, j3, j4⟩ := hi
      simp only [ok_bind]
      refine ⟨s2, ?_, k2.trans j2 (Nat.le_refl _), (k3.mono hst).trans j3, ?_, ?_⟩
      · rw [exec_append, k1]; exact j1
      · rw [refsAfter_append]; exact j4.1
      · exact j4.2

/-- An item that writes to the real target, then flushing, then the rest. `r` is what the item does;
`mk` says how names and lengths go on. -/
theorem sim_item_rest {α} {X : Ext} {rest : Fields} {cond : Bool} {t : Target} {g g1 : GState} {p1 : Plan}
    {autos : List Deferred} {m : Refs} {s : State} {c0 : Nat} {env lens : Env} {ds : List Def}
    {P : Prog} {r : Res (α × Bytes)} {envOf lensOf : α → Env} {post : α → (Nat → Option Val) → Prop}
    (h : ICtx m s c0 g.c t env lens g.resolved autos ds) (hp1 : PlanRel g1 p1) (hc : g.c ≤ g1.c)
    (hs : Sim X m P s g.c g1.c (s.sink (realTarget t autos)) r post)
    (hpost : ∀ a regs, post a regs → (fun n => (refsAfter P m n).bind regs) = envOf a ∧
      (fun f => (g1.resolved f).bind regs) = lensOf a)
    (hm : ∀ n r, refsAfter P m n = some r → r < g1.c) (hr : ∀ f r, g1.resolved f = some r → r < g1.c)
    (hok : (genItems cond t rest { g1 with c := (genFlush t g1.resolved autos g1.c).1 }
      (genFlush t g1.resolved autos g1.c).2.2).1.ok = true)
    (ih : ∀ (lens : Env) (autos : List Deferred) (m : Refs) (s : State) (c : Nat) (env : Env) (ds : List Def),
      ICtx m s c0 c t env lens g1.resolved autos ds →
      (genItems cond t rest { g1 with c := c } autos).1.ok = true →
      LSim X m (genItems cond t rest { g1 with c := c } autos).2 s c0
        (genItems cond t rest { g1 with c := c } autos).1.c (s.sink t)
        (encItems X cond rest p1 env lens ds)
        (fun r s' => (fun n => (refsAfter (genItems cond t rest { g1 with c := c } autos).2 m n).bind s'.regs) = r.1 ∧
          (fun f => ((genItems cond t rest { g1 with c := c } autos).1.resolved f).bind s'.regs) = r.2)) :
    LSim X m (P ++ ((genFlush t g1.resolved autos g1.c).2.1 ++
        (genItems cond t rest { g1 with c := (genFlush t g1.resolved autos g1.c).1 }
          (genFlush t g1.resolved autos g1.c).2.2).2)) s c0
      (genItems cond t rest { g1 with c := (genFlush t g1.resolved autos g1.c).1 }
          (genFlush t g1.resolved autos g1.c).2.2).1.c (s.sink t)
      (do let (a, bs) ← r
          let (ds1, b1) := put ds bs
          let (env2, ds2, b2) ← encFlush X p1 (lensOf a) ds1 (envOf a)
          let (r, b3) ← encItems X cond rest p1 env2 (lensOf a) ds2
          .ok (r, b1 ++ (b2 ++ b3)))
      (fun r s' => (fun n => (refsAfter (P ++ ((genFlush t g1.resolved autos g1.c).2.1 ++
        (genItems cond t rest { g1 with c := (genFlush t g1.resolved autos g1.c).1 }
          (genFlush t g1.resolved autos g1.c).2.2).2)) m n).bind s'.regs) = r.1 ∧
        (fun f => ((genItems cond t rest { g1 with c := (genFlush t g1.resolved autos g1.c).1 }
          (genFlush t g1.resolved autos g1.c).2.2).1.resolved f).bind s'.regs) = r.2) := by
  cases r with
  | error f =>
    simp only [Sim] at hs
    simp only [err_bind, LSim]
    rw [exec_append, hs]; rfl
  | ok q =>
    obtain ⟨a, bs⟩ := q
    obtain ⟨s1, k1, k2, k3, k4⟩ := hs
    obtain ⟨he, hl⟩ := hpost a s1.regs k4
    obtain ⟨w1, w2⟩ := h.wrote k2 hc he hm hl hr (h.fresh.step k3 hc)
    have hsk : s1.sink t = s.sink t := sink_eq k2.info h.base.tlt
    have hfr := sim_flush_rest (X := X) (rest := rest) (cond := cond) w1 hp1 hsk hok (ih (lensOf a))
    have hst : g1.c ≤ (genItems cond t rest { g1 with c := (genFlush t g1.resolved autos g1.c).1 }
          (genFlush t g1.resolved autos g1.c).2.2).1.c := by
      have h1 := (genItems_static rest cond t { g1 with c := (genFlush t g1.resolved autos g1.c).1 }
        (genFlush t g1.resolved autos g1.c).2.2 p1 m (hp1.setC _) (by
          intro d hd; rw [genFlush_rest] at hd; exact h.autos.autos d (List.mem_filter.mp hd).1) hok).2.1
      exact Nat.le_trans (genFlush_le t g1.resolved autos g1.c) h1
    simp only [ok_bind]
    generalize hr' : (do let (env2, ds2, b2) ← encFlush X p1 (lensOf a) (put ds bs).1 (envOf a)
                         let (r, b3) ← encItems X cond rest p1 env2 (lensOf a) ds2
                         .ok (r, b2 ++ b3)) = r' at hfr
    have heq : (do
          let (env2, ds2, b2) ← encFlush X p1 (lensOf a) (put ds bs).1 (envOf a)
          let (r, b3) ← encItems X cond rest p1 env2 (lensOf a) ds2
          .ok (r, (put ds bs).2 ++ (b2 ++ b3))) = (do let (r, b) ← r'; .ok (r, (put ds bs).2 ++ b)) := by
      rw [← hr']
      cases encFlush X p1 (lensOf a) (put ds bs).1 (envOf a) with
      | error f => rfl
      | ok q =>
        obtain ⟨env2, ds2, b2⟩ := q
        simp only [ok_bind]
        cases encItems X cond rest p1 env2 (lensOf a) ds2 with
        | error f => rfl
        | ok q => rfl
    rw [heq]
    cases r' with
    | error f =>
      simp only [LSim, err_bind] at hfr ⊢
      rw [exec_append, k1]; exact hfr
    | ok q =>
      obtain ⟨rr, b⟩ := q
      obtain ⟨s2, j1, j2, j3, j4⟩ := hfr
      simp only [ok_bind]
      refine ⟨s2, ?_, w2.trans j2 (Nat.le_refl _), (k3.mono hst).trans j3, ?_⟩
      · rw [exec_append, k1]; exact j1
      · rw [refsAfter_append]; exact j4

/-- The statement about a container's items. -/
def ItemsSim (X : Ext) (fs : Fields) : Prop :=
  ∀ (cond : Bool) (t : Target) (g : GState) (p : Plan) (c0 : Nat) (lens : Env) (autos : List Deferred)
    (m : Refs) (s : State) (env : Env) (ds : List Def),
    PlanRel g p → ICtx m s c0 g.c t env lens g.resolved autos ds →
    (genItems cond t fs g autos).1.ok = true →
    LSim X m (genItems cond t fs g autos).2 s c0 (genItems cond t fs g autos).1.c (s.sink t)
      (encItems X cond fs p env lens ds)
      (fun r s' => (fun n => (refsAfter (genItems cond t fs g autos).2 m n).bind s'.regs) = r.1 ∧
        (fun f => ((genItems cond t fs g autos).1.resolved f).bind s'.regs) = r.2)

/-- A container's contents with their buffer: `p4` prepares the names, giving `E`. -/
theorem sim_body {X : Ext} {fs : Fields} (hitems : ItemsSim X fs) {cond : Bool} {t : Target}
    {name : String} {len : Option Expr} {g g3 g5 g6 : GState} {p : Plan} {m : Refs} {s : State} {env lens : Env}
    {E : Res Env} {p3 p4 p5 p6 : Prog} {c4 : Nat} {bt : Target}
    (h : Ctx m s g.c t env) (hfresh : Fresh g.c s) (hlens : (fun f => (g.resolved f).bind s.regs) = lens)
    (hres : ∀ f r, g.resolved f = some r → r < g.c) (hp : PlanRel g p)
    (hO : genOpen t name len g = (g3, p3, bt)) (h34 : g3.c ≤ c4)
    (hmid : ∀ s1, Ctx m s1 g3.c bt env → Frame g.c (s.sink t) [] s s1 → Above g3.c s s1 →
      Sim X m p4 s1 g3.c c4 (s1.sink bt) (do let e ← E; .ok (e, []))
        (fun e regs => (fun n => (refsAfter p4 m n).bind regs) = e))
    (hm4 : ∀ n r, refsAfter p4 m n = some r → r < c4)
    (hI : genItems cond bt fs { g3 with c := c4 } [] = (g5, p5)) (hok : g5.ok = true)
    (hC : genClose t name len bt g5 = (g6, p6)) :
    Sim X m (p3 ++ (p4 ++ (p5 ++ p6))) s g.c g6.c (s.sink t)
      (do checkCapacity X env name len p
          let env1 ← E
          let ((env2, lens2), bs) ← encItems X cond fs p env1 lens []
          let p2 := planItems fs p
          let lens3 := if len.isSome && decide (name ∈ p2.pending)
            then upd lens2 name (some (.int ⟨.u64, bs.length⟩)) else lens2
          .ok ((env2, lens3), bs))
      (fun x regs => (fun n => (refsAfter p5 (refsAfter p4 m) n).bind regs) = x.1 ∧
        (fun f => (g6.resolved f).bind regs) = x.2) := by
  obtain ⟨c3, hc3, hg3⟩ := genOpen_spec t name len g
  rw [hO] at hg3
  simp only at hg3
  have hg3c : g3.c = c3 := by rw [hg3]
  have hg3r : g3.resolved = g.resolved := by rw [hg3]
  have hp3 : PlanRel { g3 with c := c4 } p := hp.mk' _ (by simp [hg3]) (by simp [hg3])
  have hst := genItems_static fs cond bt { g3 with c := c4 } [] p (refsAfter p4 m) hp3 (by simp)
    (by rw [hI]; exact hok)
  rw [hI] at hst
  simp only at hst
  obtain ⟨_, t1, t2, t3, new, t4, t5⟩ := hst
  have hB : ∀ s1, Ctx m s1 g3.c bt env → (s1.sink bt).lt g3.c → Frame g.c (s.sink t) [] s s1 → Above g3.c s s1 →
      Sim X m (p4 ++ p5) s1 g3.c g5.c (s1.sink bt)
        (do let env1 ← E; encItems X cond fs p env1 lens [])
        (fun x regs => (fun n => (refsAfter p5 (refsAfter p4 m) n).bind regs) = x.1 ∧
          (fun f => (g5.resolved f).bind regs) = x.2) := by
    intro s1 hctx hslt hf ha
    have hmid' := hmid s1 hctx hf ha
    cases hE : E with
    | error f =>
      rw [hE] at hmid'
      simp only [err_bind, Sim] at hmid' ⊢
      rw [exec_append, hmid']; rfl
    | ok env1 =>
      rw [hE] at hmid'
      simp only [ok_bind] at hmid' ⊢
      obtain ⟨s2, k1, k2, k3, k4⟩ := hmid'
      have hctx2 := hctx.step k2 h34
      have hsk2 : s2.sink bt = s1.sink bt := sink_eq k2.info hctx.tlt
      have hregs2 : ∀ q, q < g.c → s2.regs q = s.regs q := fun q hq => by
        rw [k2.regs q (by omega), hf.regs q hq]
      have hic : ICtx (refsAfter p4 m) s2 c4 c4 bt env1 lens g3.resolved [] [] := by
        refine ⟨⟨k4, hm4, hctx2.tlt, hctx2.slt, hctx2.live, hctx2.root⟩, Nat.le_refl _, hctx2.tlt, hctx2.slt, ?_, ?_,
          trivial, ?_⟩
        · rw [hg3r, ← hlens]; exact env_frame hres hregs2
        · intro f r hr; rw [hg3r] at hr; have := hres f r hr; omega
        · have h1 : Fresh g3.c s1 := hfresh.step ha (by omega)
          exact h1.step k3 h34
      have hi := hitems cond bt { g3 with c := c4 } p c4 lens [] (refsAfter p4 m) s2 env1 [] hp3 hic
        (by rw [hI]; exact hok)
      rw [hI, hsk2] at hi
      simp only at hi
      cases hei : encItems X cond fs p env1 lens [] with
      | error f =>
        rw [hei] at hi
        simp only [LSim] at hi
        simp only [Sim]
        rw [exec_append, k1]; exact hi
      | ok q =>
        obtain ⟨x, bs⟩ := q
        rw [hei] at hi
        obtain ⟨s3, j1, j2, j3, j4⟩ := hi
        refine ⟨s3, ?_, ?_, ?_, j4⟩
        · rw [exec_append, k1]; exact j1
        · have := k2.trans j2 h34
          simpa using this
        · exact (k3.mono t1).trans j3
  have hb := sim_buffered (X := X) (B := p4 ++ p5) (p := p) h hp.pending hO (by omega) hC hB
  have hassoc : p3 ++ (p4 ++ (p5 ++ p6)) = p3 ++ ((p4 ++ p5) ++ p6) := by simp only [Prog.append_assoc]
  rw [hassoc]
  have hbt : len.isSome = true → ∃ b, bt = .buf b := by
    intro hl
    have := genOpen_target t name len g
    rw [hO] at this
    simp only [if_pos hl] at this
    exact ⟨_, this⟩
  obtain ⟨u1, u2, u3, new2, u4, u5, u6⟩ := genClose_spec t3 t name len bt hbt
  rw [hC] at u1 u2 u3 u6
  simp only at u1 u2 u3 u6
  have hres5 : ∀ f r, g5.resolved f = some r → r < g5.c := by
    refine t5.lt ?_ t1
    intro f r hr; rw [hg3r] at hr; have := hres f r hr; omega
  have hm5 : ∀ n r, refsAfter p5 (refsAfter p4 m) n = some r → r < g5.c := t2.lt hm4 t1
  cases hcap : checkCapacity X env name len p with
  | error f => rw [hcap] at hb; exact hb
  | ok _ =>
    rw [hcap] at hb
    simp only [ok_bind] at hb ⊢
    cases hE : E with
    | error f => rw [hE] at hb; exact hb
    | ok env1 =>
      rw [hE] at hb
      simp only [ok_bind] at hb ⊢
      cases hei : encItems X cond fs p env1 lens [] with
      | error f => rw [hei] at hb; exact hb
      | ok q =>
        obtain ⟨⟨env2, lens2⟩, bs⟩ := q
        rw [hei] at hb
        simp only [ok_bind] at hb ⊢
        obtain ⟨s', k1, k2, k3, regs0, k4, k5, k6⟩ := hb
        simp only at k4 k6
        refine ⟨s', k1, k2, k3, ?_, ?_⟩
        · rw [← k4.1]
          funext n
          cases hn : refsAfter p5 (refsAfter p4 m) n with
          | none => simp only [hn]; rfl
          | some r => simp only [hn]; exact k5 r (hm5 n r hn)
        · simp only
          rw [← t3.pending]
          have hl5 : ∀ f, (g5.resolved f).bind s'.regs = lens2 f := by
            intro f
            rw [← k4.2]
            cases hn : g5.resolved f with
            | none => simp [hn]
            | some r => simp only [hn, Option.bind_some]; exact k5 r (hres5 f r hn)
          have hg6 : g6.resolved = if recorded name len g5.pending then upd g5.resolved name (some g5.c)
              else g5.resolved := by
            cases len with
            | none =>
              have : g6 = g5 := by cases bt <;> simp only [genClose, Prod.mk.injEq] at hC <;> exact hC.1.symm
              rw [this]; simp [recorded]
            | some e =>
              obtain ⟨b, rfl⟩ := hbt rfl
              simp only [genClose] at hC
              by_cases hn : name ∈ g5.pending
              · rw [if_pos hn] at hC
                simp only [Prod.mk.injEq] at hC
                rw [← hC.1]; simp [recorded, hn]
              · rw [if_neg hn] at hC
                simp only [Prod.mk.injEq] at hC
                rw [← hC.1]; simp [recorded, hn]
          cases hrec : recorded name len g5.pending with
          | false =>
            rw [hrec] at hg6
            simp only [recorded] at hrec
            rw [hrec]
            simp only [Bool.false_eq_true, if_false] at hg6 ⊢
            rw [hg6]; funext f; exact hl5 f
          | true =>
            have k6' := k6 hrec
            rw [hrec] at hg6
            simp only [recorded] at hrec
            rw [hrec]
            simp only [if_true] at hg6 ⊢
            rw [hg6]; funext f
            by_cases hf : f = name
            · subst hf; simp only [upd_same, Option.bind_some]; exact k6'
            · rw [upd_ne _ _ hf, upd_ne _ _ hf]; exact hl5 f

theorem planItems_log (fs : Fields) (p : Plan) : ∃ new, (planItems fs p).log = p.log ++ new := by
  induction fs generalizing p with
  | nil => exact ⟨[], by simp [planItems]⟩
  | pad _ _ _ ih => exact ih p
  | leaf a ty rest ih =>
    simp only [planItems]
    split
    · exact ih p
    · exact ih (p.await a)
  | cont a len items rest ihi ihr =>
    simp only [planItems]
    obtain ⟨n1, h1⟩ := ihi p
    obtain ⟨n3, h3⟩ := ihr ((planItems items p).close a.name len)
    have h2 : ∃ n2, ((planItems items p).close a.name len).log = (planItems items p).log ++ n2 := by
      simp only [Plan.close]; split
      · exact ⟨_, rfl⟩
      · exact ⟨[], by simp⟩
    obtain ⟨n2, h2⟩ := h2
    exact ⟨n1 ++ n2 ++ n3, by rw [h3, h2, h1]; simp⟩

theorem sim_items (X : Ext) (fs : Fields) : ItemsSim X fs := by
  induction fs with
  | nil =>
    intro cond t g p c0 lens autos m s env ds hp h hok
    exact ⟨s, rfl, Frame.refl _ _ _, Above.refl _ _, h.base.env_eq, h.lens_eq⟩
  | pad nm e rest ih =>
    intro cond t g p c0 lens autos m s env ds hp h hok
    have hs : Sim X m (.op (.eval g.c e) (.one (.pad (realTarget t autos) g.c))) s g.c (g.c + 1)
        (s.sink (realTarget t autos)) (bare (do let v ← ev X env e; padBytes v))
        (fun _ regs => ∀ q, q < g.c → regs q = s.regs q) := by
      cases hv : ev X env e with
      | error f => simp only [err_bind, bare_error, Sim]; rw [exec_eval h.base, hv]
      | ok v =>
        simp only [ok_bind]
        have hctx := h.real.set v (Nat.le_refl g.c) (by omega : g.c ≤ g.c + 1)
        have hw := sim_write (X := X) (i := .pad (realTarget t autos) g.c) (r := padBytes v) hctx (by
          simp only [execOp, State.reg, setReg_same, optRes, ok_bind]) (by simp) (by simp)
        rw [setReg_sink] at hw
        have h0 : exec X m (.op (.eval g.c e) (.one (.pad (realTarget t autos) g.c))) s =
            exec X m (.one (.pad (realTarget t autos) g.c)) (s.setReg g.c v) := by
          rw [exec_eval h.base, hv]
        cases hb : padBytes v with
        | error f => rw [hb] at hw; simp only [bare_error, Sim] at hw ⊢; rw [h0, hw]
        | ok bs =>
          rw [hb] at hw
          obtain ⟨s', k1, k2, k3, _⟩ := hw
          refine ⟨s', by rw [h0, k1], ?_, (Above.setReg s v (by omega)).trans k3, ?_⟩
          · exact (Frame.setReg _ s v (Nat.le_refl _)).trans k2 (by omega)
          · intro q hq; rw [k2.regs q (by omega)]; exact setReg_ne _ _ (by omega)
    have hr := sim_item_rest (X := X) (rest := rest) (cond := cond) (g1 := { g with c := g.c + 1 }) (p1 := p)
      (envOf := fun _ => env) (lensOf := fun _ => lens) h (hp.setC _) (by simp) hs
      (by
        intro _ regs hq
        refine ⟨?_, ?_⟩
        · rw [← h.base.env_eq]
          funext n
          simp only [refsAfter, Prog.one_def]
          cases hn : m n with
          | none => rfl
          | some r => exact hq r (h.base.refs_lt n r hn)
        · rw [← h.lens_eq]
          funext f
          cases hn : g.resolved f with
          | none => rfl
          | some r => exact hq r (h.res_lt f r hn))
      (by intro n r hn; simp only [refsAfter, Prog.one_def] at hn; have := h.base.refs_lt n r hn; simp only; omega)
      (by intro f r hf; have := h.res_lt f r hf; simp only; omega)
      hok
      (fun lens autos m s c env ds hic hok => ih cond t _ p c0 lens autos m s env ds (hp.setC _) hic hok)
    simp only [genItems, encItems, Prog.append_assoc]
    have heq : ∀ (k : Bytes → Res ((Env × Env) × Bytes)),
        (do let (_, bs) ← bare (do let v ← ev X env e; padBytes v); k bs) =
        (do let v ← ev X env e; let bs ← padBytes v; k bs) := by
      intro k
      cases ev X env e with
      | error f => rfl
      | ok v => simp only [ok_bind]; cases padBytes v <;> rfl
    rw [← heq]
    exact hr
  | leaf a ty rest ih =>
    intro cond t g p c0 lens autos m s env ds hp h hok
    simp only [genItems, encItems] at hok ⊢
    rw [hp.known] at *
    by_cases hk : ((FAttr.blens a).isEmpty || p.known (FAttr.blens a)) = true
    · simp only [if_pos hk] at hok ⊢
      generalize hr : (if (FAttr.blens a).isEmpty then g.c else g.c + 1) = r at *
      have hfle := genField_le (realTarget t autos) r a ty (r + 1)
      have hfra := fun m => refsAfter_genField (realTarget t autos) r a ty (r + 1) m
      generalize hFi : genField (realTarget t autos) r a ty (r + 1) = Fi at *
      obtain ⟨c1, p1⟩ := Fi
      simp only at hok hfle hfra ⊢
      have hgr : g.c ≤ r := by rw [← hr]; split <;> omega
      -- the item itself, from a state in which its name is bound
      have item : ∀ (m1 : Refs) (s1 : State) (env1 : Env), Ctx m1 s1 r (realTarget t autos) env1 →
          (s1.sink (realTarget t autos) = s.sink (realTarget t autos)) →
          Sim X m1 (.op (.getRef r a.name) p1) s1 r c1 (s.sink (realTarget t autos))
            (do let v ← optRes (env1 a.name); let bs ← encField X env1 a ty v; .ok (env1, bs))
            (fun e regs => e = env1 ∧ ∀ q, q < r → regs q = s1.regs q) := by
        intro m1 s1 env1 hctx hsk
        have h0 : exec X m1 (.op (.getRef r a.name) p1) s1 =
            match optRes (env1 a.name) with
            | .ok v => exec X m1 p1 (s1.setReg r v)
            | .error f => .fault f := by
          rw [exec_one (by simp) (by simp)]
          simp only [execOp, ← hctx.env_eq]
          cases optRes ((m1 a.name).bind s1.regs) <;> rfl
        cases hv : optRes (env1 a.name) with
        | error f => simp only [err_bind, Sim]; rw [h0, hv]
        | ok v =>
          rw [hv] at h0
          simp only [ok_bind] at h0 ⊢
          have hf := sim_field (X := X) a ty (s1.setReg r v) r (r + 1) v
            (hctx.set v (Nat.le_refl r) (by omega)) (by omega) (by simp)
          rw [hFi, setReg_sink, hsk] at hf
          simp only at hf
          cases hb : encField X env1 a ty v with
          | error f => rw [hb] at hf; simp only [bare_error, Sim, err_bind] at hf ⊢; rw [h0, hf]
          | ok bs =>
            rw [hb] at hf
            obtain ⟨s2, k1, k2, k3, _⟩ := hf
            simp only [ok_bind]
            refine ⟨s2, by rw [h0, k1], ?_, ?_, rfl, ?_⟩
            · exact (Frame.setReg _ s1 v (Nat.le_refl _)).trans k2 (by omega)
            · exact (Above.setReg s1 v (by omega)).trans k3
            · intro q hq; rw [k2.regs q (by omega)]; exact setReg_ne _ _ (by omega)
      generalize hpb : (if (FAttr.blens a).isEmpty = true then Prog.nil else genBlen g.resolved a g.c) = pb at *
      generalize hE : withBlen X env lens a = E
      simp only [withBlen] at hE
      have hs : Sim X m (pb ++ .op (.getRef r a.name) p1) s g.c c1 (s.sink (realTarget t autos))
          (do let env1 ← E; let v ← optRes (env1 a.name); let bs ← encField X env1 a ty v; .ok (env1, bs))
          (fun e regs => (fun n => (refsAfter (pb ++ .op (.getRef r a.name) p1) m n).bind regs) = e ∧
            ∀ q, q < g.c → regs q = s.regs q) := by
        cases hbe : (FAttr.blens a).isEmpty with
        | true =>
          rw [hbe] at hpb hE hr
          simp only [if_true] at hpb hE hr
          subst hr; subst hpb; subst hE
          simp only [ok_bind, Prog.nil_append]
          refine (item m s env h.real rfl).weaken ?_
          rintro e regs ⟨rfl, hq⟩
          refine ⟨?_, hq⟩
          rw [← h.base.env_eq]
          funext n
          simp only [refsAfter, hfra]
          cases hn : m n with
          | none => rfl
          | some q => exact hq q (h.base.refs_lt n q hn)
        | false =>
          rw [hbe] at hpb hE hr
          simp only [Bool.false_eq_true, if_false] at hpb hE hr
          subst hr; subst hpb; subst hE
          obtain ⟨ex, hex⟩ := blens_auto hbe
          have hgb := exec_genBlen (X := X) h.base h.lens_eq a hex (.op (.getRef (g.c + 1) a.name) p1)
          cases hv : evBlen X env lens a with
          | error f => rw [hv] at hgb; simp only [err_bind, Sim]; rw [hgb]
          | ok v =>
            rw [hv] at hgb
            simp only [ok_bind]
            have hctx := h.real.bind a.name v
            refine Sim.pre hgb (Frame.setReg _ s v (Nat.le_refl _)) (Above.setReg s v (by omega)) (by omega) ?_
            refine (item _ _ _ hctx (by simp)).weaken ?_
            rintro e regs ⟨rfl, hq⟩
            refine ⟨?_, ?_⟩
            · rw [← hctx.env_eq]
              funext n
              simp only [refsAfter_append, refsAfter_genBlen hex, refsAfter, hfra]
              cases hn : upd m a.name (some g.c) n with
              | none => rfl
              | some q => exact hq q (hctx.refs_lt n q hn)
            · intro q hq'
              rw [hq q (by omega)]; exact setReg_ne _ _ (by omega)
      have hstatic : ∀ n r', refsAfter (pb ++ .op (.getRef r a.name) p1) m n = some r' → r' < c1 := by
        intro n r' hn
        rw [refsAfter_append] at hn
        simp only [refsAfter, hfra] at hn
        rw [← hpb] at hn
        cases hbe : (FAttr.blens a).isEmpty with
        | true =>
          rw [hbe] at hn
          simp only [if_true, refsAfter] at hn
          have := h.base.refs_lt n r' hn; omega
        | false =>
          rw [hbe] at hn
          obtain ⟨ex, hex⟩ := blens_auto hbe
          simp only [Bool.false_eq_true, if_false, refsAfter_genBlen hex] at hn
          by_cases hn' : n = a.name
          · subst hn'; simp at hn; omega
          · rw [upd_ne _ _ hn'] at hn; have := h.base.refs_lt n r' hn; omega
      have hr := sim_item_rest (X := X) (rest := rest) (cond := cond) (g1 := { g with c := c1 }) (p1 := p)
        (envOf := fun e => e) (lensOf := fun _ => lens) h (hp.setC _) (by simp only; omega) hs
        (by
          rintro e regs ⟨he, hq⟩
          refine ⟨he, ?_⟩
          rw [← h.lens_eq]
          funext f
          cases hn : g.resolved f with
          | none => rfl
          | some q => exact hq q (h.res_lt f q hn))
        hstatic
        (by intro f q hf; have := h.res_lt f q hf; simp only; omega)
        hok
        (fun lens autos m s c env ds hic hok => ih cond t _ p c0 lens autos m s env ds (hp.setC _) hic hok)
      simp only [Prog.append_assoc, Prog.op_append] at hr ⊢
      have heq : ∀ (k : Env → Bytes → Res ((Env × Env) × Bytes)),
          (do let (e, bs) ← (do let env1 ← E; let v ← optRes (env1 a.name)
                                let bs ← encField X env1 a ty v; .ok (env1, bs)); k e bs) =
          (do let env1 ← E; let v ← optRes (env1 a.name); let bs ← encField X env1 a ty v; k env1 bs) := by
        intro k
        cases E with
        | error f => rfl
        | ok env1 =>
          simp only [ok_bind]
          cases optRes (env1 a.name) with
          | error f => rfl
          | ok v => simp only [ok_bind]; cases encField X env1 a ty v <;> rfl
      rw [← heq]
      exact hr
    · simp only [if_neg hk] at hok ⊢
      have hne : (FAttr.blens a).isEmpty = false := by
        cases hb : (FAttr.blens a).isEmpty
        · rfl
        · simp [hb] at hk
      obtain ⟨ex, hex⟩ := blens_auto hne
      have hpa := hp.await a (g.c + 1)
      have hfr := Frame.allocNew (s.sink t) s (Nat.le_refl g.c)
      have hstep := h.base.step hfr (by omega : g.c ≤ g.c + 1)
      have hic : ICtx m { s with mem := upd s.mem (.buf g.c) (some []) } c0 (g.c + 1) t env lens g.resolved
          (autos ++ [⟨g.c, a, ty⟩]) (ds ++ [⟨a, ty, []⟩]) := by
        refine ⟨hstep, by have := h.le; omega, h.t0, ?_, h.lens_eq, ?_, ?_, ?_⟩
        · rw [sink_eq hfr.info h.base.tlt]; exact h.s0
        · intro f r hr; have := h.res_lt f r hr; omega
        · exact h.autos.snoc h.le a ty (by simp [hex])
        · intro r hr; exact h.fresh r (by omega)
      have hi := ih cond t _ (p.await a) c0 lens (autos ++ [⟨g.c, a, ty⟩]) m _ env (ds ++ [⟨a, ty, []⟩]) hpa hic hok
      have hsk : State.sink { s with mem := upd s.mem (.buf g.c) (some []) } t = s.sink t :=
        sink_eq hfr.info h.base.tlt
      rw [hsk] at hi
      have hex0 : ∀ Q, exec X m (.op (.allocDyn g.c) Q) s =
          exec X m Q { s with mem := upd s.mem (.buf g.c) (some []) } := fun Q => rfl
      cases hei : encItems X cond rest (p.await a) env lens (ds ++ [⟨a, ty, []⟩]) with
      | error f =>
        rw [hei] at hi
        simp only [LSim] at hi ⊢
        rw [hex0]; exact hi
      | ok q =>
        obtain ⟨x, bs⟩ := q
        rw [hei] at hi
        obtain ⟨s2, k1, k2, k3, k4⟩ := hi
        refine ⟨s2, by rw [hex0]; exact k1, ?_, k3, k4⟩
        exact (hfr.mono h.le).trans k2 (Nat.le_refl _)
  | cont a len items rest ihi ihr =>
    intro cond t g p c0 lens autos m s env ds hp h hok
    simp only [genItems, encItems] at hok ⊢
    generalize hC : genCond a.cond g.c = C at *
    obtain ⟨c1, p1, cr⟩ := C
    simp only at hok ⊢
    have hc1 : g.c ≤ c1 := by
      have : g.c ≤ (genCond a.cond g.c).1 := by cases a.cond <;> simp [genCond]
      rw [hC] at this; exact this
    have hcr : cr.isSome = a.cond.isSome := by
      have : (genCond a.cond g.c).2.2.isSome = a.cond.isSome := by cases a.cond <;> rfl
      rw [hC] at this; exact this
    have hp1 : ∀ m, refsAfter p1 m = m := by
      intro m; have := refsAfter_genCond a.cond g.c m; rw [hC] at this; exact this
    have hxle := genXforms_le (realTarget t autos) c1 a.xfs
    have hpo := fun m => refsAfter_genXforms (realTarget t autos) c1 a.xfs m
    have hxf := fun (B : Prog) (c3 : Nat) (r : Res ((Env × Env) × Bytes)) post =>
      @sim_xforms (Env × Env) X m env B c3 r post a.xfs
    generalize hX : genXforms (realTarget t autos) c1 a.xfs = Y at *
    obtain ⟨c2, po, t', pc⟩ := Y
    simp only at hok hxle hpo ⊢
    obtain ⟨c3, hc3, hO⟩ := genOpen_spec t' a.name len { g with c := c2 }
    have hO2 := fun m => refsAfter_genOpen t' a.name len { g with c := c2 } m
    have hO3 := genOpen_target t' a.name len { g with c := c2 }
    generalize hOo : genOpen t' a.name len { g with c := c2 } = O at *
    obtain ⟨g3, p3, bt⟩ := O
    simp only at hO hO2 hO3 hok ⊢
    subst hO
    simp only at hc3 hok ⊢
    rw [hcr] at *
    generalize hcd : (a.cond.isSome || cond) = cond' at *
    generalize hN : (if cond' = true then genNullchecks items c3 else (c3, Prog.nil)) = N at *
    obtain ⟨c4, p4⟩ := N
    simp only at hok ⊢
    have hN1 : ∀ m, c3 ≤ c4 ∧ RefsStep c3 c4 (if cond' then nullNames items else []) m (refsAfter p4 m) := by
      intro m
      cases cond' with
      | true =>
        simp only [if_true] at hN ⊢
        have h1 := genNullchecks_le items c3
        have h2 := refs_genNullchecks items c3 m
        rw [hN] at h1 h2
        exact ⟨h1, h2⟩
      | false =>
        simp only [Bool.false_eq_true, if_false, Prod.mk.injEq] at hN ⊢
        obtain ⟨rfl, rfl⟩ := hN
        exact ⟨Nat.le_refl _, RefsStep.refl _ _⟩
    generalize hI : genItems cond' bt items { g with c := c4 } [] = I at *
    obtain ⟨g5, p5⟩ := I
    simp only at hok ⊢
    generalize hCl : genClose t' a.name len bt g5 = Cl at *
    obtain ⟨g6, p6⟩ := Cl
    simp only at hok ⊢
    have hok6 : g6.ok = true := by
      have := genItems_ok rest cond t _ _ hok; exact this
    have hok5 : g5.ok = true := by
      have h1 := genClose_ok t' a.name len bt g5
      rw [hCl] at h1; rw [← h1]; exact hok6
    obtain ⟨j1, j2, j3, j4, new1, j5, j6⟩ := genItems_static items cond' bt { g with c := c4 } [] p
      (refsAfter p4 m) (hp.setC c4) (by simp) (by rw [hI]; exact hok5)
    rw [hI] at j2 j3 j4 j6
    simp only at j1 j2 j3 j6
    have hbt : len.isSome = true → ∃ b, bt = .buf b := by
      intro h; rw [hO3, if_pos h]; exact ⟨c2, rfl⟩
    obtain ⟨k1, k2, k3, new2, k4, _, k5⟩ := genClose_spec j4 t' a.name len bt hbt
    rw [hCl] at k1 k2 k3 k5
    simp only at k1 k2 k3 k5
    have hp6 : ∀ m, refsAfter p6 m = m := by
      intro m; have := refsAfter_genClose t' a.name len bt g5 m; rw [hCl] at this; exact this
    have hm4 : ∀ n r, refsAfter p4 m n = some r → r < c4 :=
      ((hN1 m).2.mono (by omega : g.c ≤ c3) (Nat.le_refl _)).lt h.base.refs_lt (by have := (hN1 m).1; omega)
    have h34 := (hN1 m).1
    -- the contents with transforms
    generalize hbody : (encXforms X env a.xfs do
        checkCapacity X env a.name len p
        let env1 ← enter cond' items env
        let ((env2, lens2), bs) ← encItems X cond' items p env1 lens []
        let p2 := planItems items p
        let lens3 := if len.isSome && decide (a.name ∈ p2.pending)
          then upd lens2 a.name (some (.int ⟨.u64, bs.length⟩)) else lens2
        .ok ((env2, lens3), bs)) = body at *
    have hbsim : ∀ s1, Ctx m s1 c1 (realTarget t autos) env → Frame g.c (s.sink (realTarget t autos)) [] s s1 →
        Above c1 s s1 →
        Sim X m (po ++ ((p3 ++ (p4 ++ (p5 ++ p6))) ++ pc)) s1 c1 g6.c (s1.sink (realTarget t autos)) body
          (fun x regs => (fun n => (refsAfter p5 (refsAfter p4 m) n).bind regs) = x.1 ∧
            (fun f => (g6.resolved f).bind regs) = x.2) := by
      intro s1 hctx1 hf1 ha1
      rw [← hbody]
      have := hxf (p3 ++ (p4 ++ (p5 ++ p6))) g6.c (do
        checkCapacity X env a.name len p
        let env1 ← enter cond' items env
        let ((env2, lens2), bs) ← encItems X cond' items p env1 lens []
        let p2 := planItems items p
        let lens3 := if len.isSome && decide (a.name ∈ p2.pending)
          then upd lens2 a.name (some (.int ⟨.u64, bs.length⟩)) else lens2
        .ok ((env2, lens3), bs)) (fun x regs => (fun n => (refsAfter p5 (refsAfter p4 m) n).bind regs) = x.1 ∧
            (fun f => (g6.resolved f).bind regs) = x.2) s1 c1 (realTarget t autos) hctx1
      rw [hX] at this
      simp only at this
      refine this (by omega) ?_
      intro s2 hctx2 hf2 ha2
      have hfr : ∀ q, q < g.c → s2.regs q = s.regs q := by
        intro q hq; rw [hf2.regs q (by omega), hf1.regs q hq]
      have hfresh2 : Fresh c2 s2 := (h.fresh.step ha1 hc1).step ha2 hxle
      refine sim_body (g := { g with c := c2 }) (g3 := { g with c := c3 }) (p4 := p4) (c4 := c4) ihi hctx2 hfresh2 ?_ ?_ (hp.setC c2) hOo h34 ?_ hm4 hI hok5 hCl
      · rw [← h.lens_eq]; exact env_frame h.res_lt hfr
      · intro f r hr; have := h.res_lt f r hr; simp only; omega
      · intro s3 hctx3 hf3 ha3
        cases cond' with
        | true =>
          simp only [if_true] at hN
          simp only [enter, if_true]
          have := sim_nullchecks (X := X) (T := s3.sink bt) items m s3 c3 env hctx3
          rw [hN] at this
          exact this
        | false =>
          simp only [Bool.false_eq_true, if_false, Prod.mk.injEq] at hN
          obtain ⟨rfl, rfl⟩ := hN
          simp only [enter, Bool.false_eq_true, if_false]
          exact Sim.nil hctx3.env_eq
    have hrefs : ∀ m, refsAfter (p1 ++ wrapCond cr (po ++ ((p3 ++ (p4 ++ (p5 ++ p6))) ++ pc))) m =
        refsAfter p5 (refsAfter p4 m) := by
      intro m
      simp only [refsAfter_append, refsAfter_wrapCond, hp1, (hpo _).1, (hpo _).2, hO2, hp6]
    have hsets := (hN1 m).2.trans j3 h34 j2
    generalize hp' : (planItems items p).close a.name len = p' at *
    have hdrop : p'.log.drop p.log.length = new1 ++ new2 := by
      rw [k4, j5, List.append_assoc, List.drop_left]
    -- the item
    generalize hr : guarded X env a.cond (erase (nullNames items ++ setNames true items) env,
      erase (p'.log.drop p.log.length) lens) body = r
    simp only [guarded] at hr
    have hs : Sim X m (p1 ++ wrapCond cr (po ++ ((p3 ++ (p4 ++ (p5 ++ p6))) ++ pc))) s g.c g6.c
        (s.sink (realTarget t autos)) r
        (fun x regs => (fun n => (refsAfter (p1 ++ wrapCond cr (po ++ ((p3 ++ (p4 ++ (p5 ++ p6))) ++ pc))) m n).bind regs) = x.1 ∧
          (fun f => (g6.resolved f).bind regs) = x.2) := by
      rw [hrefs]
      subst hr
      cases hac : a.cond with
      | none =>
        rw [hac] at hC
        simp only [genCond, Prod.mk.injEq] at hC
        obtain ⟨rfl, rfl, rfl⟩ := hC
        exact hbsim s h.real (Frame.refl _ _ _) (Above.refl _ _)
      | some e =>
        rw [hac] at hC hcd
        simp only [genCond, Prod.mk.injEq] at hC
        obtain ⟨rfl, rfl, rfl⟩ := hC
        simp only [Option.isSome_some, Bool.true_or] at hcd
        subst hcd
        simp only [if_true] at hsets
        have := sim_cond (X := X) (e := e) (Q := po ++ ((p3 ++ (p4 ++ (p5 ++ p6))) ++ pc))
          (T := s.sink (realTarget t autos)) (r := body)
          (erase (nullNames items ++ setNames true items) env, erase (p'.log.drop p.log.length) lens)
          h.real (by omega : g.c + 1 ≤ g6.c) (by
            intro s1 hctx1 hf1 ha1
            have := hbsim s1 hctx1 hf1 ha1
            rw [sink_eq hf1.info h.real.tlt] at this
            exact this)
        refine Sim.weaken this ?_
        rintro x regs ⟨rfl, hq⟩
        have hfr : ∀ q, c3 ≤ q → regs q = none := fun q hq' => by
          rw [hq q (by omega)]; exact h.fresh q (by omega)
        have hlow : ∀ q, q < g.c → regs q = s.regs q := fun q hq' => hq q (by omega)
        refine ⟨?_, ?_⟩
        · simp only
          rw [← h.base.env_eq]
          funext n
          simp only [erase]
          by_cases hn : n ∈ nullNames items ++ setNames true items
          · obtain ⟨q, a1, a2, _⟩ := hsets.1 n (by simpa using hn)
            rw [if_pos hn, a1]; exact hfr q a2
          · rw [if_neg hn, hsets.2 n (by simpa using hn)]
            cases hmn : m n with
            | none => rfl
            | some q => exact hlow q (h.base.refs_lt n q hmn)
        · simp only
          rw [← h.lens_eq, hdrop]
          funext f
          simp only [erase]
          have hres := j6.trans k5 j2 k1
          by_cases hn : f ∈ new1 ++ new2
          · obtain ⟨q, a1, a2, _⟩ := hres.1 f hn
            rw [if_pos hn, a1]; exact hfr q (by omega)
          · rw [if_neg hn, hres.2 f hn]
            cases hmn : g.resolved f with
            | none => rfl
            | some q => exact hlow q (h.res_lt f q hmn)
    have hfin := sim_item_rest (X := X) (rest := rest) (cond := cond) (g1 := g6) (p1 := p')
      (envOf := fun x => x.1) (lensOf := fun x => x.2) h k3 (by omega) hs (fun _ _ hx => hx)
      (by
        rw [hrefs]
        exact (hsets.mono (by omega : g.c ≤ c3) k1).lt h.base.refs_lt (by omega))
      (((j6.trans k5 j2 k1).mono (by omega : g.c ≤ c4) (Nat.le_refl _)).lt h.res_lt (by omega))
      hok
      (fun lens autos m s c env ds hic hok => ihr cond t _ p' c0 lens autos m s env ds (k3.setC _) hic hok)
    simp only [Prog.append_assoc] at hfin ⊢
    exact hfin

end Verif.Enc
