import Verif.DecodeSpec
/-!
# The generated decoders do what the specification says

Simulation proof behind `Verif.Props.decode_refines`.
-/
namespace Verif.Dec

theorem exec_append (X : Ext) (p q : Prog) (s : State) :
    exec X (p ++ q) s = match exec X p s with | .next s' => exec X q s' | o => o := by
  change exec X (p.append q) s = _
  induction p generalizing s with
  | nil => rfl
  | op i r ih =>
    simp only [Prog.append, exec]
    cases h : execOp X s i <;> simp [ih]
  | loop src l t o i r _ ih =>
    simp only [Prog.append, exec]
    cases h : execLoop (exec X i) src l t o s <;> simp [ih]
  | cond rs c i r _ ih =>
    simp only [Prog.append, exec]
    split
    · cases h : exec X i s <;> simp [ih]
    · simp [ih]
    · rfl
  | condPred c i r _ ih =>
    simp only [Prog.append, exec]
    split
    · cases h : exec X i s <;> simp [ih]
    · simp [ih]
    · rfl
  | condWrap c p s' n x a r _ ih =>
    simp only [Prog.append, exec]
    split
    · cases h : exec X p s <;> simp
      split <;> simp [ih]
    · simp [ih]
    · rfl

/-- Registers agree with the fields decoded so far; registers from `c` on are free. -/
structure Inv (m : RegMap) (c : Nat) (env : Env) (s : State) : Prop where
  agree : ∀ n, (m n).bind s.regs = env n
  below : ∀ n r, m n = some r → r < c

def TBelow (t : Target) (c : Nat) : Prop := ∀ r, t = .stream r → r < c

/-- The reader variable `src` shows `vis`; beyond it the base still holds `hid`. -/
structure Strm (s : State) (src : Target) (c base : Nat) (vis hid : Bytes) : Prop where
  win : s.strm src = some ⟨base, hid.length⟩
  mem : s.mem base = vis ++ hid
  lt : base < s.nb
  below : TBelow src c

/-- What a block leaves alone. -/
structure Frame (c base : Nat) (s s' : State) : Prop where
  regs : ∀ r, r < c → s'.regs r = s.regs r
  strm : ∀ t, TBelow t c → s'.strm t = s.strm t
  mem : ∀ b, b < s.nb → b ≠ base → s'.mem b = s.mem b
  nb : s.nb ≤ s'.nb

theorem Frame.refl (c base : Nat) (s : State) : Frame c base s s :=
  ⟨fun _ _ => rfl, fun _ _ => rfl, fun _ _ _ => rfl, Nat.le_refl _⟩

theorem TBelow.mono {t c c'} (h : TBelow t c) (hc : c ≤ c') : TBelow t c' :=
  fun r e => Nat.lt_of_lt_of_le (h r e) hc

theorem Frame.trans {c c' base s s' s''} (h1 : Frame c base s s') (hc : c ≤ c')
    (h2 : Frame c' base s' s'') : Frame c base s s'' where
  regs r hr := (h2.regs r (by omega)).trans (h1.regs r hr)
  strm t ht := (h2.strm t (ht.mono hc)).trans (h1.strm t ht)
  mem b hb hne := (h2.mem b (Nat.lt_of_lt_of_le hb h1.nb) hne).trans (h1.mem b hb hne)
  nb := Nat.le_trans h1.nb h2.nb

theorem Frame.mono {c c' base s s'} (h : Frame c' base s s') (hc : c ≤ c') : Frame c base s s' :=
  (Frame.refl c base s).trans hc h

theorem Inv.mono {m c c' env s} (h : Inv m c env s) (hc : c ≤ c') : Inv m c' env s :=
  ⟨h.agree, fun n r e => Nat.lt_of_lt_of_le (h.below n r e) hc⟩

theorem Inv.of_regs {m c env s s'} (h : Inv m c env s) (hr : ∀ r, r < c → s'.regs r = s.regs r) :
    Inv m c env s' where
  agree n := by
    rw [← h.agree n]
    cases e : m n with
    | none => rfl
    | some r => simp [hr r (h.below n r e)]
  below := h.below

theorem Inv.frame {m c env s s' base} (h : Inv m c env s) (hf : Frame c base s s') : Inv m c env s' :=
  h.of_regs hf.regs

theorem Inv.look {m c env s} (h : Inv m c env s) (X : Ext) (e : Expr) :
    runE X.oc ⟨fun n => (m n).bind s.regs, X.input⟩ e = ev X env e := by
  have : (fun n => (m n).bind s.regs) = env := funext h.agree
  rw [this]; rfl

theorem Strm.mono {s src c c' base vis hid} (h : Strm s src c base vis hid) (hc : c ≤ c') :
    Strm s src c' base vis hid := ⟨h.win, h.mem, h.lt, h.below.mono hc⟩

theorem Strm.step {s s' src c base vis vis' hid} (h : Strm s src c base vis hid)
    (hf : Frame c base s s') (hm : s'.mem base = vis' ++ hid) : Strm s' src c base vis' hid :=
  ⟨(hf.strm src h.below).trans h.win, hm, Nat.lt_of_lt_of_le h.lt hf.nb, h.below⟩

theorem Strm.vis_eq {s src c base vis hid} (h : Strm s src c base vis hid) :
    s.vis ⟨base, hid.length⟩ = vis := by
  simp [State.vis, h.mem]

theorem Strm.hid_eq {s src c base vis hid} (h : Strm s src c base vis hid) :
    s.hid ⟨base, hid.length⟩ = hid := by
  simp [State.hid, h.mem]

theorem Strm.onStream {s src c base vis hid} (h : Strm s src c base vis hid) {α}
    (f : Bytes → Res (α × Bytes)) :
    s.onStream src f = (f vis).map fun p => (p.1, { s with mem := upd s.mem base (p.2 ++ hid) }) := by
  simp only [State.onStream, h.win, optRes, ok_bind, h.vis_eq, h.hid_eq]
  cases f vis <;> rfl

/-- The outcome of a block compared with the outcome of the specification. -/
def Sim {α} (X : Ext) (p : Prog) (s : State) (c base : Nat) (hid : Bytes) (O : α → State → Out)
    (res : Res (α × Bytes)) (Q : α → State → Prop) : Prop :=
  match res with
  | .error f => exec X p s = .fault f
  | .ok (a, vis') => ∃ s', exec X p s = O a s' ∧ Frame c base s s' ∧ s'.mem base = vis' ++ hid ∧ Q a s'

def nxt {α} : α → State → Out := fun _ s => .next s

theorem Sim.weaken {α X p s c c' base hid O} {res : Res (α × Bytes)} {Q Q' : α → State → Prop}
    (h : Sim X p s c' base hid O res Q) (hc : c ≤ c') (hq : ∀ a s', Frame c' base s s' → Q a s' → Q' a s') :
    Sim X p s c base hid O res Q' := by
  cases res with
  | error f => exact h
  | ok x =>
    obtain ⟨s', e, hf, hm, q⟩ := h
    exact ⟨s', e, hf.mono hc, hm, hq _ _ hf q⟩

theorem Sim.bind {α β X p q s c c' base hid O} {r : Res (α × Bytes)} {k : α × Bytes → Res (β × Bytes)}
    {Q : α → State → Prop} {Q' : β → State → Prop}
    (h : Sim X p s c base hid nxt r Q) (hc : c ≤ c')
    (hk : ∀ a vis' s', Frame c base s s' → s'.mem base = vis' ++ hid → Q a s' →
      Sim X q s' c' base hid O (k (a, vis')) Q') :
    Sim X (p ++ q) s c base hid O (r >>= k) Q' := by
  cases r with
  | error f =>
    have h : exec X p s = .fault f := h
    simp only [err_bind]
    show exec X (p ++ q) s = .fault f
    rw [exec_append, h]
  | ok x =>
    obtain ⟨a, vis'⟩ := x
    obtain ⟨s', e, hf, hm, hQ⟩ := h
    simp only [ok_bind]
    have h2 := hk a vis' s' hf hm hQ
    unfold Sim at h2 ⊢
    rw [exec_append, e]
    simp only [nxt]
    cases hkr : k (a, vis') with
    | error f => simpa [hkr] using h2
    | ok y =>
      obtain ⟨b, v⟩ := y
      rw [hkr] at h2
      obtain ⟨s2, e2, hf2, hm2, q2⟩ := h2
      exact ⟨s2, e2, hf.trans hc hf2, hm2, q2⟩

theorem Sim.of_eq {α X p s c base hid O} {r r' : Res (α × Bytes)} {Q : α → State → Prop}
    (h : Sim X p s c base hid O r Q) (e : r = r') : Sim X p s c base hid O r' Q := e ▸ h

/-- Setting a free register. -/
theorem Frame.setReg {c base s r v} (h : c ≤ r) : Frame c base s (s.setReg r v) :=
  ⟨fun x hx => upd_ne _ _ (by omega), fun _ _ => rfl, fun _ _ _ => rfl, Nat.le_refl _⟩

/-- An `Eval` into a free register. -/
theorem sim_eval {X m c env s src base vis hid} (e : Expr) {r : Nat} (hr : c ≤ r)
    (hi : Inv m c env s) (hs : Strm s src c base vis hid) :
    Sim X (.one (.eval r e m)) s c base hid nxt ((ev X env e).map fun v => (v, vis))
      (fun v s' => s'.regs r = some v ∧ s' = s.setReg r v) := by
  unfold Sim
  simp only [Prog.one, exec, execOp, hi.look X e]
  cases ev X env e with
  | error f => rfl
  | ok v =>
    exact ⟨s.setReg r v, rfl, Frame.setReg hr, hs.mem, by simp [State.setReg], rfl⟩

theorem one_append (i : Op) (q : Prog) : Prog.one i ++ q = .op i q := rfl
theorem nil_append (q : Prog) : Prog.nil ++ q = q := rfl

theorem append_nil (q : Prog) : q ++ .nil = q := by
  change q.append .nil = q
  induction q <;> simp_all [Prog.append]

theorem append_assoc (a b c : Prog) : a ++ b ++ c = a ++ (b ++ c) := by
  change (a.append b).append c = a.append (b.append c)
  induction a <;> simp_all [Prog.append]

/-- Evaluating the arguments of a reference or a transform. -/
theorem sim_args {X m env} (es : List Expr) : ∀ {c s src base vis hid},
    Inv m c env s → Strm s src c base vis hid →
    c ≤ (genArgs m c es).1 ∧
    Sim X (genArgs m c es).2.1 s c base hid nxt ((es.mapM (ev X env)).map fun vs => (vs, vis))
      (fun vs s' => s'.args (genArgs m c es).2.2 = .ok vs ∧ s'.mem = s.mem ∧ s'.strm = s.strm ∧
        s'.nb = s.nb ∧ ∀ r, r < c ∨ (genArgs m c es).1 ≤ r → s'.regs r = s.regs r) := by
  induction es with
  | nil =>
    intro c s src base vis hid hi hs
    refine ⟨Nat.le_refl _, ?_⟩
    exact ⟨s, rfl, Frame.refl _ _ _, hs.mem, rfl, rfl, rfl, rfl, fun _ _ => rfl⟩
  | cons e es ih =>
    intro c s src base vis hid hi hs
    have hc := (ih (c := c + 1) (hi.mono (Nat.le_succ c)) (hs.mono (Nat.le_succ c))).1
    refine ⟨by simp only [genArgs]; omega, ?_⟩
    have h1 := sim_eval (X := X) e (r := c) (Nat.le_refl c) hi hs
    have := Sim.bind (q := (genArgs m (c + 1) es).2.1) (c' := c + 1) (O := nxt)
      (k := fun p => ((es.mapM (ev X env)).map fun vs => (p.1 :: vs, vis)))
      (Q' := fun vs s' => s'.args (genArgs m c (e :: es)).2.2 = .ok vs ∧ s'.mem = s.mem ∧
        s'.strm = s.strm ∧ s'.nb = s.nb ∧ ∀ r, r < c ∨ (genArgs m c (e :: es)).1 ≤ r → s'.regs r = s.regs r)
      h1 (Nat.le_succ c) (by
        intro v vis' s' hf hm ⟨hv, hs'⟩
        have hi' : Inv m (c + 1) env s' := (hi.frame hf).mono (Nat.le_succ c)
        have hst : Strm s' src (c + 1) base vis' hid := (hs.step hf hm).mono (Nat.le_succ c)
        have h2 := (ih hi' hst).2
        unfold Sim at h2 ⊢
        cases hes : es.mapM (ev X env) with
        | error f => simpa [hes, Except.map] using h2
        | ok vs =>
          simp only [hes, Except.map] at h2 ⊢
          obtain ⟨s2, e2, hf2, hm2, ha, hme, hst2, hnb, hrg⟩ := h2
          refine ⟨s2, e2, hf2, ?_, ?_, ?_, ?_, ?_, ?_⟩
          · rw [hme, hs']; exact hs.mem
          · simp only [genArgs, State.args, List.mapM_cons]
            have : s2.reg c = .ok v := by simp [State.reg, hrg c (Or.inl (by omega)), hv, optRes]
            simp only [this, ok_bind]
            have ha' : List.mapM s2.reg (genArgs m (c + 1) es).2.2 = .ok vs := ha
            rw [ha']; rfl
          · rw [hme, hs']; rfl
          · rw [hst2, hs']; rfl
          · rw [hnb, hs']; rfl
          · intro r hr
            simp only [genArgs] at hr
            rw [hrg r (by omega), hs']
            exact upd_ne _ _ (by omega))
    refine Sim.of_eq this ?_
    simp only [List.mapM_cons]
    cases ev X env e with
    | error f => rfl
    | ok v =>
      simp only [Except.map, ok_bind]
      cases es.mapM (ev X env) <;> rfl

/-! ## Leaves -/

theorem Strm.decInto {s src c base vis hid} (h : Strm s src c base vis hid) (out : Nat)
    (f : Bytes → Res (Val × Bytes)) :
    s.decInto src out f = (f vis).map fun p =>
      ({ s with mem := upd s.mem base (p.2 ++ hid) } : State).setReg out p.1 := by
  simp only [State.decInto, h.onStream]
  cases f vis <;> rfl

theorem sim_decInto {X i s src c base vis hid out} (f : Bytes → Res (Val × Bytes))
    (hs : Strm s src c base vis hid) (ho : c ≤ out)
    (hi : execOp X s i = Res.out (s.decInto src out f)) :
    Sim X (.one i) s c base hid nxt (f vis) (fun v s' => s'.regs out = some v) := by
  unfold Sim
  simp only [Prog.one, exec, hi, hs.decInto]
  cases f vis with
  | error e => rfl
  | ok p =>
    obtain ⟨v, r⟩ := p
    refine ⟨_, rfl, ⟨?_, ?_, ?_, ?_⟩, ?_, ?_⟩
    · intro r hr; exact upd_ne _ _ (by omega)
    · intro t _; rfl
    · intro b _ hb; exact upd_ne _ _ hb
    · exact Nat.le_refl _
    · simp [State.setReg]
    · simp [State.setReg]

/-- A statement body that reads one item per call and appends it to the output vector. -/
structure BodyOK (f : Bytes → Res (Val × Bytes)) (body : State → Out) (m : RegMap) (env : Env)
    (c : Nat) (src : Target) (base out : Nat) (hid : Bytes) : Prop where
  run : ∀ s vis acc, Inv m c env s → Strm s src c base vis hid → s.regs out = some (.arr acc) →
    match f vis with
    | .error e => iter body out s = .fault e
    | .ok (v, vis') => ∃ s', iter body out s = .next s' ∧
        s'.regs = upd s.regs out (some (.arr (acc ++ [v]))) ∧ s'.strm = s.strm ∧
        s'.mem base = vis' ++ hid ∧ (∀ b, b < s.nb → b ≠ base → s'.mem b = s.mem b) ∧ s.nb ≤ s'.nb

/-- What a loop does to the state. -/
structure LoopPost (s s' : State) (base out : Nat) (vis' hid : Bytes) (vs : List Val) : Prop where
  regs : s'.regs = upd s.regs out (some (.arr vs))
  strm : s'.strm = s.strm
  mem : s'.mem base = vis' ++ hid
  other : ∀ b, b < s.nb → b ≠ base → s'.mem b = s.mem b
  nb : s.nb ≤ s'.nb

theorem upd_upd {α β} [DecidableEq α] (f : α → β) (a : α) (b b' : β) :
    upd (upd f a b) a b' = upd f a b' := by
  funext x; simp only [upd]; split <;> rfl

theorem LoopPost.trans {s s' s'' base out vis' vis'' hid vs ws}
    (h1 : LoopPost s s' base out vis' hid vs) (h2 : LoopPost s' s'' base out vis'' hid ws) :
    LoopPost s s'' base out vis'' hid ws where
  regs := by rw [h2.regs, h1.regs, upd_upd]
  strm := h2.strm.trans h1.strm
  mem := h2.mem
  other b hb hne := (h2.other b (Nat.lt_of_lt_of_le hb h1.nb) hne).trans (h1.other b hb hne)
  nb := Nat.le_trans h1.nb h2.nb

section Loops
variable {f : Bytes → Res (Val × Bytes)} {body : State → Out} {m : RegMap} {env : Env} {c : Nat}
  {src : Target} {base out : Nat} {hid : Bytes}

theorem inv_upd_out {s s' : State} (hout : ∀ n r, m n = some r → r ≠ out) (hi : Inv m c env s)
    {v} (hr : s'.regs = upd s.regs out v) : Inv m c env s' where
  agree n := by
    rw [← hi.agree n]
    cases e : m n with
    | none => rfl
    | some r => simp [hr, upd_ne _ _ (hout n r e)]
  below := hi.below

theorem LoopPost.strm_ok {s s' : State} {vis vis' vs} (h : LoopPost s s' base out vis' hid vs)
    (hs : Strm s src c base vis hid) : Strm s' src c base vis' hid :=
  ⟨by rw [h.strm, hs.win], h.mem, Nat.lt_of_lt_of_le hs.lt h.nb, hs.below⟩

theorem BodyOK.post (hb : BodyOK f body m env c src base out hid) {s vis acc}
    (hi : Inv m c env s) (hs : Strm s src c base vis hid) (ho : s.regs out = some (.arr acc)) :
    match f vis with
    | .error e => iter body out s = .fault e
    | .ok (v, vis') => ∃ s', iter body out s = .next s' ∧
        LoopPost s s' base out vis' hid (acc ++ [v]) := by
  have := hb.run s vis acc hi hs ho
  cases h : f vis with
  | error e => simpa [h] using this
  | ok p =>
    obtain ⟨v, vis'⟩ := p
    simp only [h] at this
    obtain ⟨s', e, h1, h2, h3, h4, h5⟩ := this
    exact ⟨s', e, ⟨h1, h2, h3, h4, h5⟩⟩

theorem loopN_ok (hb : BodyOK f body m env c src base out hid)
    (hout : ∀ n r, m n = some r → r ≠ out) (n : Nat) :
    ∀ {s vis acc}, Inv m c env s → Strm s src c base vis hid → s.regs out = some (.arr acc) →
    match decN f n vis with
    | .error e => loopN (iter body out) n s = .fault e
    | .ok (vs, vis') => ∃ s', loopN (iter body out) n s = .next s' ∧
        LoopPost s s' base out vis' hid (acc ++ vs) := by
  induction n with
  | zero =>
    intro s vis acc hi hs ho
    refine ⟨s, rfl, ⟨?_, rfl, hs.mem, fun _ _ _ => rfl, Nat.le_refl _⟩⟩
    funext x; simp only [upd, List.append_nil]; split
    · simp_all
    · rfl
  | succ n ih =>
    intro s vis acc hi hs ho
    have h1 := hb.post hi hs ho
    simp only [decN, loopN]
    cases hf : f vis with
    | error e =>
      simp only [hf] at h1
      simp only [err_bind, h1]
    | ok p =>
      obtain ⟨v, vis'⟩ := p
      simp only [hf] at h1
      obtain ⟨s', e, hp⟩ := h1
      have h2 := ih (acc := acc ++ [v]) (inv_upd_out hout hi hp.regs) (hp.strm_ok hs) (by rw [hp.regs]; simp)
      simp only [ok_bind, e]
      cases hd : decN f n vis' with
      | error e =>
        simp only [hd] at h2
        simp only [err_bind, h2]
      | ok q =>
        obtain ⟨vs, vis''⟩ := q
        simp only [hd] at h2
        obtain ⟨s'', e2, hp2⟩ := h2
        simp only [ok_bind]
        exact ⟨s'', e2, by simpa using hp.trans hp2⟩

theorem regs_same {s : State} {acc : List Val} (ho : s.regs out = some (.arr acc)) :
    s.regs = upd s.regs out (some (.arr (acc ++ []))) := by
  funext x; simp only [upd, List.append_nil]; split
  · simp_all
  · rfl

theorem loopWhile_ok (hb : BodyOK f body m env c src base out [])
    (hout : ∀ n r, m n = some r → r ≠ out) (fuel : Nat) :
    ∀ {s vis acc}, Inv m c env s → Strm s src c base vis [] → s.regs out = some (.arr acc) →
    match decAll f fuel vis with
    | .error e => loopWhile (iter body out) ⟨base, 0⟩ fuel s = .fault e
    | .ok (vs, vis') => ∃ s', loopWhile (iter body out) ⟨base, 0⟩ fuel s = .next s' ∧
        LoopPost s s' base out vis' [] (acc ++ vs) := by
  induction fuel with
  | zero =>
    intro s vis acc hi hs ho
    have hv : s.vis ⟨base, 0⟩ = vis := hs.vis_eq
    unfold decAll loopWhile
    rw [hv]
    by_cases h0 : vis = []
    · rw [if_pos h0, if_pos h0]
      exact ⟨s, rfl, ⟨regs_same ho, rfl, hs.mem, fun _ _ _ => rfl, Nat.le_refl _⟩⟩
    · rw [if_neg h0, if_neg h0]
  | succ n ih =>
    intro s vis acc hi hs ho
    have hv : s.vis ⟨base, 0⟩ = vis := hs.vis_eq
    unfold decAll loopWhile
    rw [hv]
    by_cases h0 : vis = []
    · rw [if_pos h0, if_pos h0]
      exact ⟨s, rfl, ⟨regs_same ho, rfl, hs.mem, fun _ _ _ => rfl, Nat.le_refl _⟩⟩
    · rw [if_neg h0, if_neg h0]
      have h1 := hb.post hi hs ho
      cases hf : f vis with
      | error e =>
        simp only [hf] at h1
        simp only [err_bind, h1]
      | ok p =>
        obtain ⟨v, vis'⟩ := p
        simp only [hf] at h1
        obtain ⟨s', e, hp⟩ := h1
        have hs' := hp.strm_ok hs
        have hv' : s'.vis ⟨base, 0⟩ = vis' := hs'.vis_eq
        have h2 := ih (acc := acc ++ [v]) (inv_upd_out hout hi hp.regs) hs' (by rw [hp.regs]; simp)
        simp only [ok_bind, e, hv']
        by_cases hlt : vis'.length < vis.length
        · simp only [hlt, if_true]
          cases hd : decAll f n vis' with
          | error e =>
            simp only [hd] at h2
            simp only [err_bind, h2]
          | ok q =>
            obtain ⟨vs, vis''⟩ := q
            simp only [hd] at h2
            obtain ⟨s'', e2, hp2⟩ := h2
            simp only [ok_bind]
            exact ⟨s'', e2, by simpa using hp.trans hp2⟩
        · simp only [hlt, if_false]

theorem loopTerm_ok (hb : BodyOK f body m env c src base out hid)
    (hout : ∀ n r, m n = some r → r ≠ out) (t : Bytes) (fuel : Nat) :
    ∀ {s vis acc}, Inv m c env s → Strm s src c base vis hid → s.regs out = some (.arr acc) →
    match decUntil f t fuel vis with
    | .error e => loopTerm (iter body out) ⟨base, hid.length⟩ t fuel s = .fault e
    | .ok (vs, vis') => ∃ s', loopTerm (iter body out) ⟨base, hid.length⟩ t fuel s = .next s' ∧
        LoopPost s s' base out vis' hid (acc ++ vs) := by
  induction fuel with
  | zero =>
    intro s vis acc hi hs ho
    have hv : s.vis ⟨base, hid.length⟩ = vis := hs.vis_eq
    have hh : s.hid ⟨base, hid.length⟩ = hid := hs.hid_eq
    unfold decUntil loopTerm
    rw [hv, hh]
    by_cases h0 : vis = []
    · rw [if_pos h0, if_pos h0]
      exact ⟨s, rfl, ⟨regs_same ho, rfl, hs.mem, fun _ _ _ => rfl, Nat.le_refl _⟩⟩
    · rw [if_neg h0, if_neg h0]
      by_cases h1 : vis.length < t.length
      · rw [if_pos h1, if_pos h1]
      · rw [if_neg h1, if_neg h1]
        by_cases h2 : vis.take t.length = t
        · rw [if_pos h2, if_pos h2]
          exact ⟨_, rfl, ⟨regs_same ho, rfl, by simp, fun b _ hne => upd_ne _ _ hne, Nat.le_refl _⟩⟩
        · rw [if_neg h2, if_neg h2]
  | succ n ih =>
    intro s vis acc hi hs ho
    have hv : s.vis ⟨base, hid.length⟩ = vis := hs.vis_eq
    have hh : s.hid ⟨base, hid.length⟩ = hid := hs.hid_eq
    unfold decUntil loopTerm
    rw [hv, hh]
    by_cases h0 : vis = []
    · rw [if_pos h0, if_pos h0]
      exact ⟨s, rfl, ⟨regs_same ho, rfl, hs.mem, fun _ _ _ => rfl, Nat.le_refl _⟩⟩
    · rw [if_neg h0, if_neg h0]
      by_cases h1 : vis.length < t.length
      · rw [if_pos h1, if_pos h1]
      · rw [if_neg h1, if_neg h1]
        by_cases h2 : vis.take t.length = t
        · rw [if_pos h2, if_pos h2]
          exact ⟨_, rfl, ⟨regs_same ho, rfl, by simp, fun b _ hne => upd_ne _ _ hne, Nat.le_refl _⟩⟩
        · rw [if_neg h2, if_neg h2]
          have h1 := hb.post hi hs ho
          cases hf : f vis with
          | error e =>
            simp only [hf] at h1
            simp only [err_bind, h1]
          | ok p =>
            obtain ⟨v, vis'⟩ := p
            simp only [hf] at h1
            obtain ⟨s', e, hp⟩ := h1
            have hs' := hp.strm_ok hs
            have hv' : s'.vis ⟨base, hid.length⟩ = vis' := hs'.vis_eq
            have h2 := ih (acc := acc ++ [v]) (inv_upd_out hout hi hp.regs) hs'
              (by rw [hp.regs]; simp)
            simp only [ok_bind, e, hv']
            by_cases hlt : vis'.length < vis.length
            · simp only [hlt, if_true]
              cases hd : decUntil f t n vis' with
              | error e =>
                simp only [hd] at h2
                simp only [err_bind, h2]
              | ok q =>
                obtain ⟨vs, vis''⟩ := q
                simp only [hd] at h2
                obtain ⟨s'', e2, hp2⟩ := h2
                simp only [ok_bind]
                exact ⟨s'', e2, by simpa using hp.trans hp2⟩
            · simp only [hlt, if_false]

end Loops

theorem bodyOK_of_sim {X : Ext} {f m env c src base out hid p item} (ho : out < c)
    (h : ∀ s vis, Inv m c env s → Strm s src c base vis hid →
      Sim X p s c base hid nxt (f vis) (fun v s' => s'.regs item = some v)) :
    BodyOK f (exec X (p ++ .one (.loopOutput out item))) m env c src base out hid where
  run s vis acc hi hs hout := by
    have h1 := h s vis hi hs
    unfold Sim at h1
    simp only [iter, exec_append]
    cases hf : f vis with
    | error e => simp only [hf] at h1; simp only [h1]
    | ok q =>
      obtain ⟨v, vis'⟩ := q
      simp only [hf] at h1
      obtain ⟨s', e, hfr, hm, hv⟩ := h1
      have h2 : s'.regs out = some (.arr acc) := (hfr.regs out ho).trans hout
      simp only [e, nxt, Prog.one, exec, execOp, State.reg, hv, h2, optRes, ok_bind]
      refine ⟨_, rfl, ?_, rfl, hm, ?_, hfr.nb⟩
      · simp [State.setReg]
      · exact fun b hb hne => hfr.mem b hb hne

theorem Strm.setReg {s src c base vis hid r v} (h : Strm s src c base vis hid) :
    Strm (s.setReg r v) src c base vis hid := ⟨h.win, h.mem, h.lt, h.below⟩

theorem Inv.setReg {m c env s r v} (h : Inv m c env s) (hr : c ≤ r) : Inv m c env (s.setReg r v) :=
  h.of_regs fun x hx => upd_ne _ _ (by omega)

theorem LoopPost.frame {s s' c base out vis' hid vs v0} (h : LoopPost (s.setReg out v0) s' base out vis' hid vs)
    (ho : c ≤ out) : Frame c base s s' where
  regs r hr := by
    rw [h.regs]; simp only [State.setReg, upd_upd]; exact upd_ne _ _ (by omega)
  strm t _ := by rw [h.strm]; rfl
  mem b hb hne := h.other b hb hne
  nb := h.nb

/-- A non-container type: the value lands in the returned register. -/
theorem sim_leaf (X : Ext) {m env} (ty : LTy) : ∀ {c s src base vis hid},
    Inv m c env s → Strm s src c base vis hid →
    (c ≤ (genLeaf m src ty c).2.2 ∧ (genLeaf m src ty c).2.2 < (genLeaf m src ty c).1) ∧
    Sim X (genLeaf m src ty c).2.1 s c base hid nxt (decLeaf X env ty vis)
      (fun v s' => s'.regs (genLeaf m src ty c).2.2 = some v) := by
  induction ty with
  | prim p =>
    intro c s src base vis hid hi hs
    refine ⟨⟨Nat.le_refl _, Nat.lt_succ_self _⟩, ?_⟩
    exact sim_decInto (decPrim p) hs (Nat.le_refl c) rfl
  | ref target foreign res args =>
    intro c s src base vis hid hi hs
    have ha := sim_args (X := X) args (hi.mono (show c ≤ c + 1 by omega)) (hs.mono (show c ≤ c + 1 by omega))
    have hc1 := ha.1
    refine ⟨?_, ?_⟩
    · simp only [genLeaf]; split <;> simp <;> omega
    · have key : ∀ (i : Op) (g : List Val → Bytes → Res (Val × Bytes)),
          (∀ s' vs, s'.args (genArgs m (c + 1) args).2.2 = .ok vs →
            execOp X s' i = Res.out (s'.decInto src c (g vs))) →
          Sim X ((genArgs m (c + 1) args).2.1 ++ .one i) s c base hid nxt
            ((args.mapM (ev X env)) >>= fun vs => g vs vis) (fun v s' => s'.regs c = some v) := by
        intro i g hg
        have := Sim.bind (q := .one i) (c' := c) (O := nxt)
          (k := fun p => g p.1 vis) (Q' := fun v s' => s'.regs c = some v)
          (ha.2.weaken (Nat.le_succ c) (Q' := fun vs s' => s'.args (genArgs m (c + 1) args).2.2 = .ok vs ∧ s'.mem = s.mem)
            (fun a s' _ h => ⟨h.1, h.2.1⟩)) (Nat.le_refl c) (by
            intro vs vis' s' hf hm ⟨hv, hme⟩
            have hst : Strm s' src c base vis hid := hs.step hf (by rw [hme]; exact hs.mem)
            exact sim_decInto (g vs) hst (Nat.le_refl c) (hg s' vs hv))
        refine Sim.of_eq this ?_
        cases args.mapM (ev X env) <;> rfl
      cases foreign with
      | true =>
        simp only [genLeaf, decLeaf, if_true]
        refine key _ (fun vs => X.foreign target vs) ?_
        intro s' vs hv
        simp only [execOp, hv, ok_bind]; rfl
      | false =>
        simp only [genLeaf, decLeaf]
        refine key _ (fun vs => X.call target vs) ?_
        intro s' vs hv
        simp only [execOp, hv, ok_bind]; rfl
  | array elem len ih =>
    intro c s src base vis hid hi hs
    -- the body of a loop whose inner registers start at `c1`
    have hout : ∀ out, c ≤ out → ∀ n r, m n = some r → r ≠ out := by
      intro out ho n r e; have := hi.below n r e; omega
    have body : ∀ (c1 out base' : Nat) (hid' : Bytes), c ≤ c1 → out < c1 →
        BodyOK (decLeaf X env elem)
          (exec X ((genLeaf m src elem c1).2.1 ++ .one (.loopOutput out (genLeaf m src elem c1).2.2)))
          m env c1 src base' out hid' := by
      intro c1 out base' hid' _ ho
      exact bodyOK_of_sim ho fun s' vis' hi' hs' => (ih hi' hs').2
    cases len with
    | term e =>
      have hlt := (ih (hi.mono (show c ≤ c + 3 by omega)) (hs.mono (show c ≤ c + 3 by omega))).1
      refine ⟨by simp only [genLeaf]; omega, ?_⟩
      have h1 := sim_eval (X := X) e (r := c + 1) (Nat.le_succ c) hi hs
      have := Sim.bind (c' := c) (O := nxt) (Q' := fun v s' => s'.regs (c + 2) = some v)
        (q := .loop src none (some (c + 1)) (c + 2)
          ((genLeaf m src elem (c + 3)).2.1 ++ .one (.loopOutput (c + 2) (genLeaf m src elem (c + 3)).2.2)) .nil)
        (k := fun p => do
          let t ← optRes p.1.toBytes
          let q ← decUntil (decLeaf X env elem) t p.2.length p.2
          .ok (.arr q.1, q.2)) h1 (Nat.le_refl c) (by
          intro v vis' s' hf hm ⟨hv, _⟩
          have hi' := hi.frame hf
          have hs' := hs.step hf hm
          simp only [Sim, exec, execLoop, State.reg, hv, optRes, hs'.win]
          cases hb : v.toBytes with
          | none => rfl
          | some tb =>
            simp only [ok_bind]
            have hl := loopTerm_ok (body (c + 3) (c + 2) base hid (by omega) (by omega))
              (hout (c + 2) (by omega)) tb vis'.length (s := s'.setReg (c + 2) (.arr [])) (acc := [])
              ((hi'.setReg (by omega)).mono (by omega)) (hs'.setReg.mono (by omega))
              (by simp [State.setReg])
            rw [hs'.vis_eq]
            cases hd : decUntil (decLeaf X env elem) tb vis'.length vis' with
            | error e => simp only [hd] at hl; simp only [hl, err_bind]
            | ok q =>
              obtain ⟨vs, rest⟩ := q
              simp only [hd] at hl
              obtain ⟨s2, e2, hp⟩ := hl
              simp only [e2, ok_bind]
              exact ⟨s2, rfl, hp.frame (by omega), hp.mem, by rw [hp.regs]; simp⟩)
      refine Sim.of_eq this ?_
      simp only [decLeaf]
      cases ev X env e <;> rfl
    | fixed e =>
      have h1 := sim_eval (X := X) e (r := c + 1) (Nat.le_succ c) hi hs
      cases hr : elem.resolved with
      | prim p =>
        refine ⟨by simp only [genLeaf, hr]; omega, ?_⟩
        have := Sim.bind (c' := c) (O := nxt) (Q' := fun v s' => s'.regs (c + 2) = some v)
          (q := .one (.primArray src (c + 2) p (some (c + 1))))
          (k := fun q => do let n ← asUsize q.1; decPrimArray X.oc p (some n) q.2) h1 (Nat.le_refl c) (by
            intro v vis' s' hf hm ⟨hv, _⟩
            have hs' := hs.step hf hm
            cases hn : asUsize v with
            | error f =>
              simp [Sim, Prog.one, exec, execOp, optLen, State.reg, hv, optRes, ok_bind, hn, err_bind]
            | ok n =>
              simp only [ok_bind]
              refine sim_decInto (decPrimArray X.oc p (some n)) hs' (show c ≤ c + 2 by omega) ?_
              simp only [execOp, optLen, State.reg, hv, optRes, ok_bind, hn]; rfl)
        simp only [genLeaf, hr, decLeaf]
        refine Sim.of_eq this ?_
        cases ev X env e <;> rfl
      | repr t =>
        refine ⟨by simp only [genLeaf, hr]; omega, ?_⟩
        have := Sim.bind (c' := c) (O := nxt) (Q' := fun v s' => s'.regs (c + 2) = some v)
          (q := .one (.reprArray src (c + 2) t (some (c + 1))))
          (k := fun q => do let n ← asUsize q.1; decReprArray X.oc t (some n) q.2) h1 (Nat.le_refl c) (by
            intro v vis' s' hf hm ⟨hv, _⟩
            have hs' := hs.step hf hm
            cases hn : asUsize v with
            | error f =>
              simp [Sim, Prog.one, exec, execOp, optLen, State.reg, hv, optRes, ok_bind, hn, err_bind]
            | ok n =>
              simp only [ok_bind]
              refine sim_decInto (decReprArray X.oc t (some n)) hs' (show c ≤ c + 2 by omega) ?_
              simp only [execOp, optLen, State.reg, hv, optRes, ok_bind, hn]; rfl)
        simp only [genLeaf, hr, decLeaf]
        refine Sim.of_eq this ?_
        cases ev X env e <;> rfl
      | other =>
        have hlt := (ih (hi.mono (show c ≤ c + 3 by omega)) (hs.mono (show c ≤ c + 3 by omega))).1
        refine ⟨by simp only [genLeaf, hr]; omega, ?_⟩
        have := Sim.bind (c' := c) (O := nxt) (Q' := fun v s' => s'.regs (c + 2) = some v)
          (q := .loop src (some (c + 1)) none (c + 2)
            ((genLeaf m src elem (c + 3)).2.1 ++ .one (.loopOutput (c + 2) (genLeaf m src elem (c + 3)).2.2)) .nil)
          (k := fun p => do
            let n ← loopCount p.1
            let q ← decN (decLeaf X env elem) n p.2
            .ok (.arr q.1, q.2)) h1 (Nat.le_refl c) (by
            intro v vis' s' hf hm ⟨hv, _⟩
            have hi' := hi.frame hf
            have hs' := hs.step hf hm
            simp only [Sim, exec, execLoop, State.reg, hv, optRes, Except.bind]
            cases hn : loopCount v with
            | error f => simp [err_bind]
            | ok n =>
              simp only [ok_bind]
              have hl := loopN_ok (body (c + 3) (c + 2) base hid (by omega) (by omega))
                (hout (c + 2) (by omega)) n (s := s'.setReg (c + 2) (.arr [])) (acc := [])
                ((hi'.setReg (by omega)).mono (by omega)) (hs'.setReg.mono (by omega))
                (by simp [State.setReg])
              cases hd : decN (decLeaf X env elem) n vis' with
              | error e => simp only [hd] at hl; simp only [hl, err_bind]
              | ok q =>
                obtain ⟨vs, rest⟩ := q
                simp only [hd] at hl
                obtain ⟨s2, e2, hp⟩ := hl
                simp only [e2, ok_bind]
                exact ⟨s2, rfl, hp.frame (by omega), hp.mem, by rw [hp.regs]; simp⟩)
        simp only [genLeaf, hr, decLeaf]
        refine Sim.of_eq this ?_
        cases ev X env e <;> rfl
    | unbounded =>
      cases hr : elem.resolved with
      | prim p =>
        refine ⟨by simp only [genLeaf, hr]; omega, ?_⟩
        simp only [genLeaf, hr, decLeaf]
        exact sim_decInto (decPrimArray X.oc p none) hs (show c ≤ c + 1 by omega) rfl
      | repr t =>
        refine ⟨by simp only [genLeaf, hr]; omega, ?_⟩
        simp only [genLeaf, hr, decLeaf]
        exact sim_decInto (decReprArray X.oc t none) hs (show c ≤ c + 1 by omega) rfl
      | other =>
        have hlt := (ih (hi.mono (show c ≤ c + 2 by omega)) (hs.mono (show c ≤ c + 2 by omega))).1
        refine ⟨by simp only [genLeaf, hr]; omega, ?_⟩
        simp only [genLeaf, hr, decLeaf]
        have hon := (hs.setReg (r := c + 1) (v := .arr [])).onStream (fun bs => .ok (bs, []))
        simp only [Sim, exec, execLoop, hon, Except.map]
        have hlt' := hs.lt
        have hl := loopWhile_ok (body (c + 2) (c + 1) s.nb [] (by omega) (by omega))
          (hout (c + 1) (by omega)) vis.length
          (s := (({ (s.setReg (c + 1) (.arr [])) with
              mem := upd (s.setReg (c + 1) (.arr [])).mem base ([] ++ hid) } : State).newStream src vis))
          (vis := vis) (acc := [])
          (by
            refine (Inv.of_regs hi ?_).mono (by omega)
            intro r hr; exact upd_ne _ _ (by omega))
          ⟨by simp [State.newStream, State.setReg], by simp [State.newStream, State.setReg],
            by simp [State.newStream, State.setReg], hs.below.mono (by omega)⟩
          (by simp [State.newStream, State.setReg])
        have hnb : (s.setReg (c + 1) (.arr [])).nb = s.nb := rfl
        simp only [hnb, List.nil_append] at hl ⊢
        cases hd : decAll (decLeaf X env elem) vis.length vis with
        | error e => simp only [hd] at hl; simp only [hl, err_bind]
        | ok q =>
          obtain ⟨vs, rest⟩ := q
          simp only [hd] at hl
          obtain ⟨s2, e2, hp⟩ := hl
          simp only [e2, ok_bind]
          refine ⟨_, rfl, ⟨?_, ?_, ?_, ?_⟩, ?_, ?_⟩
          · intro r hr
            show s2.regs r = s.regs r
            rw [hp.regs, upd_ne _ _ (by omega)]; exact upd_ne _ _ (by omega)
          · intro t _; rfl
          · intro b hb hne
            show s2.mem b = s.mem b
            rw [hp.other b (by simp [State.newStream, State.setReg]; omega) (by omega)]
            simp only [State.newStream, State.setReg]
            rw [upd_ne _ _ (by omega), upd_ne _ _ hne]
          · have := hp.nb
            simp only [State.newStream, State.setReg] at this
            show s.nb ≤ s2.nb; omega
          · show s2.mem base = [] ++ hid
            rw [hp.other base (by simp [State.newStream, State.setReg]; omega) (by omega)]
            simp only [State.newStream, State.setReg]
            rw [upd_ne _ _ (by omega)]; simp
          · show s2.regs (c + 1) = _
            rw [hp.regs]; simp

/-! ## Transforms, length limits, conditions -/

/-- A block that works on a base reader of its own. -/
theorem Sim.nest {α X p q s s1 c c' base base1 hid O rest} {res : Res (α × Bytes)}
    {Q : α → State → Prop} (hf : Frame c base s s1) (hlt : base < s.nb) (hnb : s.nb ≤ base1)
    (hlt1 : base < s1.nb) (hm : s1.mem base = rest ++ hid) (hc : c ≤ c')
    (e : exec X p s = exec X q s1) (h : Sim X q s1 c' base1 [] O res Q) :
    Sim X p s c base hid O (res >>= fun x => .ok (x.1, rest)) Q := by
  cases res with
  | error f => exact e.trans h
  | ok x =>
    obtain ⟨s', e', hf', hm', hq⟩ := h
    refine ⟨s', e.trans e', ⟨?_, ?_, ?_, ?_⟩, ?_, hq⟩
    · intro r hr; exact (hf'.regs r (by omega)).trans (hf.regs r hr)
    · intro t ht; exact (hf'.strm t (ht.mono hc)).trans (hf.strm t ht)
    · intro b hb hne
      exact (hf'.mem b (Nat.lt_of_lt_of_le hb hf.nb) (by omega)).trans (hf.mem b hb hne)
    · exact Nat.le_trans hf.nb hf'.nb
    · rw [hf'.mem base hlt1 (by omega), hm]

/-- The state after a transform was put around `src`. -/
def State.wrapped (s : State) (base : Nat) (hid : Bytes) (new : Nat) (p : Bytes × Bytes) : State :=
  ({ s with mem := upd s.mem base (p.2 ++ hid) } : State).newStream (.stream new) p.1

theorem Strm.wrap {X s src c base vis hid} (h : Strm s src c base vis hid) (new : Nat) (xf : String)
    (args : List Val) :
    s.wrapStream X src new xf args = (X.xform xf args vis).map (s.wrapped base hid new) := by
  simp only [State.wrapStream, h.onStream]
  cases X.xform xf args vis <;> rfl

theorem Strm.wrapped {s src c base vis hid} (h : Strm s src c base vis hid) {new : Nat}
    (hn : c ≤ new) (p : Bytes × Bytes) :
    Strm (s.wrapped base hid new p) (.stream new) (new + 1) s.nb p.1 [] ∧
    Frame c base s (s.wrapped base hid new p) ∧
    (s.wrapped base hid new p).mem base = p.2 ++ hid ∧
    base < (s.wrapped base hid new p).nb ∧
    (s.wrapped base hid new p).regs = s.regs := by
  have hlt := h.lt
  refine ⟨⟨?_, ?_, ?_, ?_⟩, ⟨fun _ _ => rfl, ?_, ?_, ?_⟩, ?_, ?_, rfl⟩
  · simp [State.wrapped, State.newStream]
  · simp [State.wrapped, State.newStream]
  · simp [State.wrapped, State.newStream]
  · intro r e; cases e; omega
  · intro t ht
    simp only [State.wrapped, State.newStream]
    refine upd_ne _ _ ?_
    intro e; have := ht new e; omega
  · intro b hb hne
    simp only [State.wrapped, State.newStream]
    rw [upd_ne _ _ (by omega), upd_ne _ _ hne]
  · simp [State.wrapped, State.newStream]
  · simp only [State.wrapped, State.newStream]
    rw [upd_ne _ _ (by omega)]; simp
  · simp [State.wrapped, State.newStream]; omega

/-- Transforms, in continuation style: `q` is what comes after them. -/
theorem sim_xforms (X : Ext) {m env α} {q : Prog} {k : Bytes → Res (α × Bytes)}
    {O : α → State → Out} {Q : α → State → Prop} (xs : List XformUse) :
    ∀ {c s src base vis hid}, Inv m c env s → Strm s src c base vis hid →
    c ≤ (genXforms m src c xs).1 ∧
    ((∀ s1 base1 vis1 hid1, Inv m (genXforms m src c xs).1 env s1 →
        Strm s1 (genXforms m src c xs).2.2 (genXforms m src c xs).1 base1 vis1 hid1 →
        (∀ r, r < c ∨ (genXforms m src c xs).1 ≤ r → s1.regs r = s.regs r) →
        Sim X q s1 (genXforms m src c xs).1 base1 hid1 O (k vis1) Q) →
      Sim X ((genXforms m src c xs).2.1 ++ q) s c base hid O (decXforms X env xs vis k) Q) := by
  induction xs with
  | nil =>
    intro c s src base vis hid hi hs
    exact ⟨Nat.le_refl _, fun h => h s base vis hid hi hs (fun _ _ => rfl)⟩
  | cons x xs ih =>
    intro c s src base vis hid hi hs
    cases hxc : x.cond with
    | none =>
      have ha := sim_args (X := X) x.args hi hs
      -- the counter after the arguments
      generalize hg : genArgs m c x.args = g at ha
      obtain ⟨c1, p, rs⟩ := g
      obtain ⟨hc1, hA⟩ := ha
      simp only at hc1 hA
      have hdum := (ih (c := c1 + 1) (s := (s.wrapped base hid c1 ([], []))) (src := .stream c1)
        (base := s.nb) (vis := []) (hid := [])
        ((hi.mono (by omega : c ≤ c1 + 1)).of_regs (fun _ _ => rfl))
        (hs.wrapped hc1 ([], [])).1).1
      simp only [genXforms, hxc, hg]
      refine ⟨by omega, ?_⟩
      intro hk
      simp only [append_assoc]
      have hb := Sim.bind (c' := c) (O := O) (Q' := Q)
        (q := Prog.op (.wrap src c1 x.name rs) (genXforms m (.stream c1) (c1 + 1) xs).2.1 ++ q)
        (k := fun p => do
          let d ← X.xform x.name p.1 vis
          let a ← decXforms X env xs d.1 k
          .ok (a.1, d.2)) hA (Nat.le_refl c) (by
          intro vs vis' s' hf hm ⟨hv, hme, hst, hnb, hrg⟩
          have hs' : Strm s' src c base vis hid := hs.step hf (by rw [hme]; exact hs.mem)
          have hi' := hi.frame hf
          have hex : ∀ d, X.xform x.name vs vis = .ok d →
              execOp X s' (.wrap src c1 x.name rs) = .next (s'.wrapped base hid c1 d) := by
            intro d hd
            simp only [execOp, hv, ok_bind, hs'.wrap, hd, Except.map]
          cases hd : X.xform x.name vs vis with
          | error f =>
            simp only [err_bind]
            show exec X (Prog.op (.wrap src c1 x.name rs) _) s' = .fault f
            simp only [exec, execOp, hv, ok_bind, hs'.wrap, hd, Except.map]
          | ok d =>
            simp only [ok_bind]
            obtain ⟨w1, w2, w3, w4, w5⟩ := hs'.wrapped hc1 d
            refine Sim.nest (s1 := s'.wrapped base hid c1 d) (c' := c1 + 1) (base1 := s'.nb)
              (q := (genXforms m (.stream c1) (c1 + 1) xs).2.1 ++ q) w2 hs'.lt
              (Nat.le_refl _) w4 w3 (by omega) ?_ ?_
            · show exec X (Prog.op (.wrap src c1 x.name rs) _) s' = _
              simp only [exec, hex d hd]; rfl
            · refine (ih ((hi'.mono (by omega : c ≤ c1 + 1)).of_regs (fun _ _ => by rw [w5])) w1).2 ?_
              intro s1 base1 vis1 hid1 i1 st1 r1
              refine hk s1 base1 vis1 hid1 i1 st1 ?_
              intro r hr
              rw [r1 r (by omega), w5, hrg r (by omega)])
      refine Sim.of_eq hb ?_
      simp only [decXforms, hxc]
      cases x.args.mapM (ev X env) <;> rfl
    | some e =>
      have ha := fun s1 (h1 : Inv m (c + 1) env s1) (h2 : Strm s1 src (c + 1) base vis hid) =>
        sim_args (X := X) x.args h1 h2
      generalize hg : genArgs m (c + 1) x.args = g at ha
      obtain ⟨c1, p, rs⟩ := g
      have hc1 : c + 1 ≤ c1 := (ha s (hi.mono (by omega)) (hs.mono (by omega))).1
      have hdum := (ih (c := c1 + 1) (s := (s.wrapped base hid c1 ([], []))) (src := .stream c1)
        (base := s.nb) (vis := []) (hid := [])
        ((hi.mono (by omega : c ≤ c1 + 1)).of_regs (fun _ _ => rfl))
        (hs.wrapped (show c ≤ c1 by omega) ([], [])).1).1
      simp only [genXforms, hxc, hg]
      refine ⟨by omega, ?_⟩
      intro hk
      have h1 := sim_eval (X := X) e (r := c) (Nat.le_refl c) hi hs
      have hb := Sim.bind (c' := c) (O := O) (Q' := Q)
        (q := Prog.condWrap c p src c1 x.name rs (genXforms m (.stream c1) (c1 + 1) xs).2.1 ++ q)
        (k := fun v => do
          let b ← v.1.toBool
          if b then do
            let vs ← x.args.mapM (ev X env)
            let d ← X.xform x.name vs vis
            let a ← decXforms X env xs d.1 k
            .ok (a.1, d.2)
          else decXforms X env xs vis k) h1 (Nat.le_refl c) (by
          intro v vis' s' hf hm ⟨hv, hse⟩
          have hme : s'.mem = s.mem := by rw [hse]; rfl
          have hs' : Strm s' src c base vis hid := hs.step hf (by rw [hme]; exact hs.mem)
          have hi' := hi.frame hf
          have hrs : ∀ r, r < c ∨ c1 + 1 ≤ r → s'.regs r = s.regs r := by
            intro r hr; rw [hse]; exact upd_ne _ _ (by omega)
          have hcw : ∀ Z, exec X (Prog.condWrap c p src c1 x.name rs Z) s' =
              match v with
              | .bool true =>
                match exec X p s' with
                | .next s2 =>
                  match (s2.args rs).bind (fun vs => (s'.leave s2).wrapStream X src c1 x.name vs) with
                  | .ok s'' => exec X Z s''
                  | .error f => .fault f
                | o => o
              | .bool false => exec X Z { s' with strm := upd s'.strm (.stream c1) (s'.strm src) }
              | _ => .fault .ill := by
            intro Z
            simp only [exec, hv]
            cases v with
            | bool b => cases b <;> rfl
            | _ => rfl
          have happ : (Prog.condWrap c p src c1 x.name rs (genXforms m (.stream c1) (c1 + 1) xs).2.1 ++ q)
              = Prog.condWrap c p src c1 x.name rs ((genXforms m (.stream c1) (c1 + 1) xs).2.1 ++ q) := rfl
          rw [happ]
          cases v with
          | bool b =>
            cases b with
            | true =>
              simp only [Val.toBool, ok_bind, if_true]
              have hA := (ha s' (hi'.mono (by omega)) (hs'.mono (by omega))).2
              cases hvs : x.args.mapM (ev X env) with
              | error f =>
                simp only [hvs] at hA
                have hA : exec X p s' = .fault f := hA
                simp only [err_bind]
                show exec X _ s' = .fault f
                rw [hcw]; simp only [hA]
              | ok vs =>
                simp only [hvs] at hA
                obtain ⟨s2, e2, hf2, hm2, hv2, hme2, hst2, hnb2, hrg2⟩ := hA
                have hl : s'.leave s2 = s' := by
                  simp only [State.leave, hme2, hnb2]
                simp only [nxt] at e2
                simp only [ok_bind]
                cases hd : X.xform x.name vs vis with
                | error f =>
                  simp only [err_bind]
                  show exec X _ s' = .fault f
                  rw [hcw]
                  simp only [e2, hv2, Except.bind, hl, hs'.wrap, hd, Except.map]
                | ok d =>
                  simp only [ok_bind]
                  obtain ⟨w1, w2, w3, w4, w5⟩ := hs'.wrapped (show c ≤ c1 by omega) d
                  refine Sim.nest (s1 := s'.wrapped base hid c1 d) (c' := c1 + 1) (base1 := s'.nb)
                    (q := (genXforms m (.stream c1) (c1 + 1) xs).2.1 ++ q) w2 hs'.lt
                    (Nat.le_refl _) w4 w3 (by omega) ?_ ?_
                  · rw [hcw]
                    simp only [e2, hv2, Except.bind, hl, hs'.wrap, hd, Except.map]
                  · refine (ih ((hi'.mono (by omega : c ≤ c1 + 1)).of_regs (fun _ _ => by rw [w5])) w1).2 ?_
                    intro s1 base1 vis1 hid1 i1 st1 r1
                    refine hk s1 base1 vis1 hid1 i1 st1 ?_
                    intro r hr
                    rw [r1 r (by omega), w5, hrs r (by omega)]
            | false =>
              simp only [Val.toBool, ok_bind]
              have hst : Strm ({ s' with strm := upd s'.strm (.stream c1) (s'.strm src) } : State)
                  (.stream c1) (c1 + 1) base vis hid :=
                ⟨by simp [hs'.win], hs'.mem, hs'.lt, by intro r e; cases e; omega⟩
              have hinv : Inv m (c1 + 1) env ({ s' with strm := upd s'.strm (.stream c1) (s'.strm src) } : State) :=
                (hi'.mono (by omega : c ≤ c1 + 1)).of_regs (fun _ _ => rfl)
              have h2 := (ih hinv hst).2 (by
                intro s1 base1 vis1 hid1 i1 st1 r1
                refine hk s1 base1 vis1 hid1 i1 st1 ?_
                intro r hr
                rw [r1 r (by omega)]; exact hrs r (by omega))
              unfold Sim at h2 ⊢
              rw [hcw]
              simp only [Bool.false_eq_true, if_false]
              cases hr : decXforms X env xs vis k with
              | error f => simp only [hr] at h2; exact h2
              | ok y =>
                simp only [hr] at h2
                obtain ⟨s3, e3, hf3, hm3, hq3⟩ := h2
                refine ⟨s3, e3, ⟨?_, ?_, ?_, hf3.nb⟩, hm3, hq3⟩
                · intro r hr; exact hf3.regs r (by omega)
                · intro t ht
                  rw [hf3.strm t (ht.mono (by omega))]
                  refine upd_ne _ _ ?_
                  intro e; have := ht c1 e; omega
                · intro b hb hne; exact hf3.mem b hb hne
          | _ =>
            simp only [Val.toBool, err_bind]
            show exec X _ s' = .fault .ill
            rw [hcw])
      refine Sim.of_eq hb ?_
      simp only [decXforms, hxc]
      cases ev X env e <;> rfl

/-- A length limit, in continuation style. -/
theorem sim_constrict (X : Ext) {m env α} {q : Prog} {k : Bytes → Res (α × Bytes)}
    {O : α → State → Out} {Q : α → State → Prop} (len : Option Expr) {c s src base vis hid}
    (hi : Inv m c env s) (hs : Strm s src c base vis hid)
    (hk : ∀ s1 vis1 hid1, Inv m (genConstrict m src len c).1 env s1 →
        Strm s1 (genConstrict m src len c).2.2 (genConstrict m src len c).1 base vis1 hid1 →
        (∀ r, r < c ∨ (genConstrict m src len c).1 ≤ r → s1.regs r = s.regs r) →
        Sim X q s1 (genConstrict m src len c).1 base hid1 O (k vis1) Q) :
    Sim X ((genConstrict m src len c).2.1 ++ q) s c base hid O (decLimited X env len vis k) Q := by
  cases len with
  | none => exact hk s vis hid hi hs (fun _ _ => rfl)
  | some e =>
    simp only [genConstrict] at hk ⊢
    have h1 := sim_eval (X := X) e (r := c) (Nat.le_refl c) hi hs
    have hb := Sim.bind (c' := c) (O := O) (Q' := Q)
      (q := Prog.op (.constrict src (c + 1) c) q)
      (k := fun v => do
        let n ← asUsize v.1
        let a ← k (vis.take n)
        .ok (a.1, a.2 ++ vis.drop n)) h1 (Nat.le_refl c) (by
        intro v vis' s' hf hm ⟨hv, hse⟩
        have hme : s'.mem = s.mem := by rw [hse]; rfl
        have hs' : Strm s' src c base vis hid := hs.step hf (by rw [hme]; exact hs.mem)
        cases hn : asUsize v with
        | error f =>
          simp only [err_bind]
          show exec X _ s' = .fault f
          simp only [exec, execOp, State.reg, hv, optRes, ok_bind, hn, err_bind]
        | ok n =>
          simp only [ok_bind]
          have hex : ∃ s1, execOp X s' (.constrict src (c + 1) c) = .next s1 ∧ s1.regs = s'.regs ∧
              s1.mem = s'.mem ∧ s1.nb = s'.nb ∧
              s1.strm = upd s'.strm (.stream (c + 1)) (some ⟨base, (vis.drop n ++ hid).length⟩) := by
            refine ⟨{ s' with strm := upd s'.strm (.stream (c + 1)) (some ⟨base, (vis.drop n ++ hid).length⟩) },
              ?_, rfl, rfl, rfl, rfl⟩
            have hmax : max hid.length ((s'.mem base).length - n) = (vis.drop n ++ hid).length := by
              rw [hs'.mem]; simp only [List.length_append, List.length_drop]; omega
            simp only [execOp, State.reg, hv, optRes, ok_bind, hn, hs'.win, hmax]
          obtain ⟨s1, e1, er, em, en, es⟩ := hex
          have hi1 : Inv m (c + 2) env s1 :=
            ((hi.frame hf).mono (by omega)).of_regs (fun _ _ => by rw [er])
          have hs1 : Strm s1 (.stream (c + 1)) (c + 2) base (vis.take n) (vis.drop n ++ hid) := by
            refine ⟨by rw [es]; simp, ?_, by rw [en]; exact hs'.lt, by intro r e; cases e; omega⟩
            rw [em, hs'.mem, ← List.append_assoc, List.take_append_drop]
          have h2 := hk s1 _ _ hi1 hs1 (by
            intro r hr; rw [er, hse]; exact upd_ne _ _ (by omega))
          unfold Sim at h2 ⊢
          simp only [exec, e1]
          cases hkr : k (vis.take n) with
          | error f => simp only [hkr] at h2; simp only [err_bind]; exact h2
          | ok y =>
            obtain ⟨a, rest⟩ := y
            simp only [hkr] at h2
            obtain ⟨s3, e3, hf3, hm3, hq3⟩ := h2
            simp only [ok_bind]
            refine ⟨s3, e3, ⟨?_, ?_, ?_, ?_⟩, ?_, hq3⟩
            · intro r hr; rw [hf3.regs r (by omega), er]
            · intro t ht
              rw [hf3.strm t (ht.mono (by omega)), es]
              refine upd_ne _ _ ?_
              intro e; have := ht (c + 1) e; omega
            · intro b hb hne; rw [hf3.mem b (by omega) hne, em]
            · have := hf3.nb; omega
            · rw [hm3]; simp)
    refine Sim.of_eq hb ?_
    simp only [decLimited]
    cases ev X env e <;> rfl

theorem decLimited_map {α β} (X : Ext) (env : Env) (len : Option Expr) (bs : Bytes)
    (k : Bytes → Res (α × Bytes)) (f : α → β) :
    (decLimited X env len bs k >>= fun p => .ok (f p.1, p.2)) =
      decLimited X env len bs (fun b => k b >>= fun p => .ok (f p.1, p.2)) := by
  cases len with
  | none => rfl
  | some e =>
    simp only [decLimited]
    cases ev X env e with
    | error _ => rfl
    | ok v =>
      simp only [ok_bind]
      cases asUsize v with
      | error _ => rfl
      | ok n =>
        simp only [ok_bind]
        cases k (bs.take n) <;> rfl

/-- The decoded registers hold the decoded fields. -/
def Holds (names : List String) (em : List Nat) (vs : List (String × Val)) (s : State) : Prop :=
  vs.map (·.1) = names ∧ em.map s.regs = vs.map fun p => some p.2

theorem somes_frame (regs inner : Nat → Option Val) (rs : List Nat) {r : Nat} (h : r ∉ rs) :
    somes regs inner rs r = regs r := by
  induction rs with
  | nil => rfl
  | cons x xs ih =>
    simp only [List.mem_cons, not_or] at h
    simp only [somes]
    rw [upd_ne _ _ h.1, ih h.2]

theorem somes_mem (regs inner : Nat → Option Val) (rs : List Nat) {r : Nat} (h : r ∈ rs) :
    somes regs inner rs r = (inner r).map fun v => .opt (some v) := by
  induction rs with
  | nil => simp at h
  | cons x xs ih =>
    simp only [somes]
    by_cases e : r = x
    · subst e; simp
    · rw [upd_ne _ _ e]
      exact ih (by simpa [e] using h)

theorem nones_frame (regs : Nat → Option Val) (rs : List Nat) {r : Nat} (h : r ∉ rs) :
    nones regs rs r = regs r := by
  induction rs with
  | nil => rfl
  | cons x xs ih =>
    simp only [List.mem_cons, not_or] at h
    simp only [nones]
    rw [upd_ne _ _ h.1, ih h.2]

theorem nones_mem (regs : Nat → Option Val) (rs : List Nat) {r : Nat} (h : r ∈ rs) :
    nones regs rs r = some (.opt none) := by
  induction rs with
  | nil => simp at h
  | cons x xs ih =>
    simp only [nones]
    by_cases e : r = x
    · subst e; simp
    · rw [upd_ne _ _ e]
      exact ih (by simpa [e] using h)

theorem genCond_le (m : RegMap) (cond : Option Expr) (c : Nat) :
    c ≤ (genCond m cond c).1 := by
  cases cond <;> simp [genCond]

/-- A block under a condition. -/
theorem sim_cond (X : Ext) {m env} {p : Prog} {k : Bytes → Res (List (String × Val) × Bytes)}
    {names : List String} {em : List Nat} (cond : Option Expr) {c s src base vis hid}
    (hi : Inv m c env s) (hs : Strm s src c base vis hid)
    (hem : ∀ r ∈ em, (genCond m cond c).1 ≤ r) (hlen : em.length = names.length)
    (hk : ∀ s1, Inv m (genCond m cond c).1 env s1 → Strm s1 src (genCond m cond c).1 base vis hid →
        Sim X p s1 (genCond m cond c).1 base hid nxt (k vis) (Holds names em)) :
    Sim X ((genCond m cond c).2.1 ++ wrapCond (genCond m cond c).2.2 em p) s c base hid nxt
      (decCond X env cond names vis k) (Holds names em) := by
  cases cond with
  | none => exact hk s hi hs
  | some e =>
    simp only [genCond] at hem hk
    have h1 := sim_eval (X := X) e (r := c) (Nat.le_refl c) hi hs
    have hb := Sim.bind (c' := c) (O := nxt) (Q' := Holds names em)
      (q := Prog.cond em c p .nil)
      (k := fun v => do
        let b ← v.1.toBool
        if b then do
          let y ← k vis
          .ok (y.1.map fun p => (p.1, .opt (some p.2)), y.2)
        else .ok (names.map fun n => (n, .opt none), vis)) h1 (Nat.le_refl c) (by
        intro v vis' s' hf hm ⟨hv, hse⟩
        have hme : s'.mem = s.mem := by rw [hse]; rfl
        have hs' : Strm s' src c base vis hid := hs.step hf (by rw [hme]; exact hs.mem)
        cases v with
        | bool b =>
          cases b with
          | true =>
            simp only [Val.toBool, ok_bind, if_true]
            have h2 := hk s' ((hi.frame hf).mono (by omega)) (hs'.mono (by omega))
            unfold Sim at h2 ⊢
            simp only [exec, hv]
            cases hkr : k vis with
            | error f => simp only [hkr] at h2; simp only [h2, err_bind]
            | ok y =>
              obtain ⟨vs, rest⟩ := y
              simp only [hkr] at h2
              obtain ⟨s2, e2, hf2, hm2, hn2, hr2⟩ := h2
              simp only [nxt] at e2
              simp only [e2, ok_bind]
              refine ⟨_, rfl, ⟨?_, ?_, ?_, hf2.nb⟩, hm2, ?_, ?_⟩
              · intro r hr
                exact somes_frame _ _ _ fun hin => by have := hem r hin; omega
              · intro t ht; rfl
              · intro b hb hne; exact hf2.mem b hb hne
              · rw [List.map_map]; exact hn2
              · have : em.map (somes s'.regs s2.regs em) =
                    (em.map s2.regs).map (Option.map fun v => Val.opt (some v)) := by
                  rw [List.map_map]
                  exact List.map_congr_left fun r hr => somes_mem _ _ _ hr
                show em.map (somes s'.regs s2.regs em) = _
                rw [this, hr2]; simp
          | false =>
            simp only [Val.toBool, ok_bind]
            refine ⟨{ s' with regs := nones s'.regs em }, ?_, ⟨?_, fun _ _ => rfl, fun _ _ _ => rfl, Nat.le_refl _⟩,
              hs'.mem, ?_, ?_⟩
            · simp only [exec, hv]; rfl
            · intro r hr
              exact nones_frame _ _ fun hin => by have := hem r hin; omega
            · rw [List.map_map]; exact List.map_id _
            · have : em.map (nones s'.regs em) = em.map (fun _ => some (Val.opt none)) :=
                List.map_congr_left fun r hr => nones_mem _ _ hr
              show em.map (nones s'.regs em) = _
              rw [this]; simp [List.map_const', hlen, Function.comp_def]
        | _ =>
          simp only [Val.toBool, err_bind]
          show exec X _ s' = .fault .ill
          simp only [exec, hv])
    refine Sim.of_eq hb ?_
    simp only [decCond]
    cases ev X env e <;> rfl

/-! ## Register allocation -/

theorem genArgs_le (m : RegMap) (es : List Expr) : ∀ c, c ≤ (genArgs m c es).1 := by
  induction es with
  | nil => intro c; exact Nat.le_refl _
  | cons e es ih => intro c; have := ih (c + 1); simp only [genArgs]; omega

theorem genLeaf_bounds (m : RegMap) (src : Target) (ty : LTy) : ∀ c,
    c ≤ (genLeaf m src ty c).2.2 ∧ (genLeaf m src ty c).2.2 < (genLeaf m src ty c).1 := by
  induction ty with
  | prim p => intro c; simp [genLeaf]
  | ref t f r a =>
    intro c
    have := genArgs_le m a (c + 1)
    cases f <;> simp [genLeaf] <;> omega
  | array elem len ih =>
    intro c
    have h3 := ih (c + 3)
    have h2 := ih (c + 2)
    cases len with
    | term e => simp only [genLeaf]; omega
    | fixed e => cases h : elem.resolved <;> simp only [genLeaf, h] <;> omega
    | unbounded => cases h : elem.resolved <;> simp only [genLeaf, h] <;> omega

theorem genXforms_le (m : RegMap) (xs : List XformUse) : ∀ src c, c ≤ (genXforms m src c xs).1 := by
  induction xs with
  | nil => intro src c; exact Nat.le_refl _
  | cons x xs ih =>
    intro src c
    cases h : x.cond with
    | none =>
      have h1 := genArgs_le m x.args c
      have h2 := ih (.stream (genArgs m c x.args).1) ((genArgs m c x.args).1 + 1)
      simp only [genXforms, h]; omega
    | some e =>
      have h1 := genArgs_le m x.args (c + 1)
      have h2 := ih (.stream (genArgs m (c + 1) x.args).1) ((genArgs m (c + 1) x.args).1 + 1)
      simp only [genXforms, h]; omega

theorem genConstrict_le (m : RegMap) (src : Target) (len : Option Expr) (c : Nat) :
    c ≤ (genConstrict m src len c).1 := by
  cases len <;> simp [genConstrict]

/-- Names get registers in order. -/
def bindRegs (m : RegMap) (l : List (String × Nat)) : RegMap :=
  l.foldl (fun m p => upd m p.1 (some p.2)) m

theorem bindRegs_append (m : RegMap) (a b : List (String × Nat)) :
    bindRegs m (a ++ b) = bindRegs (bindRegs m a) b := by simp [bindRegs]

/-- What the register allocation of a container looks like. -/
structure Alloc (src : Target) (fs : Fields) (m : RegMap) (c : Nat) : Prop where
  le : c ≤ (genItems src fs m c).1
  map : (genItems src fs m c).2.1 = bindRegs m (fs.names.zip (genItems src fs m c).2.2.2)
  len : (genItems src fs m c).2.2.2.length = fs.names.length
  range : ∀ r ∈ (genItems src fs m c).2.2.2, c ≤ r ∧ r < (genItems src fs m c).1

theorem alloc (fs : Fields) : ∀ src m c, Alloc src fs m c := by
  induction fs with
  | nil => intro src m c; exact ⟨Nat.le_refl _, rfl, rfl, by simp [genItems]⟩
  | pad n e rest ih =>
    intro src m c
    obtain ⟨h1, h2, h3, h4⟩ := ih src m (c + 1)
    refine ⟨by simp only [genItems]; omega, ?_, ?_, ?_⟩
    · simp only [genItems]; exact h2
    · simp only [genItems]; exact h3
    · intro r hr; have := h4 r hr; simp only [genItems]; omega
  | leaf a ty rest ih =>
    intro src m c
    have hc := genCond_le m a.cond c
    have hx := genXforms_le m a.xfs.reverse src (genCond m a.cond c).1
    have hl := genLeaf_bounds m (genXforms m src (genCond m a.cond c).1 a.xfs.reverse).2.2 ty
      (genXforms m src (genCond m a.cond c).1 a.xfs.reverse).1
    generalize hL : genLeaf m (genXforms m src (genCond m a.cond c).1 a.xfs.reverse).2.2 ty
      (genXforms m src (genCond m a.cond c).1 a.xfs.reverse).1 = L at hl
    obtain ⟨c3, p3, r⟩ := L
    simp only at hl
    obtain ⟨h1, h2, h3, h4⟩ := ih src (upd m a.name (some r)) c3
    refine ⟨by simp only [genItems, hL]; omega, ?_, ?_, ?_⟩
    · simp only [genItems, hL]; exact h2
    · simp only [genItems, hL, List.length_cons, h3]; simp [Fields.names, Fields.leaves]
    · intro x hx'
      simp only [genItems, hL, List.mem_cons] at hx' ⊢
      rcases hx' with rfl | hx'
      · omega
      · have := h4 x hx'; omega
  | cont a len items rest ih1 ih2 =>
    intro src m c
    have hc := genCond_le m a.cond c
    have hx := genXforms_le m a.xfs.reverse src (genCond m a.cond c).1
    have hk := genConstrict_le m (genXforms m src (genCond m a.cond c).1 a.xfs.reverse).2.2 len
      (genXforms m src (genCond m a.cond c).1 a.xfs.reverse).1
    generalize hK : genConstrict m (genXforms m src (genCond m a.cond c).1 a.xfs.reverse).2.2 len
      (genXforms m src (genCond m a.cond c).1 a.xfs.reverse).1 = K at hk
    obtain ⟨c3, p3, src''⟩ := K
    simp only at hk
    have hA := ih1 src'' m c3
    obtain ⟨a1, a2, a3, a4⟩ := hA
    generalize hI : genItems src'' items m c3 = I at a1 a2 a3 a4
    obtain ⟨c4, m4, p4, em4⟩ := I
    simp only at a1 a2 a3 a4
    have hB := ih2 src m4 c4
    obtain ⟨b1, b2, b3, b4⟩ := hB
    refine ⟨by simp only [genItems, hK, hI]; omega, ?_, ?_, ?_⟩
    · simp only [genItems, hK, hI]
      have : (Fields.cont a len items rest).names = items.names ++ rest.names := by
        simp [Fields.names, Fields.leaves]
      rw [this, List.zip_append (by omega), bindRegs_append, ← a2]
      exact b2
    · simp only [genItems, hK, hI, List.length_append, a3, b3]; simp [Fields.names, Fields.leaves]
    · intro x hx'
      simp only [genItems, hK, hI, List.mem_append] at hx' ⊢
      rcases hx' with hx' | hx'
      · have := a4 x hx'; omega
      · have := b4 x hx'; omega

/-- The fields just decoded become visible to the following expressions. -/
theorem Inv.bind {c s} (vs : List (String × Val)) : ∀ {m env names em}, Inv m c env s →
    Holds names em vs s → em.length = names.length → (∀ r ∈ em, r < c) →
    Inv (bindRegs m (names.zip em)) c (env.bindAll vs) s := by
  induction vs with
  | nil =>
    intro m env names em hi hh _ _
    obtain ⟨h1, h2⟩ := hh
    simp at h1 h2
    subst h1; subst h2
    exact hi
  | cons v vs ih =>
    intro m env names em hi hh hl hr
    obtain ⟨h1, h2⟩ := hh
    cases names with
    | nil => simp at h1
    | cons n names =>
      cases em with
      | nil => simp at h2
      | cons r em =>
        simp only [List.map_cons, List.cons.injEq] at h1 h2
        obtain ⟨e1, h1⟩ := h1
        obtain ⟨e2, h2⟩ := h2
        have hi' : Inv (upd m n (some r)) c (upd env v.1 (some v.2)) s := by
          refine ⟨?_, ?_⟩
          · intro x
            rw [← e1]
            by_cases e : x = v.1
            · subst e; simp [e2]
            · rw [upd_ne _ _ e, upd_ne _ _ e]; exact hi.agree x
          · intro x y e
            by_cases h : x = n
            · subst h; simp at e; subst e; exact hr r (by simp)
            · rw [upd_ne _ _ h] at e; exact hi.below x y e
        have := ih (names := names) (em := em) hi' ⟨h1, h2⟩ (by simpa using hl) (fun x hx => hr x (by simp [hx]))
        exact this

/-! ## Containers -/

theorem Holds.frame {names em vs s s' c base} (h : Holds names em vs s) (hf : Frame c base s s')
    (hr : ∀ r ∈ em, r < c) : Holds names em vs s' :=
  ⟨h.1, by rw [← h.2]; exact List.map_congr_left fun r hin => hf.regs r (hr r hin)⟩

theorem Holds.append {n1 e1 v1 n2 e2 v2 s} (h1 : Holds n1 e1 v1 s) (h2 : Holds n2 e2 v2 s) :
    Holds (n1 ++ n2) (e1 ++ e2) (v1 ++ v2) s :=
  ⟨by simp [h1.1, h2.1], by simp [h1.2, h2.2]⟩

/-- One field, or the fields of a nested container, followed by the rest. -/
theorem sim_seq {X : Ext} {p q : Prog} {s c c3 base hid n1 e1 n2 e2}
    {r1 : Res (List (String × Val) × Bytes)}
    {k : List (String × Val) → Bytes → Res (List (String × Val) × Bytes)}
    (h1 : Sim X p s c base hid nxt r1 (Holds n1 e1)) (hc : c ≤ c3) (hr : ∀ r ∈ e1, r < c3)
    (hk : ∀ vs vis' s', Frame c base s s' → s'.mem base = vis' ++ hid → Holds n1 e1 vs s' →
      Sim X q s' c3 base hid nxt (k vs vis') (Holds n2 e2)) :
    Sim X (p ++ q) s c base hid nxt
      (r1 >>= fun y => k y.1 y.2 >>= fun z => .ok (y.1 ++ z.1, z.2)) (Holds (n1 ++ n2) (e1 ++ e2)) := by
  refine Sim.bind (c' := c3) h1 hc ?_
  intro vs vis' s' hf hm hh
  have h2 := hk vs vis' s' hf hm hh
  unfold Sim at h2 ⊢
  simp only
  cases hkr : k vs vis' with
  | error f => simp only [hkr] at h2; simp only [err_bind]; exact h2
  | ok z =>
    obtain ⟨ws, rest⟩ := z
    simp only [hkr] at h2
    obtain ⟨s2, x2, hf2, hm2, hh2⟩ := h2
    simp only [ok_bind]
    exact ⟨s2, x2, hf2, hm2, (hh.frame hf2 hr).append hh2⟩

theorem sim_items (X : Ext) (fs : Fields) : ∀ {m env c s src base vis hid},
    Inv m c env s → Strm s src c base vis hid →
    Sim X (genItems src fs m c).2.2.1 s c base hid nxt (decItems X fs env vis)
      (Holds fs.names (genItems src fs m c).2.2.2) := by
  induction fs with
  | nil =>
    intro m env c s src base vis hid hi hs
    exact ⟨s, rfl, Frame.refl _ _ _, hs.mem, rfl, rfl⟩
  | pad n e rest ih =>
    intro m env c s src base vis hid hi hs
    have h1 := sim_eval (X := X) e (r := c) (Nat.le_refl c) hi hs
    have hb := Sim.bind (c' := c) (O := nxt) (Q' := Holds rest.names (genItems src rest m (c + 1)).2.2.2)
      (q := Prog.op (.skip src c) (genItems src rest m (c + 1)).2.2.1)
      (k := fun v => do
        let n ← asUsize v.1
        let y ← skipBytes n vis
        decItems X rest env y.2) h1 (Nat.le_refl c) (by
        intro v vis' s' hf hm ⟨hv, hse⟩
        have hme : s'.mem = s.mem := by rw [hse]; rfl
        have hs' : Strm s' src c base vis hid := hs.step hf (by rw [hme]; exact hs.mem)
        cases hn : asUsize v with
        | error f =>
          simp only [err_bind]
          show exec X _ s' = .fault f
          simp only [exec, execOp, State.reg, hv, optRes, ok_bind, hn, err_bind]
        | ok n =>
          simp only [ok_bind]
          cases hsk : skipBytes n vis with
          | error f =>
            simp only [err_bind]
            show exec X _ s' = .fault f
            simp only [exec, execOp, State.reg, hv, optRes, ok_bind, hn, hs'.onStream, hsk, Except.map,
              err_bind]
          | ok y =>
            simp only [ok_bind]
            have hex : execOp X s' (.skip src c) =
                .next { s' with mem := upd s'.mem base (y.2 ++ hid) } := by
              simp only [execOp, State.reg, hv, optRes, ok_bind, hn, hs'.onStream, hsk, Except.map]
            have hf1 : Frame c base s' { s' with mem := upd s'.mem base (y.2 ++ hid) } :=
              ⟨fun _ _ => rfl, fun _ _ => rfl, fun b _ hne => upd_ne _ _ hne, Nat.le_refl _⟩
            have h2 := ih (((hi.frame hf).frame hf1).mono (show c ≤ c + 1 by omega))
              ((hs'.step hf1 (vis' := y.2) (by simp)).mono (show c ≤ c + 1 by omega))
            unfold Sim at h2 ⊢
            simp only [exec, hex]
            cases hr : decItems X rest env y.2 with
            | error f => simp only [hr] at h2; exact h2
            | ok z =>
              simp only [hr] at h2
              obtain ⟨s2, x2, hf2, hm2, hh2⟩ := h2
              exact ⟨s2, x2, hf1.trans (by omega) hf2, hm2, hh2⟩)
    have hn : (Fields.pad n e rest).names = rest.names := rfl
    rw [hn]
    refine Sim.of_eq hb ?_
    simp only [decItems]
    cases ev X env e <;> rfl
  | leaf a ty rest ih =>
    intro m env c s src base vis hid hi hs
    have hc := genCond_le m a.cond c
    have hx := genXforms_le m a.xfs.reverse src (genCond m a.cond c).1
    have hl := genLeaf_bounds m (genXforms m src (genCond m a.cond c).1 a.xfs.reverse).2.2 ty
      (genXforms m src (genCond m a.cond c).1 a.xfs.reverse).1
    have hn : (Fields.leaf a ty rest).names = [a.name] ++ rest.names := by
      simp [Fields.names, Fields.leaves]
    rw [hn]
    generalize hg : genLeaf m (genXforms m src (genCond m a.cond c).1 a.xfs.reverse).2.2 ty
      (genXforms m src (genCond m a.cond c).1 a.xfs.reverse).1 = L at hl
    obtain ⟨c3, p3, r⟩ := L
    simp only at hl
    have hfield := sim_cond X (p := (genXforms m src (genCond m a.cond c).1 a.xfs.reverse).2.1 ++ p3)
      (names := [a.name]) (em := [r])
      (k := fun b => decXforms X env a.xfs.reverse b fun b' => do
        let (v, r) ← decLeaf X env ty b'
        .ok ([(a.name, v)], r)) a.cond hi hs
      (by intro x hx'; simp at hx'; omega) rfl (by
        intro s1 hi1 hs1
        refine (sim_xforms X a.xfs.reverse hi1 hs1).2 ?_
        intro s2 base2 vis2 hid2 hi2 hs2 _
        have := (sim_leaf X ty hi2 hs2).2
        rw [hg] at this
        unfold Sim at this ⊢
        simp only at this ⊢
        cases hd : decLeaf X env ty vis2 with
        | error f => simp only [hd] at this; exact this
        | ok y =>
          simp only [hd] at this
          obtain ⟨s3, x3, hf3, hm3, hr3⟩ := this
          simp only [ok_bind]
          exact ⟨s3, x3, hf3, hm3, rfl, by simp [hr3]⟩)
    have hseq := sim_seq (c3 := c3) (q := (genItems src rest (upd m a.name (some r)) c3).2.2.1)
      (k := fun vs vis' => decItems X rest (env.bindAll vs) vis')
      (n2 := rest.names) (e2 := (genItems src rest (upd m a.name (some r)) c3).2.2.2)
      hfield (by omega) (by intro x hx'; simp at hx'; omega) (by
        intro vs vis' s' hf hm hh
        refine ih ?_ ((hs.step hf hm).mono (by omega))
        exact Inv.bind vs (names := [a.name]) (em := [r]) ((hi.frame hf).mono (by omega)) hh rfl
          (by intro x hx'; simp at hx'; omega))
    simp only [genItems, hg, decItems]
    exact hseq
  | cont a len items rest ih1 ih2 =>
    intro m env c s src base vis hid hi hs
    have hc := genCond_le m a.cond c
    have hx := genXforms_le m a.xfs.reverse src (genCond m a.cond c).1
    have hk := genConstrict_le m (genXforms m src (genCond m a.cond c).1 a.xfs.reverse).2.2 len
      (genXforms m src (genCond m a.cond c).1 a.xfs.reverse).1
    have hn : (Fields.cont a len items rest).names = items.names ++ rest.names := by
      simp [Fields.names, Fields.leaves]
    rw [hn]
    obtain ⟨a1, a2, a3, a4⟩ := alloc items
      (genConstrict m (genXforms m src (genCond m a.cond c).1 a.xfs.reverse).2.2 len
        (genXforms m src (genCond m a.cond c).1 a.xfs.reverse).1).2.2 m
      (genConstrict m (genXforms m src (genCond m a.cond c).1 a.xfs.reverse).2.2 len
        (genXforms m src (genCond m a.cond c).1 a.xfs.reverse).1).1
    have hfield := sim_cond X
      (p := (genXforms m src (genCond m a.cond c).1 a.xfs.reverse).2.1 ++
        ((genConstrict m (genXforms m src (genCond m a.cond c).1 a.xfs.reverse).2.2 len
          (genXforms m src (genCond m a.cond c).1 a.xfs.reverse).1).2.1 ++
        (genItems (genConstrict m (genXforms m src (genCond m a.cond c).1 a.xfs.reverse).2.2 len
          (genXforms m src (genCond m a.cond c).1 a.xfs.reverse).1).2.2 items m
          (genConstrict m (genXforms m src (genCond m a.cond c).1 a.xfs.reverse).2.2 len
          (genXforms m src (genCond m a.cond c).1 a.xfs.reverse).1).1).2.2.1))
      (names := items.names)
      (k := fun b => decXforms X env a.xfs.reverse b fun b' =>
        decLimited X env len b' (decItems X items env)) a.cond hi hs
      (by intro x hx'; have := a4 x hx'; omega) a3 (by
        intro s1 hi1 hs1
        refine (sim_xforms X a.xfs.reverse hi1 hs1).2 ?_
        intro s2 base2 vis2 hid2 hi2 hs2 _
        refine sim_constrict X len hi2 hs2 ?_
        intro s3 vis3 hid3 hi3 hs3 _
        exact ih1 hi3 hs3)
    generalize hK : genConstrict m (genXforms m src (genCond m a.cond c).1 a.xfs.reverse).2.2 len
      (genXforms m src (genCond m a.cond c).1 a.xfs.reverse).1 = K at *
    obtain ⟨c3, p3, src''⟩ := K
    simp only at a1 a2 a3 a4 hk hfield
    generalize hI : genItems src'' items m c3 = I at *
    obtain ⟨c4, m4, p4, em4⟩ := I
    simp only at a1 a2 a3 a4 hfield
    have hseq := sim_seq (c3 := c4) (q := (genItems src rest m4 c4).2.2.1)
      (k := fun vs vis' => decItems X rest (env.bindAll vs) vis')
      (n2 := rest.names) (e2 := (genItems src rest m4 c4).2.2.2)
      hfield (by omega) (by intro x hx'; have := a4 x hx'; omega) (by
        intro vs vis' s' hf hm hh
        refine ih2 ?_ ((hs.step hf hm).mono (by omega))
        rw [a2]
        exact Inv.bind vs ((hi.frame hf).mono (by omega)) hh a3
          (by intro x hx'; have := a4 x hx'; omega))
    simp only [genItems, hK, hI, decItems, append_assoc]
    simp only [append_assoc] at hseq
    exact hseq

/-! ## Declarations -/

theorem bindRegs_not_mem {l : List (String × Nat)} : ∀ {m : RegMap} {n}, n ∉ l.map (·.1) →
    bindRegs m l n = m n := by
  induction l with
  | nil => intro m n _; rfl
  | cons p l ih =>
    intro m n h
    simp only [List.map_cons, List.mem_cons, not_or] at h
    show bindRegs (upd m p.1 (some p.2)) l n = m n
    rw [ih h.2, upd_ne _ _ h.1]

theorem namedRegs_bind {names : List String} : ∀ {em : List Nat} {m : RegMap}, names.Nodup →
    em.length = names.length → namedRegs (bindRegs m (names.zip em)) names = names.zip em := by
  induction names with
  | nil => intro em m _ _; rfl
  | cons n names ih =>
    intro em m hd hl
    cases em with
    | nil => simp at hl
    | cons r em =>
      simp only [List.nodup_cons] at hd
      have hrec := ih (em := em) (m := upd m n (some r)) hd.2 (by simpa using hl)
      have hb : bindRegs m ((n :: names).zip (r :: em)) = bindRegs (upd m n (some r)) (names.zip em) := rfl
      have hz : (names.zip em).map (·.1) = names := by
        apply List.map_fst_zip; simp at hl; omega
      have hn : bindRegs (upd m n (some r)) (names.zip em) n = some r := by
        rw [bindRegs_not_mem (by rw [hz]; exact hd.1)]; simp
      rw [hb]
      simp only [namedRegs] at hrec ⊢
      rw [List.filterMap_cons, hn]
      simp only [Option.map_some, hrec]
      rfl

theorem named_zip {s : State} : ∀ {names : List String} {em : List Nat} {vs : List (String × Val)},
    Holds names em vs s → s.named (names.zip em) = .ok vs := by
  intro names em vs
  induction vs generalizing names em with
  | nil =>
    intro ⟨h1, h2⟩
    simp at h1 h2; subst h1; subst h2; rfl
  | cons v vs ih =>
    intro ⟨h1, h2⟩
    cases names with
    | nil => simp at h1
    | cons n names =>
      cases em with
      | nil => simp at h2
      | cons r em =>
        simp only [List.map_cons, List.cons.injEq] at h1 h2
        have hrec := ih ⟨h1.2, h2.2⟩
        simp only [State.named] at hrec
        have hr : s.reg r = .ok v.2 := by simp [State.reg, h2.1, optRes]
        simp only [State.named, List.zip_cons_cons, List.mapM_cons, hr, hrec, ← h1.1]
        rfl

def retO : Val → State → Out := fun v s => .ret v s

/-- Building a value and returning it. -/
theorem sim_construct {X : Ext} {ctor : Construct} {v s c base hid vis' r} (hr : c ≤ r)
    (hb : s.build ctor = .ok v) (hm : s.mem base = vis' ++ hid) :
    Sim X (.op (.construct r ctor) (.one (.ret r))) s c base hid retO (.ok (v, vis')) (fun _ _ => True) := by
  refine ⟨s.setReg r v, ?_, Frame.setReg hr, hm, trivial⟩
  simp [exec, execOp, hb, ok_bind, Prog.one, State.reg, State.setReg, optRes, retO]

/-- The `return` after the arms. -/
def armsTail : Option Nat → Prog
  | some r => .one (.ret r)
  | none => .nil

theorem sim_arm {X : Ext} {m : RegMap} {c s src base vis hid} (tyName : String) (arm : Arm)
    (hnd : ∀ len items, arm.body = .cont len items → items.names.Nodup)
    (hi : Inv m c Env.empty s) (hs : Strm s src c base vis hid) {x g}
    (hX : genXforms m src c arm.attr.xfs.reverse = x) (hG : genArm tyName x.2.2 arm m x.1 = g) :
    c ≤ g.1 ∧ (∀ n r, g.2.1 n = some r → m n = some r ∨ (c ≤ r ∧ r < g.1)) ∧
    Sim X (x.2.1 ++ (g.2.2.1 ++ .op (.construct g.1 g.2.2.2) (.one (.ret g.1)))) s c base hid retO
      (decArm X tyName arm vis) (fun _ _ => True) := by
  have hx := genXforms_le m arm.attr.xfs.reverse src c
  rw [hX] at hx
  have hsx := fun (q : Prog) (k : Bytes → Res (Val × Bytes)) =>
    (sim_xforms X (q := q) (k := k) (O := retO) (Q := fun _ _ => True) arm.attr.xfs.reverse hi hs).2
  rw [hX] at hsx
  cases hbody : arm.body with
  | leaf ty =>
    have hl := genLeaf_bounds m x.2.2 ty x.1
    simp only [genArm, hbody] at hG
    subst hG
    refine ⟨by simp only; omega, fun n r e => Or.inl e, ?_⟩
    simp only [decArm, hbody]
    refine hsx _ _ ?_
    intro s1 base1 vis1 hid1 hi1 hs1 _
    refine Sim.bind (c' := x.1)
      (k := fun y => .ok (Val.variant tyName arm.attr.name y.1, y.2)) (sim_leaf X ty hi1 hs1).2
      (Nat.le_refl _) ?_
    intro v vis' s' hf hm hv
    refine sim_construct (by omega) ?_ hm
    simp [State.build, State.reg, hv, optRes, ok_bind]
  | cont len items =>
    have hk := genConstrict_le m x.2.2 len x.1
    obtain ⟨a1, a2, a3, a4⟩ := alloc items (genConstrict m x.2.2 len x.1).2.2 m
      (genConstrict m x.2.2 len x.1).1
    have hnd' := hnd len items hbody
    simp only [genArm, hbody] at hG
    subst hG
    refine ⟨Nat.le_trans hx (Nat.le_trans hk a1), ?_, ?_⟩
    · intro n r e
      simp only at e
      rw [a2] at e
      have key : ∀ (l : List (String × Nat)) (m : RegMap), bindRegs m l n = some r →
          m n = some r ∨ r ∈ l.map (·.2) := by
        intro l
        induction l with
        | nil => intro m e; exact Or.inl e
        | cons p l ih =>
          intro m e
          rcases ih (upd m p.1 (some p.2)) e with h | h
          · by_cases hp : n = p.1
            · subst hp; simp at h; right; simp [h]
            · rw [upd_ne _ _ hp] at h; exact Or.inl h
          · right; simp only [List.map_cons, List.mem_cons]; exact Or.inr h
      rcases key _ _ e with h | h
      · exact Or.inl h
      · right
        rw [List.map_snd_zip (by omega)] at h
        exact ⟨Nat.le_trans hx (Nat.le_trans hk (a4 r h).1), (a4 r h).2⟩
    · simp only [decArm, hbody, append_assoc]
      refine hsx _ _ ?_
      intro s1 base1 vis1 hid1 hi1 hs1 _
      have e := decLimited_map X Env.empty len vis1 (decItems X items Env.empty)
        (Val.variantS tyName arm.attr.name)
      refine Sim.of_eq ?_ e.symm
      refine sim_constrict X len hi1 hs1 ?_
      intro s2 vis2 hid2 hi2 hs2 _
      refine Sim.bind (c' := (genConstrict m x.2.2 len x.1).1)
        (k := fun y => .ok (Val.variantS tyName arm.attr.name y.1, y.2))
        (sim_items X items hi2 hs2) (Nat.le_refl _) ?_
      intro vs vis' s' hf hm hh
      refine sim_construct (by omega) ?_ hm
      rw [a2, namedRegs_bind hnd' a3]
      simp [State.build, named_zip hh, ok_bind]

theorem sim_arms {X : Ext} (tyName : String) (arms : List Arm)
    (hnd : ∀ arm ∈ arms, ∀ len items, arm.body = .cont len items → items.names.Nodup) :
    ∀ {m : RegMap} {c s src base vis hid}, Inv m c Env.empty s → (∀ r, c ≤ r → s.regs r = none) →
    Strm s src c base vis hid →
    Sim X ((genArms tyName src arms m c).2.1 ++ armsTail (genArms tyName src arms m c).2.2) s c base hid
      retO (decArms X tyName arms vis) (fun _ _ => True) := by
  induction arms with
  | nil =>
    intro m c s src base vis hid hi hfree hs
    rfl
  | cons arm arms ih =>
    intro m c s src base vis hid hi hfree hs
    have ha := fun (c1 : Nat) (s1 : State) (h1 : Inv m c1 Env.empty s1)
      (h2 : Strm s1 src c1 base vis hid) =>
      @sim_arm X m c1 s1 src base vis hid tyName arm (hnd arm (by simp)) h1 h2
    cases hcond : arm.attr.cond with
    | none =>
      obtain ⟨_, _, h4⟩ := ha c s hi hs rfl rfl
      simp only [genArms, hcond, genCond, decArms]
      simp only [nil_append, append_assoc, armsTail, one_append]
      exact h4
    | some e =>
      have h1 := sim_eval (X := X) e (r := c) (Nat.le_refl c) hi hs
      simp only [genArms, hcond, genCond, decArms]
      generalize hX : genXforms m src (c + 1) arm.attr.xfs.reverse = x
      generalize hG : genArm tyName x.2.2 arm m x.1 = g
      have ha := fun s1 h1 h2 => ha (c + 1) s1 h1 h2 hX hG
      simp only [append_assoc]
      have hbind := Sim.bind (c' := c) (O := retO) (Q' := fun _ _ => True)
        (q := Prog.condPred c (x.2.1 ++
            (g.2.2.1 ++ (Prog.one (.construct g.1 g.2.2.2) ++ Prog.one (.ret g.1))))
          ((genArms tyName src arms g.2.1 (g.1 + 1)).2.1 ++
            armsTail (genArms tyName src arms g.2.1 (g.1 + 1)).2.2))
        (k := fun v => do
          let b ← v.1.toBool
          if b then decArm X tyName arm vis else decArms X tyName arms vis) h1 (Nat.le_refl c) (by
          intro v vis' s' hf hm ⟨hv, hse⟩
          have hme : s'.mem = s.mem := by rw [hse]; rfl
          have hs' : Strm s' src c base vis hid := hs.step hf (by rw [hme]; exact hs.mem)
          have hi' := hi.frame hf
          obtain ⟨l1, l2, l4⟩ := ha s' (hi'.mono (by omega)) (hs'.mono (by omega))
          cases v with
          | bool b =>
            cases b with
            | true =>
              simp only [Val.toBool, ok_bind, if_true]
              unfold Sim at l4 ⊢
              simp only [exec, hv, one_append]
              cases hd : decArm X tyName arm vis with
              | error f => simp only [hd] at l4; simp only [l4]
              | ok y =>
                simp only [hd] at l4
                obtain ⟨s2, e2, hf2, hm2, _⟩ := l4
                simp only [e2, retO]
                exact ⟨s2, rfl, hf2.mono (by omega), hm2, trivial⟩
            | false =>
              simp only [Val.toBool, ok_bind]
              have hfree' : ∀ r, c + 1 ≤ r → s'.regs r = none := by
                intro r hr; rw [hse]; simp only [State.setReg]
                rw [upd_ne _ _ (by omega)]; exact hfree r (by omega)
              have hi3 : Inv g.2.1 (g.1 + 1) Env.empty s' := by
                refine ⟨?_, ?_⟩
                · intro n
                  cases e : g.2.1 n with
                  | none => rfl
                  | some r =>
                    rcases l2 n r e with h | h
                    · have := hi'.agree n; rw [h] at this; exact this
                    · exact hfree' r h.1
                · intro n r e
                  rcases l2 n r e with h | h
                  · have := hi.below n r h; omega
                  · omega
              have h2 := ih (fun a h => hnd a (by simp [h])) hi3 (fun r hr => hfree' r (by omega))
                (hs'.mono (by omega))
              have h2 := h2.weaken (show c ≤ g.1 + 1 by omega) (Q' := fun _ _ => True) (fun _ _ _ _ => trivial)
              unfold Sim at h2 ⊢
              simp only [exec, hv]
              exact h2
          | _ =>
            simp only [Val.toBool, err_bind]
            show exec X _ s' = .fault .ill
            simp only [exec, hv])
      refine Sim.of_eq hbind ?_
      cases ev X Env.empty e <;> rfl

/-- Field names do not repeat: rustc rejects the generated struct otherwise. -/
def _root_.Verif.Decl.FieldsNodup (d : Decl) : Prop :=
  match d.body with
  | .struct _ items => items.names.Nodup
  | .tagged _ arms => ∀ arm ∈ arms, ∀ len items, arm.body = .cont len items → items.names.Nodup
  | _ => True

theorem sim_decl (X : Ext) (d : Decl) (hnd : d.FieldsNodup) (bs : Bytes) :
    Sim X (genDecl d) (initState bs) 0 0 [] retO (decDecl X d bs) (fun _ _ => True) := by
  have hi : Inv (fun _ => none) 0 Env.empty (initState bs) := ⟨fun _ => rfl, by simp⟩
  have hs : Strm (initState bs) .direct 0 0 bs [] :=
    ⟨by simp [initState], by simp [initState], by simp [initState], by intro r e; cases e⟩
  cases hb : d.body with
  | leaf cond ty =>
    have hc := genCond_le (fun _ => none) cond 0
    have hx := genXforms_le (fun _ => none) d.xfs.reverse .direct (genCond (fun _ => none) cond 0).1
    have hl := genLeaf_bounds (fun _ => none)
      (genXforms (fun _ => none) .direct (genCond (fun _ => none) cond 0).1 d.xfs.reverse).2.2 ty
      (genXforms (fun _ => none) .direct (genCond (fun _ => none) cond 0).1 d.xfs.reverse).1
    generalize hg : genLeaf (fun _ => none)
      (genXforms (fun _ => none) .direct (genCond (fun _ => none) cond 0).1 d.xfs.reverse).2.2 ty
      (genXforms (fun _ => none) .direct (genCond (fun _ => none) cond 0).1 d.xfs.reverse).1 = L at hl
    obtain ⟨c3, p3, r⟩ := L
    simp only at hl
    have hfield := sim_cond X
      (p := (genXforms (fun _ => none) .direct (genCond (fun _ => none) cond 0).1 d.xfs.reverse).2.1 ++ p3)
      (names := [d.name]) (em := [r])
      (k := fun b => decXforms X Env.empty d.xfs.reverse b fun b' => do
        let (v, r) ← decLeaf X Env.empty ty b'
        .ok ([(d.name, v)], r)) cond hi hs
      (by intro x hx'; simp at hx'; omega) rfl (by
        intro s1 hi1 hs1
        refine (sim_xforms X d.xfs.reverse hi1 hs1).2 ?_
        intro s2 base2 vis2 hid2 hi2 hs2 _
        have := (sim_leaf X ty hi2 hs2).2
        rw [hg] at this
        unfold Sim at this ⊢
        simp only at this ⊢
        cases hd : decLeaf X Env.empty ty vis2 with
        | error f => simp only [hd] at this; exact this
        | ok y =>
          simp only [hd] at this
          obtain ⟨s3, x3, hf3, hm3, hr3⟩ := this
          simp only [ok_bind]
          exact ⟨s3, x3, hf3, hm3, rfl, by simp [hr3]⟩)
    simp only [genDecl, hb, hg, decDecl]
    refine Sim.bind (c' := 0) hfield (Nat.le_refl _) ?_
    intro vs vis' s' hf hm ⟨h1, h2⟩
    match vs, h1, h2 with
    | [(n, v)], h1, h2 =>
      refine sim_construct (by omega) ?_ hm
      simp at h2
      simp [State.build, State.reg, h2, optRes, ok_bind]
    | [], h1, h2 => simp at h1
    | _ :: _ :: _, h1, h2 => simp at h1
  | repr t =>
    simp only [genDecl, hb, decDecl]
    refine (sim_xforms X d.xfs.reverse hi hs).2 ?_
    intro s1 base1 vis1 hid1 hi1 hs1 _
    have h1 := sim_decInto (X := X) (i := .repr t (genXforms (fun _ => none) .direct 0 d.xfs.reverse).1
        (genXforms (fun _ => none) .direct 0 d.xfs.reverse).2.2) (decRepr t) hs1 (Nat.le_refl _) rfl
    rw [← one_append]
    have h2 := Sim.bind (c' := (genXforms (fun _ => none) .direct 0 d.xfs.reverse).1) (O := retO)
      (k := fun y => .ok y) (Q' := fun _ _ => True)
      (q := .one (.ret (genXforms (fun _ => none) .direct 0 d.xfs.reverse).1)) h1 (Nat.le_refl _) (by
      intro v vis' s' hf hm hv
      refine ⟨s', ?_, Frame.refl _ _ _, hm, trivial⟩
      simp only [Prog.one, exec, execOp, State.reg, hv, optRes]; rfl)
    refine Sim.of_eq h2 ?_
    cases decRepr t vis1 <;> rfl
  | struct len items =>
    have hnd' : items.names.Nodup := by simpa [Decl.FieldsNodup, hb] using hnd
    simp only [genDecl, hb, decDecl, append_assoc]
    refine (sim_xforms X d.xfs.reverse hi hs).2 ?_
    intro s1 base1 vis1 hid1 hi1 hs1 _
    have e := decLimited_map X Env.empty len vis1 (decItems X items Env.empty) (Val.struct d.name)
    refine Sim.of_eq ?_ e.symm
    refine sim_constrict X len hi1 hs1 ?_
    intro s2 vis2 hid2 hi2 hs2 _
    obtain ⟨a1, a2, a3, a4⟩ := alloc items
      (genConstrict (fun _ => none) (genXforms (fun _ => none) .direct 0 d.xfs.reverse).2.2 len
        (genXforms (fun _ => none) .direct 0 d.xfs.reverse).1).2.2 (fun _ => none)
      (genConstrict (fun _ => none) (genXforms (fun _ => none) .direct 0 d.xfs.reverse).2.2 len
        (genXforms (fun _ => none) .direct 0 d.xfs.reverse).1).1
    refine Sim.bind (c' := (genConstrict (fun _ => none)
        (genXforms (fun _ => none) .direct 0 d.xfs.reverse).2.2 len
        (genXforms (fun _ => none) .direct 0 d.xfs.reverse).1).1)
      (k := fun y => .ok (Val.struct d.name y.1, y.2))
      (sim_items X items hi2 hs2) (Nat.le_refl _) ?_
    intro vs vis' s' hf hm hh
    refine sim_construct (by omega) ?_ hm
    rw [a2, namedRegs_bind hnd' a3]
    simp [State.build, named_zip hh, ok_bind]
  | tagged len arms =>
    have hnd' : ∀ arm ∈ arms, ∀ len items, arm.body = .cont len items → items.names.Nodup := by
      simpa [Decl.FieldsNodup, hb] using hnd
    simp only [genDecl, hb, decDecl, append_assoc]
    have hx := genXforms_le (fun _ => none) d.xfs.reverse .direct 0
    refine (sim_xforms X d.xfs.reverse hi hs).2 ?_
    intro s1 base1 vis1 hid1 hi1 hs1 hr1
    refine sim_constrict X len hi1 hs1 ?_
    intro s2 vis2 hid2 hi2 hs2 hr2
    have hk := genConstrict_le (fun _ => none) (genXforms (fun _ => none) .direct 0 d.xfs.reverse).2.2 len
        (genXforms (fun _ => none) .direct 0 d.xfs.reverse).1
    exact sim_arms d.name arms hnd' hi2 (by
      intro r hr
      rw [hr2 r (Or.inr hr), hr1 r (Or.inr (Nat.le_trans hk hr))]; rfl) hs2

/-- One declaration: the generated function computes the specification. -/
theorem runProg_genDecl (X : Ext) (d : Decl) (hnd : d.FieldsNodup) (bs : Bytes) :
    runProg X (genDecl d) bs = decDecl X d bs := by
  have h := sim_decl X d hnd bs
  unfold Sim at h
  unfold runProg
  cases hd : decDecl X d bs with
  | error f => simp only [hd] at h; simp only [h]
  | ok y =>
    obtain ⟨v, rest⟩ := y
    simp only [hd] at h
    obtain ⟨s', e, _, hm, _⟩ := h
    simp only [e, retO, hm, List.append_nil]

theorem _root_.Verif.Schema.find_mem {sch : Schema} {n : String} {d : Decl} (h : sch.find n = some d) : d ∈ sch :=
  List.mem_of_find?_eq_some h

/-- A whole schema: see `Verif.Props.decode_refines`. -/
theorem runDecode_eq (sch : Schema) (L : Lib) (hnd : ∀ d ∈ sch, d.FieldsNodup) (fuel : Nat) :
    runDecode sch L fuel = specDecode sch L fuel := by
  induction fuel with
  | zero => rfl
  | succ n ih =>
    funext name args bs
    simp only [runDecode, specDecode] at ih ⊢
    unfold callDecl
    cases hf : sch.find name with
    | none => rfl
    | some d =>
      simp only
      by_cases hl : d.params.length ≠ args.length
      · rw [if_pos hl, if_pos hl]
      · rw [if_neg hl, if_neg hl, runProg_genDecl _ d (hnd d (Schema.find_mem hf)), ih]

end Verif.Dec
