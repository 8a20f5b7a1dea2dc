import Verif.EncodeSpec
import Verif.ExprLemmas
/-!
# The generated encoders compute the specified function

Simulation between `Enc.exec` on the generated instructions and `Enc.encDecl`.
-/
namespace Verif.Enc

/-! ## Instruction lists -/

@[simp] theorem Prog.nil_append (q : Prog) : Prog.nil ++ q = q := rfl
@[simp] theorem Prog.op_append (i : Op) (r q : Prog) : Prog.op i r ++ q = .op i (r ++ q) := rfl
@[simp] theorem Prog.loop_append (x l i r q) : Prog.loop x l i r ++ q = .loop x l i (r ++ q) := rfl
@[simp] theorem Prog.cond_append (c i r q) : Prog.cond c i r ++ q = .cond c i (r ++ q) := rfl
@[simp] theorem Prog.condWrap_append (c p u n o x a r q) :
    Prog.condWrap c p u n o x a r ++ q = .condWrap c p u n o x a (r ++ q) := rfl
@[simp] theorem Prog.block_append (i r q) : Prog.block i r ++ q = .block i (r ++ q) := rfl
theorem Prog.one_def (i : Op) : Prog.one i = .op i .nil := rfl
@[simp] theorem Prog.one_append (i : Op) (q : Prog) : Prog.one i ++ q = .op i q := rfl

@[simp] theorem Prog.append_nil (p : Prog) : p ++ Prog.nil = p := by
  induction p with
  | nil => rfl
  | op i r ih => simp [ih]
  | loop x l i r _ ih => simp [ih]
  | cond c i r _ ih => simp [ih]
  | condWrap c p u n o x a r _ ih => simp [ih]
  | block i r _ ih => simp [ih]

theorem Prog.append_assoc (p q r : Prog) : p ++ q ++ r = p ++ (q ++ r) := by
  induction p with
  | nil => rfl
  | op i _ ih => simp [ih]
  | loop x l i _ _ ih => simp [ih]
  | cond c i _ _ ih => simp [ih]
  | condWrap c p u n o x a _ _ ih => simp [ih]
  | block i _ _ ih => simp [ih]

theorem refsAfter_append (p q : Prog) (m : Refs) : refsAfter (p ++ q) m = refsAfter q (refsAfter p m) := by
  induction p generalizing m with
  | nil => rfl
  | op i r ih => cases i <;> simp [refsAfter, ih]
  | loop x l i r _ ih => simp [refsAfter, ih]
  | cond c i r _ ih => simp [refsAfter, ih]
  | condWrap c p u n o x a r _ ih => simp [refsAfter, ih]
  | block i r _ ih => simp [refsAfter, ih]

/-- Continues after a block of statements. -/
def Out.andThen (o : Out) (k : State → Out) : Out :=
  match o with
  | .next s => k s
  | o => o

theorem exec_append (X : Ext) (p q : Prog) (m : Refs) (s : State) :
    exec X m (p ++ q) s = (exec X m p s).andThen (exec X (refsAfter p m) q) := by
  induction p generalizing m s with
  | nil => rfl
  | op i r ih =>
    cases i
    case brk => rfl
    case setRef n x => simp [exec, refsAfter, ih]
    all_goals
      simp only [Prog.op_append, exec, refsAfter]
      split
      · rw [ih]
      · rfl
  | loop x l i r _ ih =>
    simp only [Prog.loop_append, exec, refsAfter]
    split
    · split
      · rw [ih]
      · rename_i o h
        cases ho : loopN (exec X m i) x 0 _ s <;> simp_all [Out.andThen]
    · rfl
  | cond c i r _ ih =>
    simp only [Prog.cond_append, exec, refsAfter]
    split
    · split
      · rw [ih]
      · rename_i o h
        cases ho : exec X m i s <;> simp_all [Out.andThen]
    · rw [ih]
    · rfl
  | condWrap c p u n o x a r _ ih =>
    simp only [Prog.condWrap_append, exec, refsAfter]
    split
    · split
      · split
        · rw [ih]
        · rfl
      · rename_i o h
        cases ho : exec X m p s <;> simp_all [Out.andThen]
    · rw [ih]
    · rfl
  | block i r _ ih =>
    simp only [Prog.block_append, exec, refsAfter]
    split
    · rw [ih]
    · rw [ih]
    · rename_i o h1 h2
      cases ho : exec X m i s <;> simp_all [Out.andThen]

/-! ## States -/

/-- The sink or writer variable was declared before register `c`. -/
def Target.lt (c : Nat) : Target → Prop
  | .direct => True
  | .buf r => r < c
  | .stream r => r < c

theorem Target.lt_mono {c c' : Nat} {t : Target} (h : t.lt c) (hc : c ≤ c') : t.lt c' := by
  cases t <;> simp_all [Target.lt] <;> omega

/-- Between the two states, nothing declared before `c` changed, except that `bs` was written to `T`. -/
structure Frame (c : Nat) (T : Target) (bs : Bytes) (s s' : State) : Prop where
  regs : ∀ r, r < c → s'.regs r = s.regs r
  info : ∀ r, r < c → s'.info r = s.info r
  mem : ∀ u : Target, u.lt c → s'.mem u = if u = T then (s.mem T).map (· ++ bs) else s.mem u

theorem Frame.refl (c T s) : Frame c T [] s s where
  regs := fun _ _ => rfl
  info := fun _ _ => rfl
  mem := fun u _ => by
    by_cases h : u = T
    · subst h; cases hm : s.mem u <;> simp
    · simp [h]

theorem Frame.trans {c c' T b1 b2 s s1 s2} (h1 : Frame c T b1 s s1) (h2 : Frame c' T b2 s1 s2)
    (hc : c ≤ c') : Frame c T (b1 ++ b2) s s2 where
  regs := fun r hr => by rw [h2.regs r (by omega), h1.regs r hr]
  info := fun r hr => by rw [h2.info r (by omega), h1.info r hr]
  mem := fun u hu => by
    rw [h2.mem u (Target.lt_mono hu hc)]
    by_cases h : u = T
    · subst h
      rw [if_pos rfl, if_pos rfl, h1.mem u hu, if_pos rfl]
      cases s.mem u <;> simp
    · rw [if_neg h, if_neg h, h1.mem u hu, if_neg h]

theorem Frame.mono {c c' T b s s'} (h : Frame c' T b s s') (hc : c ≤ c') : Frame c T b s s' where
  regs := fun r hr => h.regs r (by omega)
  info := fun r hr => h.info r (by omega)
  mem := fun u hu => h.mem u (Target.lt_mono hu hc)

/-- If the written sink is newer than `c`, an older one is unchanged. -/
theorem Frame.other {c T T' b s s'} (h : Frame c T' b s s') (hT : ¬ T'.lt c) :
    Frame c T [] s s' where
  regs := h.regs
  info := h.info
  mem := fun u hu => by
    have hne : u ≠ T' := fun e => hT (e ▸ hu)
    rw [h.mem u hu, if_neg hne]
    by_cases e : u = T
    · subst e; rw [if_pos rfl]; cases s.mem u <;> simp
    · rw [if_neg e]

/-- Registers from `c` on are the same. -/
def Above (c : Nat) (s s' : State) : Prop := ∀ r, c ≤ r → s'.regs r = s.regs r

theorem Above.refl (c s) : Above c s s := fun _ _ => rfl

theorem Above.mono {c c' s s'} (h : Above c s s') (hc : c ≤ c') : Above c' s s' :=
  fun r hr => h r (by omega)

theorem Above.trans {c s s1 s2} (h1 : Above c s s1) (h2 : Above c s1 s2) : Above c s s2 :=
  fun r hr => by rw [h2 r hr, h1 r hr]

/-- No register from `c` on is in use. -/
def Fresh (c : Nat) (s : State) : Prop := ∀ r, c ≤ r → s.regs r = none

theorem Fresh.step {c c' s s'} (h : Fresh c s) (ha : Above c' s s') (hc : c ≤ c') : Fresh c' s' :=
  fun r hr => by rw [ha r hr]; exact h r (by omega)

theorem Frame.setReg (T : Target) {c r : Nat} (s : State) (v : Val) (h : c ≤ r) :
    Frame c T [] s (s.setReg r v) where
  regs := fun x hx => by simp [State.setReg, upd]; omega
  info := fun _ _ => rfl
  mem := (Frame.refl c T s).mem

theorem Above.setReg {c r : Nat} (s : State) (v : Val) (h : r < c) : Above c s (s.setReg r v) := by
  intro x hx
  simp only [State.setReg, upd]
  rw [if_neg (by omega)]

@[simp] theorem setReg_same (s : State) (r : Nat) (v : Val) : (s.setReg r v).regs r = some v := by
  simp [State.setReg]

theorem setReg_ne (s : State) {r x : Nat} (v : Val) (h : x ≠ r) : (s.setReg r v).regs x = s.regs x := by
  simp [State.setReg, upd, h]

@[simp] theorem setReg_sink (s : State) (r : Nat) (v : Val) (t : Target) : (s.setReg r v).sink t = s.sink t := by
  cases t <;> rfl

/-- What holds when a piece of code is entered: the visible names have the values `env`, their registers
are older than `c`, the target is a live sink. -/
structure Ctx (m : Refs) (s : State) (c : Nat) (t : Target) (env : Env) : Prop where
  env_eq : (fun n => (m n).bind s.regs) = env
  refs_lt : ∀ n r, m n = some r → r < c
  tlt : t.lt c
  slt : (s.sink t).lt c
  live : (s.mem (s.sink t)).isSome
  root : s.sink (s.sink t) = s.sink t

theorem sink_eq {c : Nat} {s s' : State} (h : ∀ r, r < c → s'.info r = s.info r) {t : Target}
    (ht : t.lt c) : s'.sink t = s.sink t := by
  cases t with
  | direct => rfl
  | buf r => rfl
  | stream r => simp only [State.sink, h r ht]

theorem Frame.live {c T b s s'} (h : Frame c T b s s') {u : Target} (hu : u.lt c) :
    (s'.mem u).isSome = (s.mem u).isSome := by
  rw [h.mem u hu]
  by_cases e : u = T
  · subst e; rw [if_pos rfl]; simp
  · rw [if_neg e]

theorem env_frame {m : Refs} {s s' : State} {c : Nat} (hm : ∀ n r, m n = some r → r < c)
    (h : ∀ r, r < c → s'.regs r = s.regs r) :
    (fun n => (m n).bind s'.regs) = (fun n => (m n).bind s.regs) := by
  funext n
  cases hn : m n with
  | none => rfl
  | some r => simp [h r (hm n r hn)]

theorem Ctx.step {m s c t env T b s' c'} (h : Ctx m s c t env) (f : Frame c T b s s')
    (hc : c ≤ c') : Ctx m s' c' t env where
  env_eq := by rw [← h.env_eq]; exact env_frame h.refs_lt f.regs
  refs_lt := fun n r hn => Nat.lt_of_lt_of_le (h.refs_lt n r hn) hc
  tlt := Target.lt_mono h.tlt hc
  slt := by rw [sink_eq f.info h.tlt]; exact Target.lt_mono h.slt hc
  live := by rw [sink_eq f.info h.tlt, f.live h.slt]; exact h.live
  root := by rw [sink_eq f.info h.tlt, sink_eq f.info h.slt]; exact h.root

theorem Ctx.set {m s c t env r c'} (h : Ctx m s c t env) (v : Val) (hr : c ≤ r) (hc : c ≤ c') :
    Ctx m (s.setReg r v) c' t env := h.step (Frame.setReg (s.sink t) s v hr) hc

/-- Running `P` from `s` gives what `r` says: its bytes go to the sink `T`, nothing older than `c` is
touched otherwise, nor any register from `c'` on, and the registers satisfy `post`. -/
def Sim {α} (X : Ext) (m : Refs) (P : Prog) (s : State) (c c' : Nat) (T : Target) (r : Res (α × Bytes))
    (post : α → (Nat → Option Val) → Prop) : Prop :=
  match r with
  | .ok (a, bs) => ∃ s', exec X m P s = .next s' ∧ Frame c T bs s s' ∧ Above c' s s' ∧ post a s'.regs
  | .error f => exec X m P s = .fault f

abbrev noPost {α} : α → (Nat → Option Val) → Prop := fun _ _ => True

theorem Sim.nil {α} {X m s c T} {post : α → (Nat → Option Val) → Prop} {a : α}
    (hp : post a s.regs) : Sim X m .nil s c c T (.ok (a, [])) post :=
  ⟨s, rfl, Frame.refl _ _ _, Above.refl _ _, hp⟩

/-- Register-only steps in front. -/
theorem Sim.pre {α X m m' P Q s s1 c c1 c2 T} {r : Res (α × Bytes)} {post}
    (he : exec X m P s = exec X m' Q s1) (hf : Frame c T [] s s1) (ha : Above c2 s s1) (hc : c ≤ c1)
    (h : Sim X m' Q s1 c1 c2 T r post) : Sim X m P s c c2 T r post := by
  cases r with
  | error f => simp only [Sim] at h ⊢; rw [he, h]
  | ok p =>
    obtain ⟨a, bs⟩ := p
    obtain ⟨s', h1, h2, h3, h4⟩ := h
    exact ⟨s', by rw [he, h1], hf.trans h2 hc, ha.trans h3, h4⟩

/-- Sequencing. -/
def andThen {α β} (r : Res (α × Bytes)) (k : α → Res (β × Bytes)) : Res (β × Bytes) := do
  let (a, b1) ← r
  let (a', b2) ← k a
  .ok (a', b1 ++ b2)

theorem Sim.seq {α β X m P Q s c c1 c2 T} {r : Res (α × Bytes)} {k : α → Res (β × Bytes)} {post post'}
    (hc : c ≤ c1) (hc2 : c1 ≤ c2) (h : Sim X m P s c c1 T r post)
    (hk : ∀ a bs s1, r = .ok (a, bs) → Frame c T bs s s1 → Above c1 s s1 → post a s1.regs →
      Sim X (refsAfter P m) Q s1 c1 c2 T (k a) post') :
    Sim X m (P ++ Q) s c c2 T (andThen r k) post' := by
  cases r with
  | error f =>
    simp only [Sim] at h
    show exec X m (P ++ Q) s = .fault f
    rw [exec_append, h]; rfl
  | ok p =>
    obtain ⟨a, bs⟩ := p
    obtain ⟨s1, h1, h2, h3, h4⟩ := h
    have h5 := hk a bs s1 rfl h2 h3 h4
    simp only [andThen, ok_bind]
    cases hka : k a with
    | error f =>
      rw [hka] at h5
      show exec X m (P ++ Q) s = .fault f
      rw [exec_append, h1]; exact h5
    | ok q =>
      obtain ⟨a', b2⟩ := q
      rw [hka] at h5
      obtain ⟨s2, g1, g2, g3, g4⟩ := h5
      refine ⟨s2, ?_, h2.trans g2 hc, (h3.mono hc2).trans g3, g4⟩
      rw [exec_append, h1]; exact g1

theorem Sim.weaken {α X m P s c c' T} {r : Res (α × Bytes)} {post post'}
    (h : Sim X m P s c c' T r post) (hp : ∀ a rs, post a rs → post' a rs) :
    Sim X m P s c c' T r post' := by
  cases r with
  | error f => exact h
  | ok p =>
    obtain ⟨a, bs⟩ := p
    obtain ⟨s', h1, h2, h3, h4⟩ := h
    exact ⟨s', h1, h2, h3, hp _ _ h4⟩

theorem Sim.above {α X m P s c c' c'' T} {r : Res (α × Bytes)} {post}
    (h : Sim X m P s c c' T r post) (hc : c' ≤ c'') : Sim X m P s c c'' T r post := by
  cases r with
  | error f => exact h
  | ok p =>
    obtain ⟨a, bs⟩ := p
    obtain ⟨s', h1, h2, h3, h4⟩ := h
    exact ⟨s', h1, h2, h3.mono hc, h4⟩

/-- Bytes without a further result. -/
def bare (r : Res Bytes) : Res (Unit × Bytes) := do let bs ← r; .ok ((), bs)

@[simp] theorem bare_ok (bs : Bytes) : bare (.ok bs) = .ok ((), bs) := rfl
@[simp] theorem bare_error (f : Fault) : bare (.error f) = .error f := rfl

/-! ## Single statements -/

theorem exec_eval {X m s c t env} (h : Ctx m s c t env) (r : Nat) (e : Expr) (rest : Prog) :
    exec X m (.op (.eval r e) rest) s =
      match ev X env e with
      | .ok v => exec X m rest (s.setReg r v)
      | .error f => .fault f := by
  simp only [exec, execOp, h.env_eq, ev]
  cases runE X.oc ⟨env, X.input⟩ e <;> rfl

/-- A statement that writes. -/
theorem write_ok {m s c t env} (h : Ctx m s c t env) (bs : Bytes) :
    ∃ s', s.write t bs = .ok s' ∧ Frame c (s.sink t) bs s s' ∧ s'.regs = s.regs := by
  obtain ⟨b, hb⟩ := Option.isSome_iff_exists.mp h.live
  refine ⟨{ s with mem := upd s.mem (s.sink t) (some (b ++ bs)) }, ?_, ?_, rfl⟩
  · simp only [State.write, hb]
  · refine ⟨fun _ _ => rfl, fun _ _ => rfl, fun u _ => ?_⟩
    by_cases e : u = s.sink t
    · subst e; simp [hb]
    · simp [upd, e]

theorem exec_one {X m s i} (h1 : ∀ n x, i ≠ .setRef n x) (h2 : i ≠ .brk) (rest : Prog) :
    exec X m (.op i rest) s = match execOp X m s i with
      | .ok s' => exec X m rest s'
      | .error f => .fault f := by
  cases i
  case setRef n x => exact absurd rfl (h1 n x)
  case brk => exact absurd rfl h2
  all_goals rfl

theorem sim_write {X m s c t env i} {r : Res Bytes} (h : Ctx m s c t env)
    (hi : execOp X m s i = (do let bs ← r; s.write t bs)) (h1 : ∀ n x, i ≠ .setRef n x) (h2 : i ≠ .brk) :
    Sim X m (.one i) s c c (s.sink t) (bare r) noPost := by
  cases r with
  | error f =>
    show exec X m (.one i) s = .fault f
    rw [Prog.one_def, exec_one h1 h2, hi]; rfl
  | ok bs =>
    obtain ⟨s', hw, hf, hr⟩ := write_ok h bs
    refine ⟨s', ?_, hf, ?_, trivial⟩
    · rw [Prog.one_def, exec_one h1 h2, hi, ok_bind, hw]; rfl
    · intro x hx; rw [hr]

/-! ## Arguments -/

theorem genArgs_le (c : Nat) (es : List Expr) : c ≤ (genArgs c es).1 := by
  induction es generalizing c with
  | nil => exact Nat.le_refl _
  | cons e es ih => simp only [genArgs]; have := ih (c + 1); omega

theorem refsAfter_genArgs (c : Nat) (es : List Expr) (m : Refs) : refsAfter (genArgs c es).2.1 m = m := by
  induction es generalizing c with
  | nil => rfl
  | cons e es ih => simp only [genArgs, refsAfter]; exact ih (c + 1)

/-- Evaluating arguments: afterwards the registers hold the values. -/
theorem sim_args {X m s c t env} (h : Ctx m s c t env) (es : List Expr) (T : Target) :
    Sim X m (genArgs c es).2.1 s c (genArgs c es).1 T (do let vs ← es.mapM (ev X env); .ok (vs, []))
      (fun vs regs => (genArgs c es).2.2.mapM (fun r => optRes (regs r)) = .ok vs) := by
  induction es generalizing c s with
  | nil =>
    simp only [List.mapM_nil]
    exact ⟨s, rfl, Frame.refl _ _ _, Above.refl _ _, rfl⟩
  | cons e es ih =>
    simp only [genArgs, List.mapM_cons]
    cases hv : ev X env e with
    | error f =>
      show exec X m _ s = .fault f
      rw [exec_eval h, hv]
    | ok v =>
      have hctx : Ctx m (s.setReg c v) (c + 1) t env := h.set v (Nat.le_refl c) (by omega)
      have h1 := ih hctx
      have hle := genArgs_le (c + 1) es
      have he : exec X m (.op (.eval c e) (genArgs (c + 1) es).2.1) s =
          exec X m (genArgs (c + 1) es).2.1 (s.setReg c v) := by rw [exec_eval h, hv]
      cases hvs : es.mapM (ev X env) with
      | error f =>
        rw [hvs] at h1
        simp only [ok_bind, err_bind]
        show exec X m _ s = .fault f
        rw [he]; exact h1
      | ok vs =>
        rw [hvs] at h1
        obtain ⟨s', g1, g2, g3, g4⟩ := h1
        simp only [ok_bind, pure, Except.pure]
        refine ⟨s', by rw [he, g1], ?_, ?_, ?_⟩
        · exact (Frame.setReg T s v (Nat.le_refl c)).trans g2 (by omega)
        · exact (Above.setReg s v (by omega)).trans g3
        · have : s'.regs c = some v := by rw [g2.regs c (by omega)]; simp
          show (do let a ← optRes (s'.regs c); let b ← _; Except.ok (a :: b)) = Except.ok (v :: vs)
          rw [this, g4]; rfl

/-! ## Leaf types -/

theorem genLeaf_le (t : Target) (ty : LTy) (src c : Nat) : c ≤ (genLeaf t ty src c).1 := by
  induction ty generalizing src c with
  | prim p => exact Nat.le_refl _
  | ref n f r args => simp only [genLeaf]; have := genArgs_le c args; cases f <;> simpa using this
  | array elem len ih =>
    cases len with
    | term e => simp only [genLeaf]; have := ih (c + 2) (c + 3); omega
    | fixed e =>
      simp only [genLeaf]; have := ih (c + 2) (c + 3)
      cases elem.resolved <;> simp <;> omega
    | unbounded =>
      simp only [genLeaf]; have := ih (c + 1) (c + 2)
      cases elem.resolved <;> simp <;> omega

theorem refsAfter_genLeaf (t : Target) (ty : LTy) (src c : Nat) (m : Refs) :
    refsAfter (genLeaf t ty src c).2 m = m := by
  induction ty generalizing src c with
  | prim p => rfl
  | ref n f r args =>
    simp only [genLeaf]
    cases f <;> simp [refsAfter_append, refsAfter_genArgs, Prog.one_def, refsAfter]
  | array elem len ih =>
    cases len with
    | term e => simp [genLeaf, refsAfter, ih, Prog.one_def]
    | fixed e => simp only [genLeaf]; cases elem.resolved <;> simp [refsAfter, ih, Prog.one_def]
    | unbounded => simp only [genLeaf]; cases elem.resolved <;> simp [refsAfter, ih, Prog.one_def]

/-- The element loop. -/
theorem sim_loop {X m p t env c0 src v idx ns c c' T} {f : Val → Res Bytes}
    (hns : c0 ≤ ns) (hidx : c0 ≤ idx) (hc : ns < c) (hi : idx < ns) (hsrc : src < c0) (_ : c ≤ c')
    (hbody : ∀ s x, Ctx m s c t env → s.sink t = T → s.regs ns = some x →
      Sim X m p s c c' T (bare (f x)) noPost) :
    ∀ (n i : Nat) (s : State), Ctx m s c0 t env → s.sink t = T → s.regs src = some v →
      match encN f v i n with
      | .ok bs => ∃ s', loopN (exec X m (.op (.getIndex ns src idx) p)) idx i n s = .next s' ∧
          Frame c0 T bs s s' ∧ s'.regs = s.regs
      | .error f => loopN (exec X m (.op (.getIndex ns src idx) p)) idx i n s = .fault f := by
  intro n
  induction n with
  | zero => intro i s _ _ _; exact ⟨s, rfl, Frame.refl _ _ _, rfl⟩
  | succ n ih =>
    intro i s hs hT hv
    simp only [encN, loopN]
    have hget : exec X m (.op (.getIndex ns src idx) p) (s.setReg idx (.int ⟨.u64, i⟩)) =
        match itemOf v i with
        | .ok x => exec X m p ((s.setReg idx (.int ⟨.u64, i⟩)).setReg ns x)
        | .error f => .fault f := by
      have h1 : (s.setReg idx (.int ⟨.u64, i⟩)).regs src = some v := by
        rw [setReg_ne _ _ (by omega), hv]
      simp only [exec, execOp, State.reg, h1, setReg_same, optRes, ok_bind, Val.toInt, Int.toNat_natCast]
      cases itemOf v i <;> rfl
    rw [hget]
    cases hx : itemOf v i with
    | error g => simp only [err_bind]
    | ok x =>
      simp only [ok_bind]
      have hctx : Ctx m ((s.setReg idx (.int ⟨.u64, i⟩)).setReg ns x) c t env :=
        (hs.set (c' := c0) _ hidx (Nat.le_refl _)).set _ hns (by omega)
      have hb := hbody _ x hctx (by simp [hT]) (by simp)
      cases hf : f x with
      | error g =>
        rw [hf] at hb
        simp only [bare_error, Sim] at hb
        rw [hb]; simp only [err_bind]
      | ok b =>
        rw [hf] at hb
        obtain ⟨s1, g1, g2, g3, _⟩ := hb
        rw [g1]
        simp only [ok_bind]
        have hfr : Frame c0 T b s (s.leave s1) := by
          refine ⟨fun _ _ => rfl, fun r hr => ?_, fun u hu => ?_⟩
          · show s1.info r = s.info r
            rw [g2.info r (by omega)]; rfl
          · show s1.mem u = _
            rw [g2.mem u (Target.lt_mono hu (by omega))]; rfl
        have h3 := ih (i + 1) (s.leave s1) (hs.step hfr (Nat.le_refl _))
          (by rw [sink_eq hfr.info hs.tlt]; exact hT) hv
        cases hrest : encN f v (i + 1) n with
        | error g => rw [hrest] at h3; simp only [err_bind]; exact h3
        | ok bs =>
          rw [hrest] at h3
          obtain ⟨s2, k1, k2, k3⟩ := h3
          simp only [ok_bind]
          exact ⟨s2, k1, hfr.trans k2 (Nat.le_refl _), k3⟩

theorem andThen_bare (r : Res Bytes) (k : Res Bytes) :
    andThen (bare r) (fun _ => bare k) = bare (do let a ← r; let b ← k; .ok (a ++ b)) := by
  cases r with
  | error f => rfl
  | ok a => cases k <;> rfl

theorem sim_leaf {X : Ext} {m : Refs} {t : Target} {env : Env} (ty : LTy) :
    ∀ (s : State) (src c : Nat) (v : Val), Ctx m s c t env → src < c → s.regs src = some v →
      Sim X m (genLeaf t ty src c).2 s c (genLeaf t ty src c).1 (s.sink t) (bare (encLeaf X env ty v))
        noPost := by
  induction ty with
  | prim p =>
    intro s src c v h hsrc hv
    refine sim_write h ?_ (by simp) (by simp)
    simp only [execOp, State.reg, hv, optRes, encLeaf, ok_bind]
  | ref target foreign r args =>
    intro s src c v h hsrc hv
    have hle := genArgs_le c args
    have key : ∀ (i : Op) (g : List Val → Res Bytes),
        (∀ n x, i ≠ .setRef n x) → i ≠ .brk →
        (∀ s1 vs, s1.regs src = some v → s1.args (genArgs c args).2.2 = .ok vs →
          execOp X m s1 i = (do let bs ← g vs; s1.write t bs)) →
        Sim X m ((genArgs c args).2.1 ++ .one i) s c (genArgs c args).1 (s.sink t)
          (bare (do let vs ← args.mapM (ev X env); g vs)) noPost := by
      intro i g hi1 hi2 hi
      have hs := Sim.seq (Q := .one i) (k := fun vs => bare (g vs)) (post' := noPost) hle (Nat.le_refl _)
        (sim_args (X := X) h args (s.sink t)) (by
          intro vs bs s1 _ hf ha hp
          rw [refsAfter_genArgs]
          have hctx := h.step hf hle
          rw [← sink_eq hf.info h.tlt]
          exact sim_write hctx (hi s1 vs (by rw [hf.regs src hsrc, hv]) hp) hi1 hi2)
      have heq : andThen (do let vs ← args.mapM (ev X env); .ok (vs, [])) (fun vs => bare (g vs)) =
          bare (do let vs ← args.mapM (ev X env); g vs) := by
        cases args.mapM (ev X env) with
        | error f => rfl
        | ok vs =>
          simp only [ok_bind, andThen]
          cases g vs <;> rfl
      rw [heq] at hs
      exact hs
    cases foreign with
    | true =>
      simp only [genLeaf, encLeaf, if_true]
      refine key _ (fun vs => X.foreign target vs v) (by simp) (by simp) ?_
      intro s1 vs h1 h2
      simp [execOp, State.reg, h1, h2, optRes, ok_bind]
    | false =>
      simp only [genLeaf, encLeaf]
      refine key _ (fun vs => X.call target vs v) (by simp) (by simp) ?_
      intro s1 vs h1 h2
      simp [execOp, State.reg, h1, h2, optRes, ok_bind]
  | array elem len ih =>
    intro s src c v h hsrc hv
    cases len with
    | term e =>
      have hle := genLeaf_le t elem (c + 2) (c + 3)
      simp only [genLeaf, encLeaf]
      cases he : ev X env e with
      | error f => simp only [err_bind, bare_error, Sim]; rw [exec_eval h, he]
      | ok tv =>
        simp only [ok_bind]
        generalize hc' : (genLeaf t elem (c + 2) (c + 3)).1 = c' at *
        have h1 : exec X m (.op (.eval c e) (.op (.lenVal c' src)
            (.loop (c + 1) c' (.op (.getIndex (c + 2) src (c + 1)) (genLeaf t elem (c + 2) (c + 3)).2)
              (.one (.primArray t c (.scalar ⟨.u8, .big⟩) none))))) s =
            match rtLen v with
            | .ok n => exec X m
              (.loop (c + 1) c' (.op (.getIndex (c + 2) src (c + 1)) (genLeaf t elem (c + 2) (c + 3)).2)
                (.one (.primArray t c (.scalar ⟨.u8, .big⟩) none)))
              ((s.setReg c tv).setReg c' (.int ⟨.u64, n⟩))
            | .error f => .fault f := by
          rw [exec_eval h, he]
          simp only [exec_one (i := .lenVal c' src) (by simp) (by simp), execOp, State.reg]
          rw [setReg_ne _ _ (by omega), hv]
          simp only [optRes, ok_bind]
          cases rtLen v <;> rfl
        cases hn : rtLen v with
        | error f => simp only [err_bind, bare_error, Sim]; rw [h1, hn]
        | ok n =>
          rw [hn] at h1
          simp only [ok_bind]
          have hctx : Ctx m ((s.setReg c tv).setReg c' (.int ⟨.u64, n⟩)) (c + 1) t env :=
            (h.set (c' := c + 1) _ (Nat.le_refl _) (by omega)).set _ (by omega) (Nat.le_refl _)
          have hl := sim_loop (X := X) (T := s.sink t) (idx := c + 1) (ns := c + 2) (c := c + 3) (c' := c')
            (c0 := c + 1) (src := src) (v := v) (f := encLeaf X env elem) (by omega) (by omega) (by omega)
            (by omega) (by omega) hle
            (fun s1 x hs1 hT1 hx => by
              have := ih s1 (c + 2) (c + 3) x hs1 (by omega) hx
              rw [hT1, hc'] at this; exact this)
            n 0 _ hctx (by simp) (by rw [setReg_ne _ _ (by omega), setReg_ne _ _ (by omega), hv])
          have hfr0 : Frame c (s.sink t) [] s ((s.setReg c tv).setReg c' (.int ⟨.u64, n⟩)) :=
            (Frame.setReg _ s tv (Nat.le_refl c)).trans (Frame.setReg _ _ _ (by omega : c ≤ c'))
              (Nat.le_refl _)
          have hab0 : Above (c' + 1) s ((s.setReg c tv).setReg c' (.int ⟨.u64, n⟩)) :=
            (Above.setReg s tv (by omega)).trans (Above.setReg _ _ (by omega))
          refine Sim.pre h1 hfr0 hab0 (Nat.le_refl c) ?_
          have hexec : exec X m
              (.loop (c + 1) c' (.op (.getIndex (c + 2) src (c + 1)) (genLeaf t elem (c + 2) (c + 3)).2)
                (.one (.primArray t c (.scalar ⟨.u8, .big⟩) none)))
              ((s.setReg c tv).setReg c' (.int ⟨.u64, n⟩)) =
              (loopN (exec X m (.op (.getIndex (c + 2) src (c + 1)) (genLeaf t elem (c + 2) (c + 3)).2))
                (c + 1) 0 n ((s.setReg c tv).setReg c' (.int ⟨.u64, n⟩))).andThen
                (exec X m (.one (.primArray t c (.scalar ⟨.u8, .big⟩) none))) := by
            have : refsAfter (.op (.getIndex (c + 2) src (c + 1)) (genLeaf t elem (c + 2) (c + 3)).2) m = m := by
              simp only [refsAfter]; exact refsAfter_genLeaf _ _ _ _ _
            simp only [exec, this, State.reg, setReg_same, optRes, Except.bind, rangeCount, Val.toInt,
              ok_bind, Int.toNat_natCast]
            rfl
          cases hb : encN (encLeaf X env elem) v 0 n with
          | error f =>
            rw [hb] at hl
            simp only [err_bind, bare_error, Sim]
            rw [hexec, hl]; rfl
          | ok bs =>
            rw [hb] at hl
            obtain ⟨s2, k1, k2, k3⟩ := hl
            simp only [ok_bind]
            have hctx2 : Ctx m s2 (c + 1) t env := hctx.step k2 (Nat.le_refl _)
            have hw := sim_write (X := X) (i := .primArray t c (.scalar ⟨.u8, .big⟩) none)
              (r := encPrimArray (.scalar ⟨.u8, .big⟩) none tv) hctx2 (by
                simp only [execOp, optLen, State.reg, k3]
                rw [setReg_ne _ _ (by omega), setReg_same]
                simp [optRes, ok_bind]) (by simp) (by simp)
            have hs2 : s2.sink t = s.sink t := by rw [sink_eq k2.info hctx.tlt]; simp
            rw [hs2] at hw
            cases ht : encPrimArray (.scalar ⟨.u8, .big⟩) none tv with
            | error f =>
              rw [ht] at hw
              simp only [err_bind, bare_error, Sim] at hw ⊢
              rw [hexec, k1]; exact hw
            | ok tb =>
              rw [ht] at hw
              obtain ⟨s3, j1, j2, j3, _⟩ := hw
              simp only [ok_bind, bare_ok]
              refine ⟨s3, ?_, ?_, ?_, trivial⟩
              · rw [hexec, k1]; exact j1
              · exact (k2.mono (by omega)).trans (j2.mono (by omega)) (Nat.le_refl c)
              · intro r hr
                rw [j3 r (by omega), k3]
    | fixed e =>
      simp only [genLeaf, encLeaf]
      cases he : ev X env e with
      | error f =>
        simp only [err_bind, bare_error, Sim]
        cases elem.resolved <;> simp only [exec_eval h, he]
      | ok lv =>
        simp only [ok_bind]
        have hle := genLeaf_le t elem (c + 2) (c + 3)
        have hctx : Ctx m (s.setReg c lv) (c + 1) t env := h.set _ (Nat.le_refl _) (by omega)
        have hs1 : (s.setReg c lv).sink t = s.sink t := by simp
        have hv1 : (s.setReg c lv).regs src = some v := by rw [setReg_ne _ _ (by omega), hv]
        cases hr : elem.resolved with
        | prim p =>
          simp only []
          refine Sim.pre (s1 := s.setReg c lv) (by rw [exec_eval h, he]) (Frame.setReg _ s lv (Nat.le_refl c))
            (Above.setReg s lv (by omega)) (by omega) (?_ : Sim X m _ _ (c + 1) _ _ _ _)
          rw [← hs1]
          refine sim_write hctx ?_ (by simp) (by simp)
          simp only [execOp, optLen, State.reg, setReg_same, hv1, optRes, ok_bind]
          cases asUsize lv with
          | error f => rfl
          | ok n => simp only [ok_bind]
        | repr ty =>
          simp only []
          refine Sim.pre (s1 := s.setReg c lv) (by rw [exec_eval h, he]) (Frame.setReg _ s lv (Nat.le_refl c))
            (Above.setReg s lv (by omega)) (by omega) (?_ : Sim X m _ _ (c + 1) _ _ _ _)
          rw [← hs1]
          refine sim_write hctx ?_ (by simp) (by simp)
          simp only [execOp, optLen, State.reg, setReg_same, hv1, optRes, ok_bind]
          cases asUsize lv with
          | error f => rfl
          | ok n => simp only [ok_bind]
        | other =>
          simp only []
          refine Sim.pre (s1 := s.setReg c lv) (by rw [exec_eval h, he]) (Frame.setReg _ s lv (Nat.le_refl c))
            (Above.setReg s lv (by omega)) (by omega) (?_ : Sim X m _ _ (c + 1) _ _ _ _)
          generalize hc' : (genLeaf t elem (c + 2) (c + 3)).1 = c' at *
          have hra : refsAfter (.op (.getIndex (c + 2) src (c + 1)) (genLeaf t elem (c + 2) (c + 3)).2) m = m := by
            simp only [refsAfter]; exact refsAfter_genLeaf _ _ _ _ _
          cases hn : rangeCount lv with
          | error f =>
            simp only [err_bind, bare_error, Sim, exec, State.reg, setReg_same, optRes, Except.bind, hn]
          | ok n =>
            simp only [ok_bind]
            have hl := sim_loop (X := X) (T := s.sink t) (idx := c + 1) (ns := c + 2) (c := c + 3) (c' := c')
              (c0 := c + 1) (src := src) (v := v) (f := encLeaf X env elem) (by omega) (by omega) (by omega)
              (by omega) (by omega) hle
              (fun s1 x hs1 hT1 hx => by
                have := ih s1 (c + 2) (c + 3) x hs1 (by omega) hx
                rw [hT1, hc'] at this; exact this)
              n 0 _ hctx hs1 hv1
            have hexec : exec X m
                (.loop (c + 1) c (.op (.getIndex (c + 2) src (c + 1)) (genLeaf t elem (c + 2) (c + 3)).2) .nil)
                (s.setReg c lv) =
                (loopN (exec X m (.op (.getIndex (c + 2) src (c + 1)) (genLeaf t elem (c + 2) (c + 3)).2))
                  (c + 1) 0 n (s.setReg c lv)).andThen (exec X m .nil) := by
              simp only [exec, State.reg, setReg_same, optRes, Except.bind, hn]
              rfl
            cases hb : encN (encLeaf X env elem) v 0 n with
            | error f => rw [hb] at hl; simp only [bare_error, Sim]; rw [hexec, hl]; rfl
            | ok bs =>
              rw [hb] at hl
              obtain ⟨s2, k1, k2, k3⟩ := hl
              exact ⟨s2, by rw [hexec, k1]; rfl, k2, fun r _ => by rw [k3], trivial⟩
    | unbounded =>
      simp only [genLeaf, encLeaf]
      have hle := genLeaf_le t elem (c + 1) (c + 2)
      cases hr : elem.resolved with
      | prim p =>
        simp only []
        refine sim_write h ?_ (by simp) (by simp)
        simp only [execOp, optLen, State.reg, hv, optRes, ok_bind]
      | repr ty =>
        simp only []
        refine sim_write h ?_ (by simp) (by simp)
        simp only [execOp, optLen, State.reg, hv, optRes, ok_bind]
      | other =>
        simp only []
        generalize hc' : (genLeaf t elem (c + 1) (c + 2)).1 = c' at *
        have hra : refsAfter (.op (.getIndex (c + 1) src c) (genLeaf t elem (c + 1) (c + 2)).2) m = m := by
          simp only [refsAfter]; exact refsAfter_genLeaf _ _ _ _ _
        cases hn : rtLen v with
        | error f =>
          simp only [err_bind, bare_error, Sim]
          rw [exec_one (by simp) (by simp)]
          simp only [execOp, State.reg, hv, optRes, ok_bind, hn, err_bind]
        | ok n =>
          simp only [ok_bind]
          have hctx : Ctx m (s.setReg c' (.int ⟨.u64, n⟩)) c t env := h.set _ (by omega) (Nat.le_refl _)
          have hl := sim_loop (X := X) (T := s.sink t) (idx := c) (ns := c + 1) (c := c + 2) (c' := c')
            (c0 := c) (src := src) (v := v) (f := encLeaf X env elem) (by omega) (by omega) (by omega)
            (by omega) hsrc hle
            (fun s1 x hs1 hT1 hx => by
              have := ih s1 (c + 1) (c + 2) x hs1 (by omega) hx
              rw [hT1, hc'] at this; exact this)
            n 0 _ hctx (by simp) (by rw [setReg_ne _ _ (by omega), hv])
          have hexec : exec X m (.op (.lenVal c' src)
              (.loop c c' (.op (.getIndex (c + 1) src c) (genLeaf t elem (c + 1) (c + 2)).2) .nil)) s =
              (loopN (exec X m (.op (.getIndex (c + 1) src c) (genLeaf t elem (c + 1) (c + 2)).2))
                c 0 n (s.setReg c' (.int ⟨.u64, n⟩))).andThen (exec X m .nil) := by
            rw [exec_one (by simp) (by simp)]
            simp only [execOp, State.reg, hv, optRes, ok_bind, hn]
            simp only [exec, State.reg, setReg_same, optRes, Except.bind, rangeCount, Val.toInt,
              ok_bind, Int.toNat_natCast]
            rfl
          cases hb : encN (encLeaf X env elem) v 0 n with
          | error f => rw [hb] at hl; simp only [bare_error, Sim]; rw [hexec, hl]; rfl
          | ok bs =>
            rw [hb] at hl
            obtain ⟨s2, k1, k2, k3⟩ := hl
            refine ⟨s2, by rw [hexec, k1]; rfl, ?_, ?_, trivial⟩
            · exact (Frame.setReg _ s _ (by omega : c ≤ c')).trans k2 (Nat.le_refl _)
            · intro r hr; rw [k3]; exact setReg_ne _ _ (by omega)

/-! ## Transforms -/

theorem genXforms_le (t : Target) (c : Nat) (xs : List XformUse) : c ≤ (genXforms t c xs).1 := by
  induction xs generalizing t c with
  | nil => exact Nat.le_refl _
  | cons x xs ih =>
    simp only [genXforms]
    cases x.cond with
    | some e =>
      have h1 := genArgs_le (c + 1) x.args
      have h2 := ih (.stream (genArgs (c + 1) x.args).1) ((genArgs (c + 1) x.args).1 + 2)
      simp only; omega
    | none =>
      have h1 := genArgs_le c x.args
      have h2 := ih (.stream (genArgs c x.args).1) ((genArgs c x.args).1 + 1)
      simp only; omega

theorem refsAfter_genXforms (t : Target) (c : Nat) (xs : List XformUse) (m : Refs) :
    refsAfter (genXforms t c xs).2.1 m = m ∧ refsAfter (genXforms t c xs).2.2.2 m = m := by
  induction xs generalizing t c with
  | nil => exact ⟨rfl, rfl⟩
  | cons x xs ih =>
    simp only [genXforms]
    cases x.cond with
    | some e => simp [refsAfter, refsAfter_append, refsAfter_genArgs, Prog.one_def, ih]
    | none => simp [refsAfter, refsAfter_append, refsAfter_genArgs, Prog.one_def, ih]

theorem Frame.openNew {c r : Nat} (T : Target) (s : State) (u : Target) (xf : String) (vs : List Val)
    (h : c ≤ r) : Frame c T [] s (s.open u r xf vs) where
  regs := fun _ _ => rfl
  info := fun x hx => by simp only [State.open, upd]; rw [if_neg (by omega)]
  mem := fun w hw => by
    have hne : w ≠ .stream r := by rintro rfl; simp [Target.lt] at hw; omega
    simp only [State.open, upd]
    rw [if_neg hne]
    by_cases e : w = T
    · subst e; rw [if_pos rfl]; cases s.mem w <;> simp
    · rw [if_neg e]

theorem Frame.aliasNew {c r : Nat} (T : Target) (s : State) (u : Target)
    (h : c ≤ r) : Frame c T [] s (s.alias u r) where
  regs := fun _ _ => rfl
  info := fun x hx => by simp only [State.alias, upd]; rw [if_neg (by omega)]
  mem := (Frame.refl c T s).mem

theorem Frame.noStream {c r : Nat} (T : Target) (s : State)
    (h : c ≤ r) : Frame c T [] s (s.noStream r) where
  regs := fun _ _ => rfl
  info := fun x hx => by simp only [State.noStream, upd]; rw [if_neg (by omega)]
  mem := (Frame.refl c T s).mem

theorem Frame.leave {c T b s s'} (h : Frame c T b s s') : Frame c T b s (s.leave s') where
  regs := fun _ _ => rfl
  info := h.info
  mem := h.mem

theorem Target.not_lt_stream (r : Nat) : ¬ (Target.stream r).lt r := by simp [Target.lt]

theorem finish_owned {X : Ext} {s : State} {r : Nat} {u xf args data}
    (hi : s.info r = some (.owned u xf args)) (hm : s.mem (.stream r) = some data) :
    s.finish X r = (do let out ← X.xform xf args data; s.write u out) := by
  simp only [State.finish, hi, hm, optRes, ok_bind]

/-- Writing to a live sink directly. -/
theorem write_sink {s : State} {c : Nat} {T : Target} (hr : s.sink T = T) (hl : (s.mem T).isSome)
    (bs : Bytes) : ∃ s', s.write T bs = .ok s' ∧ Frame c T bs s s' ∧ s'.regs = s.regs := by
  obtain ⟨b, hb⟩ := Option.isSome_iff_exists.mp hl
  refine ⟨{ s with mem := upd s.mem T (some (b ++ bs)) }, ?_, ?_, rfl⟩
  · simp only [State.write, hr, hb]
  · refine ⟨fun _ _ => rfl, fun _ _ => rfl, fun u _ => ?_⟩
    by_cases e : u = T
    · subst e; simp [hb]
    · simp [upd, e]

/-- Code running inside the transforms `xs`: opened before, closed after. -/
theorem sim_xforms {α X m env B c3} {r : Res (α × Bytes)} {post : α → (Nat → Option Val) → Prop}
    (xs : List XformUse) :
    ∀ (s : State) (c : Nat) (t : Target), Ctx m s c t env → (genXforms t c xs).1 ≤ c3 →
      (∀ s1, Ctx m s1 (genXforms t c xs).1 (genXforms t c xs).2.2.1 env → Frame c (s.sink t) [] s s1 →
        Above (genXforms t c xs).1 s s1 →
        Sim X m B s1 (genXforms t c xs).1 c3 (s1.sink (genXforms t c xs).2.2.1) r post) →
      Sim X m ((genXforms t c xs).2.1 ++ (B ++ (genXforms t c xs).2.2.2)) s c c3 (s.sink t)
        (encXforms X env xs r) post := by
  induction xs with
  | nil =>
    intro s c t h _ hB
    simp only [genXforms, encXforms, Prog.nil_append, Prog.append_nil]
    exact hB s h (Frame.refl _ _ _) (Above.refl _ _)
  | cons x xs ih =>
    intro s c t h hle hB
    simp only [genXforms, encXforms] at hle hB ⊢
    cases hcond : x.cond with
    | some e =>
      simp only [hcond] at hle hB ⊢
      generalize hA : genArgs (c + 1) x.args = A at *
      obtain ⟨c1, p, rs⟩ := A
      simp only at hle hB ⊢
      generalize hG : genXforms (.stream c1) (c1 + 2) xs = G at *
      obtain ⟨c2, q, t', cl⟩ := G
      simp only at hle hB ⊢
      have hc1 : c + 1 ≤ c1 := by have := genArgs_le (c + 1) x.args; rw [hA] at this; exact this
      have hc2 : c1 + 2 ≤ c2 := by have := genXforms_le (.stream c1) (c1 + 2) xs; rw [hG] at this; exact this
      simp only [Prog.op_append, Prog.condWrap_append]
      cases hev : ev X env e with
      | error f => simp only [err_bind, Sim]; rw [exec_eval h, hev]
      | ok cv =>
        simp only [ok_bind]
        have hctx : Ctx m (s.setReg c cv) (c + 1) t env := h.set cv (Nat.le_refl c) (by omega)
        refine Sim.pre (s1 := s.setReg c cv) (by rw [exec_eval h, hev]) (Frame.setReg _ s cv (Nat.le_refl c))
          (Above.setReg s cv (by omega)) (by omega : c ≤ c + 1) ?_
        have hra : refsAfter p m = m := by
          have := refsAfter_genArgs (c + 1) x.args m; rw [hA] at this; exact this
        have hsk : (s.setReg c cv).sink t = s.sink t := by simp
        cases cv with
        | bool b =>
          simp only [Val.toBool, ok_bind]
          cases b with
          | false =>
            simp only [Bool.false_eq_true, if_false]
            generalize hs0 : s.setReg c (.bool false) = s0 at *
            have hex : exec X m (.condWrap c p t c1 (c1 + 1) x.name rs
                (q ++ (B ++ (cl ++ Prog.op (.endStream c1) (.one (.drop (c1 + 1))))))) s0 =
                exec X m (q ++ (B ++ (cl ++ Prog.op (.endStream c1) (.one (.drop (c1 + 1))))))
                  ((s0.noStream (c1 + 1)).alias t c1) := by
              have : s0.regs c = some (.bool false) := by rw [← hs0]; simp
              simp only [exec, this, hra]
            have hns : (s0.noStream (c1 + 1)).sink t = s0.sink t :=
              sink_eq (Frame.noStream (c := c + 1) t s0 (by omega : c + 1 ≤ c1 + 1)).info hctx.tlt
            have hfr : Frame (c + 1) (s.sink t) [] s0 ((s0.noStream (c1 + 1)).alias t c1) :=
              (Frame.noStream _ s0 (by omega : c + 1 ≤ c1 + 1)).trans
                (Frame.aliasNew _ _ t (by omega : c + 1 ≤ c1)) (Nat.le_refl _)
            have hab : Above c3 s0 ((s0.noStream (c1 + 1)).alias t c1) := fun _ _ => rfl
            refine Sim.pre hex hfr hab (Nat.le_refl _) ?_
            generalize hs1 : (s0.noStream (c1 + 1)).alias t c1 = s1 at *
            have hsink : s1.sink (.stream c1) = s.sink t := by
              have : s1.sink (.stream c1) = (s0.noStream (c1 + 1)).sink t := by
                rw [← hs1]
                show (match ((s0.noStream (c1 + 1)).alias t c1).info c1 with
                  | some (.alias t') => t' | _ => _) = _
                simp only [State.alias, upd_same]
              rw [this, hns, hsk]
            have hctx1 : Ctx m s1 (c1 + 2) (.stream c1) env := by
              have hb := hctx.step hfr (Nat.le_refl _)
              refine ⟨hb.env_eq, fun n r hn => by have := hb.refs_lt n r hn; omega, by simp [Target.lt], ?_, ?_, ?_⟩
              · rw [hsink]; exact Target.lt_mono h.slt (by omega)
              · rw [hsink]
                rw [hfr.live (Target.lt_mono h.slt (by omega)), ← hsk]; exact hctx.live
              · rw [hsink, sink_eq hfr.info (Target.lt_mono h.slt (by omega)), ← hsk]; exact hctx.root
            have hi := ih s1 (c1 + 2) (.stream c1) hctx1 (by rw [hG]; exact hle) (by
              rw [hG]; simp only
              intro s2 k1 k2 k3
              refine hB s2 k1 ?_ ?_
              · rw [hsink] at k2
                have := (hfr.trans (k2.mono (by omega : c + 1 ≤ c1 + 2)) (Nat.le_refl _)).mono (by omega : c ≤ c + 1)
                have h0 := Frame.setReg (s.sink t) s (.bool false) (Nat.le_refl c)
                rw [hs0] at h0
                exact h0.trans this (Nat.le_refl c)
              · refine (Above.trans ?_ k3)
                intro r hr
                rw [← hs1, ← hs0]
                show (s.setReg c (.bool false)).regs r = s.regs r
                exact setReg_ne _ _ (by omega))
            rw [hG, hsink] at hi
            simp only at hi
            -- closing does nothing
            have hassoc : q ++ (B ++ (cl ++ Prog.op (.endStream c1) (.one (.drop (c1 + 1))))) =
                (q ++ (B ++ cl)) ++ Prog.op (.endStream c1) (.one (.drop (c1 + 1))) := by
              simp only [Prog.append_assoc]
            rw [hassoc]
            cases hr : encXforms X env xs r with
            | error f =>
              rw [hr] at hi; simp only [Sim] at hi ⊢
              rw [exec_append, hi]; rfl
            | ok pr =>
              obtain ⟨a, bs⟩ := pr
              rw [hr] at hi
              obtain ⟨s2, k1, k2, k3, k4⟩ := hi
              have i1 : s2.info c1 = some (.alias (s.sink t)) := by
                rw [k2.info c1 (by omega), ← hs1]; simp only [State.alias, upd_same, hns, hsk]
              have i2 : s2.info (c1 + 1) = none := by
                rw [k2.info (c1 + 1) (by omega), ← hs1]
                simp only [State.alias, State.noStream]; rw [upd_ne _ _ (by omega), upd_same]
              refine ⟨s2, ?_, k2.mono (by omega), k3, k4⟩
              rw [exec_append, k1]
              simp only [Out.andThen, Prog.one_def, exec, execOp, State.finish, i1, i2]
          | true =>
            simp only [if_true]
            generalize hs0 : s.setReg c (.bool true) = s0 at *
            have hr0 : s0.regs c = some (.bool true) := by rw [← hs0]; simp
            have hargs := sim_args (X := X) hctx x.args (s.sink t)
            rw [hA] at hargs
            simp only at hargs
            cases hvs : x.args.mapM (ev X env) with
            | error f =>
              rw [hvs] at hargs
              simp only [err_bind, Sim] at hargs ⊢
              simp only [exec, hr0, hargs]
            | ok vs =>
              rw [hvs] at hargs
              simp only [ok_bind] at hargs ⊢
              obtain ⟨sa, a1, a2, a3, a4⟩ := hargs
              have hsa : sa.args rs = .ok vs := a4
              generalize hs1 : ((s0.leave sa).open t (c1 + 1) x.name vs).alias (.stream (c1 + 1)) c1 = s1
              have hex : exec X m (.condWrap c p t c1 (c1 + 1) x.name rs
                  (q ++ (B ++ (cl ++ Prog.op (.endStream c1) (.one (.drop (c1 + 1))))))) s0 =
                  exec X m (q ++ (B ++ (cl ++ Prog.op (.endStream c1) (.one (.drop (c1 + 1)))))) s1 := by
                simp only [exec, hr0, hra, a1, hsa, hs1]
              have hfl : Frame (c + 1) (s.sink t) [] s0 (s0.leave sa) := a2.leave
              have hlt : (s0.leave sa).sink t = s.sink t := by
                rw [sink_eq hfl.info hctx.tlt, hsk]
              have hfr : Frame (c + 1) (s.sink t) [] s0 s1 := by
                rw [← hs1]
                exact (hfl.trans (Frame.openNew _ _ t x.name vs (by omega : c + 1 ≤ c1 + 1)) (Nat.le_refl _)).trans
                  (Frame.aliasNew _ _ _ (by omega : c + 1 ≤ c1)) (Nat.le_refl _)
              have hab : Above c3 s0 s1 := by rw [← hs1]; exact fun _ _ => rfl
              have hsink : s1.sink (.stream c1) = .stream (c1 + 1) := by
                rw [← hs1]
                simp only [State.sink, State.alias, upd_same, State.open]
              have hi1 : s1.info (c1 + 1) = some (.owned (s.sink t) x.name vs) := by
                rw [← hs1]
                simp only [State.alias, State.open]
                rw [upd_ne _ _ (by omega), upd_same, hlt]
              have hi0 : s1.info c1 = some (.alias (.stream (c1 + 1))) := by
                rw [← hs1]
                simp only [State.alias, State.open, State.sink, upd_same]
              have hm1 : s1.mem (.stream (c1 + 1)) = some [] := by
                rw [← hs1]; simp only [State.alias, State.open, upd_same]
              have hctx1 : Ctx m s1 (c1 + 2) (.stream c1) env := by
                have hb := hctx.step hfr (Nat.le_refl _)
                refine ⟨hb.env_eq, fun n r hn => by have := hb.refs_lt n r hn; omega,
                  by simp [Target.lt], ?_, ?_, ?_⟩
                · rw [hsink]; simp [Target.lt]
                · rw [hsink, hm1]; rfl
                · rw [hsink]; simp only [State.sink, hi1]
              have hi := ih s1 (c1 + 2) (.stream c1) hctx1 (by rw [hG]; exact hle) (by
                rw [hG]; simp only
                intro s2 k1 k2 k3
                refine hB s2 k1 ?_ ?_
                · rw [hsink] at k2
                  have k2' : Frame (c + 1) (s.sink t) [] s1 s2 :=
                    (k2.mono (by omega : c + 1 ≤ c1 + 2)).other (by simp [Target.lt]; omega)
                  have := (hfr.trans k2' (Nat.le_refl _)).mono (by omega : c ≤ c + 1)
                  have h0 := Frame.setReg (s.sink t) s (.bool true) (Nat.le_refl c)
                  rw [hs0] at h0
                  exact h0.trans this (Nat.le_refl c)
                · refine (Above.trans ?_ k3)
                  intro r hr
                  rw [← hs1, ← hs0]
                  show (s.setReg c (.bool true)).regs r = s.regs r
                  exact setReg_ne _ _ (by omega))
              rw [hG, hsink] at hi
              simp only at hi
              refine Sim.pre hex hfr hab (Nat.le_refl _) ?_
              have hassoc : q ++ (B ++ (cl ++ Prog.op (.endStream c1) (.one (.drop (c1 + 1))))) =
                  (q ++ (B ++ cl)) ++ Prog.op (.endStream c1) (.one (.drop (c1 + 1))) := by
                simp only [Prog.append_assoc]
              rw [hassoc]
              cases hr : encXforms X env xs r with
              | error f =>
                rw [hr] at hi; simp only [Sim] at hi
                simp only [err_bind, Sim]
                rw [exec_append, hi]; rfl
              | ok pr =>
                obtain ⟨a, bs⟩ := pr
                rw [hr] at hi
                obtain ⟨s2, k1, k2, k3, k4⟩ := hi
                simp only [ok_bind]
                have j0 : s2.info c1 = some (.alias (.stream (c1 + 1))) := by rw [k2.info c1 (by omega), hi0]
                have j1 : s2.info (c1 + 1) = some (.owned (s.sink t) x.name vs) := by
                  rw [k2.info _ (by omega), hi1]
                have j2 : s2.mem (.stream (c1 + 1)) = some bs := by
                  rw [k2.mem _ (by simp [Target.lt]), if_pos rfl, hm1]; rfl
                have hfin := finish_owned (X := X) j1 j2
                have hfr2 : Frame (c + 1) (s.sink t) [] s1 s2 :=
                  (k2.mono (by omega : c + 1 ≤ c1 + 2)).other (by simp [Target.lt]; omega)
                have hfr02 := hfr.trans hfr2 (Nat.le_refl _)
                have hT : (s.sink t).lt (c + 1) := Target.lt_mono h.slt (by omega)
                have hroot : s2.sink (s.sink t) = s.sink t := by
                  rw [sink_eq hfr02.info hT, ← hsk]; exact hctx.root
                have hlive : (s2.mem (s.sink t)).isSome := by
                  rw [hfr02.live hT, ← hsk]; exact hctx.live
                have hend : exec X (refsAfter (q ++ (B ++ cl)) m)
                    (Prog.op (.endStream c1) (.one (.drop (c1 + 1)))) s2 =
                    match s2.finish X (c1 + 1) with
                    | .ok s' => .next s'
                    | .error f => .fault f := by
                  have e1 : s2.finish X c1 = .ok s2 := by simp only [State.finish, j0]
                  have e2 : ∀ m', execOp X m' s2 (.drop (c1 + 1)) = s2.finish X (c1 + 1) := by
                    intro m'; simp only [execOp]; rw [j1]
                  rw [exec_one (by simp) (by simp)]
                  simp only [execOp, e1]
                  rw [Prog.one_def, exec_one (by simp) (by simp), e2]
                  cases s2.finish X (c1 + 1) <;> rfl
                cases hx : X.xform x.name vs bs with
                | error f =>
                  simp only [err_bind, Sim]
                  rw [exec_append, k1]
                  simp only [Out.andThen]
                  rw [hend, hfin, hx]; rfl
                | ok out =>
                  obtain ⟨s3, w1, w2, w3⟩ := write_sink (c := c + 1) hroot hlive out
                  simp only [ok_bind]
                  refine ⟨s3, ?_, ?_, ?_, ?_⟩
                  · rw [exec_append, k1]
                    simp only [Out.andThen]
                    rw [hend, hfin, hx, ok_bind, w1]
                  · have := hfr2.trans w2 (Nat.le_refl _)
                    simpa using this
                  · intro r hr; rw [w3]; exact k3 r hr
                  · rw [w3]; exact k4
        | _ =>
          simp only [Val.toBool, err_bind, Sim, exec, setReg_same]
    | none =>
      simp only [hcond] at hle hB ⊢
      generalize hA : genArgs c x.args = A at *
      obtain ⟨c1, p, rs⟩ := A
      simp only at hle hB ⊢
      generalize hG : genXforms (.stream c1) (c1 + 1) xs = G at *
      obtain ⟨c2, q, t', cl⟩ := G
      simp only at hle hB ⊢
      have hc1 : c ≤ c1 := by have := genArgs_le c x.args; rw [hA] at this; exact this
      have hc2 : c1 + 1 ≤ c2 := by have := genXforms_le (.stream c1) (c1 + 1) xs; rw [hG] at this; exact this
      have hargs := sim_args (X := X) h x.args (s.sink t)
      rw [hA] at hargs
      simp only at hargs
      have hra : refsAfter p m = m := by
        have := refsAfter_genArgs c x.args m; rw [hA] at this; exact this
      simp only [Prog.append_assoc, Prog.op_append]
      cases hvs : x.args.mapM (ev X env) with
      | error f =>
        rw [hvs] at hargs
        simp only [err_bind, Sim] at hargs ⊢
        rw [exec_append, hargs]; rfl
      | ok vs =>
        rw [hvs] at hargs
        simp only [ok_bind] at hargs ⊢
        obtain ⟨sa, a1, a2, a3, a4⟩ := hargs
        have hsa : sa.args rs = .ok vs := a4
        generalize hs1 : sa.open t c1 x.name vs = s1
        have hex : exec X m (p ++ Prog.op (.wrap t c1 x.name rs) (q ++ (B ++ (cl ++ .one (.endStream c1))))) s =
            exec X m (q ++ (B ++ (cl ++ .one (.endStream c1)))) s1 := by
          rw [exec_append, a1]
          simp only [Out.andThen, hra, exec, execOp, hsa, ok_bind, hs1]
        have hlt : sa.sink t = s.sink t := sink_eq a2.info h.tlt
        have hfr : Frame c (s.sink t) [] s s1 := by
          rw [← hs1]
          exact a2.trans (Frame.openNew _ _ t x.name vs hc1) (Nat.le_refl _)
        have hab : Above c1 s s1 := by rw [← hs1]; exact fun r hr => a3 r hr
        have hi1 : s1.info c1 = some (.owned (s.sink t) x.name vs) := by
          rw [← hs1]; simp only [State.open, upd_same, hlt]
        have hsink : s1.sink (.stream c1) = .stream c1 := by simp only [State.sink, hi1]
        have hm1 : s1.mem (.stream c1) = some [] := by
          rw [← hs1]; simp only [State.open, upd_same]
        have hctx1 : Ctx m s1 (c1 + 1) (.stream c1) env := by
          have hb := h.step hfr (Nat.le_refl _)
          refine ⟨hb.env_eq, fun n r hn => by have := hb.refs_lt n r hn; omega,
            by simp [Target.lt], ?_, ?_, ?_⟩
          · rw [hsink]; simp [Target.lt]
          · rw [hsink, hm1]; rfl
          · rw [hsink, hsink]
        have hi := ih s1 (c1 + 1) (.stream c1) hctx1 (by rw [hG]; exact hle) (by
          rw [hG]; simp only
          intro s2 k1 k2 k3
          refine hB s2 k1 ?_ ?_
          · rw [hsink] at k2
            have k2' : Frame c (s.sink t) [] s1 s2 :=
              (k2.mono (by omega : c ≤ c1 + 1)).other (by simp [Target.lt]; omega)
            exact hfr.trans k2' (Nat.le_refl _)
          · exact (hab.mono (by omega)).trans k3)
        rw [hG, hsink] at hi
        simp only at hi
        refine Sim.pre hex hfr (hab.mono (by omega)) (Nat.le_refl _) ?_
        have hassoc : q ++ (B ++ (cl ++ .one (.endStream c1))) =
            (q ++ (B ++ cl)) ++ .one (.endStream c1) := by
          simp only [Prog.append_assoc]
        rw [hassoc]
        cases hr : encXforms X env xs r with
        | error f =>
          rw [hr] at hi; simp only [Sim] at hi
          simp only [err_bind, Sim]
          rw [exec_append, hi]; rfl
        | ok pr =>
          obtain ⟨a, bs⟩ := pr
          rw [hr] at hi
          obtain ⟨s2, k1, k2, k3, k4⟩ := hi
          simp only [ok_bind]
          have j1 : s2.info c1 = some (.owned (s.sink t) x.name vs) := by
            rw [k2.info _ (by omega), hi1]
          have j2 : s2.mem (.stream c1) = some bs := by
            rw [k2.mem _ (by simp [Target.lt]), if_pos rfl, hm1]; rfl
          have hfin := finish_owned (X := X) j1 j2
          have hfr2 : Frame c (s.sink t) [] s1 s2 :=
            (k2.mono (by omega : c ≤ c1 + 1)).other (by simp [Target.lt]; omega)
          have hfr02 := hfr.trans hfr2 (Nat.le_refl _)
          have hroot : s2.sink (s.sink t) = s.sink t := by
            rw [sink_eq hfr02.info h.slt]; exact h.root
          have hlive : (s2.mem (s.sink t)).isSome := by
            rw [hfr02.live h.slt]; exact h.live
          have hend : exec X (refsAfter (q ++ (B ++ cl)) m) (.one (.endStream c1)) s2 =
              match s2.finish X c1 with
              | .ok s' => .next s'
              | .error f => .fault f := by
            rw [Prog.one_def, exec_one (by simp) (by simp)]
            simp only [execOp]
            cases s2.finish X c1 <;> rfl
          cases hx : X.xform x.name vs bs with
          | error f =>
            simp only [err_bind, Sim]
            rw [exec_append, k1]
            simp only [Out.andThen]
            rw [hend, hfin, hx]; rfl
          | ok out =>
            obtain ⟨s3, w1, w2, w3⟩ := write_sink (c := c) hroot hlive out
            simp only [ok_bind]
            refine ⟨s3, ?_, ?_, ?_, ?_⟩
            · rw [exec_append, k1]
              simp only [Out.andThen]
              rw [hend, hfin, hx, ok_bind, w1]
            · have := hfr2.trans w2 (Nat.le_refl _)
              simpa using this
            · intro r hr; rw [w3]; exact k3 r hr
            · rw [w3]; exact k4

end Verif.Enc
