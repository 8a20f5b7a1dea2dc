import Verif.EncodeSpec
/-!
# Writers that fail

`EncodeVM` gives the generated encoders a writer that takes everything. Here the caller's writer takes a number of bytes and from then on fails:
a `&mut [u8]`, a full disk, a connection that breaks. Buffers (`Vec<u8>`) do not fail.

A transform's writer passes on what it makes of the data in two steps (`compiler/encoder.rs` 178-184, `EndStream`: `stream.flush()?; drop(stream);`): what
`flush` writes, whose error is returned, and what the destructor writes, whose error nobody sees. Simplifications: a transform's writer passes nothing on before
that; the `flush` of a conditional transform (`field.rs` 150-155: `EndStream` and then `Drop`) happens together with the destructor.
After an error, destructors of writers that are still open write to a writer that fails; nothing more gets through.
-/
namespace Verif.Enc
open Verif

/-- What of `bs` a writer with room for `room` bytes takes. -/
def cap : Option Nat → Bytes → Bytes
  | some n, bs => bs.take n
  | none, bs => bs

/-- It takes all of it. -/
def fits : Option Nat → Bytes → Bool
  | some n, bs => decide (bs.length ≤ n)
  | none, _ => true

/-- The error of `write_all`. -/
def ioFault : Fault := .err "failed to write whole buffer"

/-- Something that writes: given the room there is, the bytes that got through and `Ok` or the error. -/
abbrev Writes := Option Nat → Bytes × Res Unit

/-- `write_all(bs)?`. -/
def writeAll (bs : Bytes) : Writes := fun room => (cap room bs, if fits room bs then .ok () else .error ioFault)

/-- What the generated code calls, on writers that may fail. `xform` gives what the writer of a transform
writes in `flush`, and what it writes when it is dropped. -/
structure ExtW where
  oc : Bool
  input : String → Option Val
  call : String → List Val → Val → Writes
  foreign : String → List Val → Val → Writes
  xform : String → List Val → Bytes → Res (Bytes × Bytes)

/-- A statement fails in a state: what has been written stays written. -/
abbrev ResW := Except (Fault × State)

def inState {α} (s : State) (r : Res α) (k : α → ResW State) : ResW State :=
  match r with
  | .ok a => k a
  | .error f => .error (f, s)

/-- Writes to a sink: only the caller's writer, `Target.direct`, has limited room. -/
def State.put (room : Option Nat) (s : State) (t : Target) (f : Writes) : ResW State :=
  let left := if s.sink t = .direct then room.map (· - ((s.mem (s.sink t)).getD []).length) else none
  match s.mem (s.sink t) with
  | some b =>
    let s' := { s with mem := upd s.mem (s.sink t) (some (b ++ (f left).1)) }
    match (f left).2 with
    | .ok _ => .ok s'
    | .error e => .error (e, s')
  | none =>
    match (f left).2 with
    | .ok _ => .error (.ill, s)
    | .error e => .error (e, s)

/-- `stream.flush()?; drop(stream);` -/
def State.finishW (room : Option Nat) (X : ExtW) (s : State) (r : Nat) : ResW State :=
  match s.info r with
  | some (.owned u xf args) =>
    inState s (optRes (s.mem (.stream r))) fun data =>
    inState s (X.xform xf args data) fun out =>
    match s.put room u (writeAll out.1) with
    | .error e => .error e
    | .ok s1 =>
      match s1.put room u (writeAll out.2) with
      | .ok s2 => .ok s2
      | .error (_, s2) => .ok s2
  | some (.alias _) => .ok s
  | none => .error (.ill, s)

/-- The statements that write nothing run as before. -/
def ExtW.quiet (X : ExtW) : Ext := ⟨X.oc, X.input, fun _ _ _ => .error .ill, fun _ _ _ => .error .ill, fun _ _ _ => .error .ill⟩

/-- One statement without blocks, as `execOp` (`compiler/encoder.rs` 37-441). -/
def execOpW (room : Option Nat) (X : ExtW) (refs : Refs) (s : State) (i : Op) : ResW State :=
  match i with
  | .endStream r => s.finishW room X r
  | .drop r => match s.info r with
    | some _ => s.finishW room X r
    | none => .ok s
  | .emitBuf t b => inState s (optRes (s.mem (.buf b))) fun bs => s.put room t (writeAll bs)
  | .foreign t src n args =>
    inState s (s.args args) fun vs => inState s (s.reg src) fun v => s.put room t (X.foreign n vs v)
  | .ref t src n args =>
    inState s (s.args args) fun vs => inState s (s.reg src) fun v => s.put room t (X.call n vs v)
  | .repr t src ty => inState s (s.reg src) fun v => inState s (encRepr ty v) fun bs => s.put room t (writeAll bs)
  | .prim t src p => inState s (s.reg src) fun v => inState s (encPrim p v) fun bs => s.put room t (writeAll bs)
  | .primArray t src p len =>
    inState s (optLen s len) fun k => inState s (s.reg src) fun v => inState s (encPrimArray p k v) fun bs =>
      s.put room t (writeAll bs)
  | .reprArray t src ty len =>
    inState s (optLen s len) fun k => inState s (s.reg src) fun v => inState s (encReprArray ty k v) fun bs =>
      s.put room t (writeAll bs)
  | .pad t len => inState s (s.reg len) fun v => inState s (padBytes v) fun bs => s.put room t (writeAll bs)
  | i => inState s (execOp X.quiet refs s i) .ok

inductive OutW
  | next (s : State)
  | brk (s : State)
  | fault (f : Fault) (s : State)

/-- As `loopN`. -/
def loopNW (body : State → OutW) (idx : Nat) : Nat → Nat → State → OutW
  | _, 0, s => .next s
  | i, n + 1, s =>
    match body (s.setReg idx (.int ⟨.u64, i⟩)) with
    | .next s' => loopNW body idx (i + 1) n (s.leave s')
    | o => o

/-- Runs an instruction list, as `exec`. -/
def execW (room : Option Nat) (X : ExtW) : Refs → Prog → State → OutW
  | _, .nil, s => .next s
  | refs, .op i rest, s =>
    match i with
    | .brk => .brk s
    | .setRef n r => execW room X (upd refs n (some r)) rest s
    | i =>
      match execOpW room X refs s i with
      | .ok s' => execW room X refs rest s'
      | .error (f, s') => .fault f s'
  | refs, .loop idx len inner rest, s =>
    match (s.reg len).bind rangeCount with
    | .ok n =>
      match loopNW (execW room X refs inner) idx 0 n s with
      | .next s' => execW room X (refsAfter inner refs) rest s'
      | o => o
    | .error f => .fault f s
  | refs, .cond c inner rest, s =>
    match s.regs c with
    | some (.bool true) =>
      match execW room X refs inner s with
      | .next s' => execW room X (refsAfter inner refs) rest (s.leave s')
      | o => o
    | some (.bool false) => execW room X (refsAfter inner refs) rest s
    | _ => .fault .ill s
  | refs, .condWrap c prelude u new owned xf args rest, s =>
    match s.regs c with
    | some (.bool true) =>
      match execW room X refs prelude s with
      | .next s' =>
        match s'.args args with
        | .ok vs =>
          let s1 := (s.leave s').open u owned xf vs
          execW room X (refsAfter prelude refs) rest (s1.alias (.stream owned) new)
        | .error f => .fault f s'
      | o => o
    | some (.bool false) => execW room X (refsAfter prelude refs) rest ((s.noStream owned).alias u new)
    | _ => .fault .ill s
  | refs, .block inner rest, s =>
    match execW room X refs inner s with
    | .next s' => execW room X (refsAfter inner refs) rest (s.leave s')
    | .brk s' => execW room X (refsAfter inner refs) rest (s.leave s')
    | o => o

/-- The bytes that have got through to the caller's writer. -/
def State.out (s : State) : Bytes := (s.mem .direct).getD []

/-- As `runProg`. -/
def runProgW (X : ExtW) (p : Prog) (v : Val) : Writes := fun room =>
  match execW room X (fun _ => none) p (initState v) with
  | .next s => (s.out, (optRes (s.mem .direct)).bind fun _ => .ok ())
  | .brk s => (s.out, .error .ill)
  | .fault f s => (s.out, .error f)

/-- As `runDecl`. -/
def runDeclW (X : ExtW) (d : Decl) (v : Val) : Writes :=
  if (genDecl d).1.ok ∧ typeName v = some d.name then runProgW X (genDecl d).2 v else fun _ => ([], .error .ill)

/-- Foreign types and transforms, on writers that may fail. -/
structure LibW where
  oc : Bool
  foreign : String → List Val → Val → Writes
  xform : String → List Val → Bytes → Res (Bytes × Bytes)

/-- `value.encode_sync(writer, args)` of the code generated for a schema, on a writer with the given room: the bytes it takes, and `Ok` or the
error. -/
def runEncodeW (sch : Schema) (L : LibW) : Nat → String → List Val → Val → Writes
  | 0, _, _, _ => fun _ => ([], .error .diverge)
  | fuel + 1, n, args, v =>
    match sch.find n with
    | none => fun _ => ([], .error .ill)
    | some d =>
      if d.params.length ≠ args.length then fun _ => ([], .error .ill)
      else runDeclW ⟨L.oc, Dec.bindArgs d.params args, runEncodeW sch L fuel, L.foreign, L.xform⟩ d v

/-! ## Room -/

theorem cap_nil (room : Option Nat) : cap room [] = [] := by cases room <;> simp [cap]

theorem cap_of_fits {room : Option Nat} {bs : Bytes} (h : fits room bs = true) : cap room bs = bs := by
  cases room with
  | none => rfl
  | some n => exact List.take_of_length_le (by simpa [fits] using h)

theorem cap_append (room : Option Nat) (a b : Bytes) :
    cap room a ++ cap (room.map (· - (cap room a).length)) b = cap room (a ++ b) := by
  cases room with
  | none => rfl
  | some n =>
    simp only [cap, Option.map_some, List.take_append, List.length_take]
    congr 2
    omega

theorem fits_rest {room : Option Nat} {a : Bytes} (h : fits room a = true) (b : Bytes) :
    fits (room.map (· - (cap room a).length)) b = fits room (a ++ b) := by
  rw [cap_of_fits h]
  cases room with
  | none => rfl
  | some n =>
    simp only [fits, Option.map_some, List.length_append, decide_eq_true_eq] at h ⊢
    congr 1
    exact propext ⟨by omega, by omega⟩

theorem fits_left {room : Option Nat} {a b : Bytes} (h : fits room (a ++ b) = true) : fits room a = true := by
  cases room with
  | none => rfl
  | some n => simp [fits] at h ⊢; omega

theorem cap_prefix {room : Option Nat} {a : Bytes} (h : fits room a = false) (b : Bytes) : cap room (a ++ b) = cap room a := by
  cases room with
  | none => cases h
  | some n => exact List.take_append_of_le_length (by simp [fits] at h; omega)

/-! ## Meeting the specification -/

/-- `f` writes what `r` says, as far as there is room. `strict`: it also says so if there is not enough. -/
def Meets (strict : Bool) (r : Res Bytes) (f : Writes) : Prop :=
  ∀ room, match r with
  | .ok bs => (f room).1 = cap room bs ∧ (fits room bs = true → (f room).2 = .ok ()) ∧
      ((f room).2 = .ok () ∨ (f room).2 = .error ioFault) ∧
      (strict = true → fits room bs = false → (f room).2 = .error ioFault)
  | .error e => (f room).2 = .error e ∨ (f room).2 = .error ioFault

theorem writeAll_meets (strict : Bool) (bs : Bytes) : Meets strict (.ok bs) (writeAll bs) := by
  intro room
  simp only [writeAll]
  cases h : fits room bs <;> simp

structure ExtMeets (strict : Bool) (X : Ext) (Y : ExtW) : Prop where
  oc : Y.oc = X.oc
  input : Y.input = X.input
  call : ∀ n vs v, Meets strict (X.call n vs v) (Y.call n vs v)
  foreign : ∀ n vs v, Meets strict (X.foreign n vs v) (Y.foreign n vs v)
  xform : ∀ n vs d, X.xform n vs d = (Y.xform n vs d).map fun o => o.1 ++ o.2
  drops : strict = true → ∀ n vs d o, Y.xform n vs d = .ok o → o.2 = []

theorem upd_buf (m : Target → Option Bytes) (b : Nat) (x : Option Bytes) : upd m (.buf b) x .direct = m .direct :=
  upd_ne _ _ (by simp)

theorem open_direct (s : State) (u : Target) (r : Nat) (xf : String) (args : List Val) :
    (s.open u r xf args).mem .direct = s.mem .direct := by
  unfold State.open
  simp [upd]

/-- The state of the limited run. -/
def lim (room : Option Nat) (s : State) : State :=
  { s with mem := fun t => if t = .direct then (s.mem .direct).map (cap room) else s.mem t }

theorem lim_mem {room : Option Nat} {s : State} {t : Target} (h : t ≠ .direct) : (lim room s).mem t = s.mem t := by
  simp [lim, h]

theorem lim_direct {room : Option Nat} {s : State} : (lim room s).mem .direct = (s.mem .direct).map (cap room) := by
  simp [lim]

theorem lim_sink {room : Option Nat} {s : State} (t : Target) : (lim room s).sink t = s.sink t := rfl

/-- Everything written so far has got through. -/
def Fit (room : Option Nat) (s : State) : Prop := ∀ b, s.mem .direct = some b → fits room b = true

/-- The limited run has ended with an error before a state of the unlimited one. -/
def Stopped (room : Option Nat) (s' : State) (f : Fault) (w : State) : Prop :=
  f = ioFault ∧ ∃ b b', w.mem .direct = some (cap room b) ∧ fits room b = false ∧ s'.mem .direct = some (b ++ b')

/-- How a write of the limited run ends. -/
def PutRel (strict : Bool) (room : Option Nat) (o : Res State) (oW : ResW State) : Prop :=
  match o with
  | .ok s => (oW = .ok (lim room s) ∧ (strict = true → Fit room s)) ∨
      (oW = .error (ioFault, lim room s) ∧ ∃ b, s.mem .direct = some b ∧ fits room b = false)
  | .error f => ∃ f' w, oW = .error (f', w) ∧ (f' = f ∨ f' = ioFault)

/-- How a statement of the limited run ends. -/
def StepRel (strict : Bool) (room : Option Nat) (o : Res State) (oW : ResW State) : Prop :=
  match o with
  | .ok s => (oW = .ok (lim room s) ∧ (strict = true → Fit room s)) ∨ (∃ f w, oW = .error (f, w) ∧ Stopped room s f w)
  | .error f => ∃ f' w, oW = .error (f', w) ∧ (f' = f ∨ f' = ioFault)

theorem upd_comm {α β} [DecidableEq α] (f : α → β) {a b : α} (h : a ≠ b) (x y : β) :
    upd (upd f a x) b y = upd (upd f b y) a x := by
  funext z
  simp only [upd]
  by_cases h1 : z = a
  · subst h1; simp [h]
  · simp [h1]

/-- Writing to a sink that is not the caller's writer. -/
theorem lim_upd {room : Option Nat} {s : State} {t : Target} (h : t ≠ .direct) (x : Option Bytes) :
    { lim room s with mem := upd (lim room s).mem t x } = lim room { s with mem := upd s.mem t x } := by
  simp only [lim]
  congr 1
  funext z
  simp only [upd]
  by_cases hz : z = t
  · subst hz; simp [h]
  · simp [hz, Ne.symm h]

theorem lim_upd_direct {room : Option Nat} {s : State} (x : Bytes) :
    { lim room s with mem := upd (lim room s).mem .direct (some (cap room x)) } =
      lim room { s with mem := upd s.mem .direct (some x) } := by
  simp only [lim]
  congr 1
  funext z
  simp only [upd]
  by_cases hz : z = .direct
  · subst hz; simp
  · simp [hz]

theorem open_lim {room : Option Nat} {s : State} (u : Target) (r : Nat) (xf : String) (args : List Val) :
    (lim room s).open u r xf args = lim room (s.open u r xf args) := by
  unfold State.open
  have := lim_upd (room := room) (s := s) (t := .stream r) (by simp) (some [])
  simp only [lim] at this ⊢
  injection this with _ h2 _
  simp only [h2]
  rfl

theorem put_rel {strict : Bool} {room : Option Nat} {s : State} (hs : strict = true → Fit room s) (t : Target) {r : Res Bytes} {f : Writes}
    (hf : Meets strict r f) : PutRel strict room (r >>= fun bs => s.write t bs) ((lim room s).put room t f) := by
  unfold State.put
  simp only [lim_sink]
  by_cases ht : s.sink t = .direct
  · simp only [ht, if_true, lim_direct]
    cases hm : s.mem .direct with
    | none =>
      simp only [Option.map_none, Option.getD_none]
      have := hf (room.map (· - ([] : Bytes).length))
      cases r with
      | ok bs =>
        simp only [ok_bind, State.write, ht, hm]
        obtain ⟨_, _, h3, _⟩ := this
        rcases h3 with h3 | h3
        · rw [h3]; exact ⟨_, _, rfl, .inl rfl⟩
        · rw [h3]; exact ⟨_, _, rfl, .inr rfl⟩
      | error e =>
        rcases this with h3 | h3
        · rw [h3]; exact ⟨_, _, rfl, .inl rfl⟩
        · rw [h3]; exact ⟨_, _, rfl, .inr rfl⟩
    | some b =>
      simp only [Option.map_some, Option.getD_some]
      have := hf (room.map (· - (cap room b).length))
      cases r with
      | error e =>
        rcases this with h3 | h3
        · rw [h3]; exact ⟨_, _, rfl, .inl rfl⟩
        · rw [h3]; exact ⟨_, _, rfl, .inr rfl⟩
      | ok bs =>
        simp only [ok_bind, State.write, ht, hm]
        obtain ⟨h1, h2, h3, h4⟩ := this
        rw [h1, cap_append, lim_upd_direct]
        rcases h3 with h3 | h3
        · rw [h3]
          refine .inl ⟨rfl, fun hst b' hb' => ?_⟩
          have hfit := hs hst b hm
          simp only [upd_same, Option.some.injEq] at hb'
          subst hb'
          rw [fits_rest hfit] at h4
          cases hc : fits room (b ++ bs) with
          | true => rfl
          | false => rw [h4 hst hc] at h3; cases h3
        · rw [h3]
          refine .inr ⟨rfl, b ++ bs, by simp, ?_⟩
          · cases hc : fits room (b ++ bs) with
            | false => rfl
            | true =>
              have hb := fits_left hc
              rw [← fits_rest hb] at hc
              rw [h2 hc] at h3
              cases h3
  · simp only [ht, if_false]
    rw [lim_mem ht]
    have := hf none
    cases hm : s.mem (s.sink t) with
    | none =>
      cases r with
      | ok bs =>
        simp only [ok_bind, State.write, hm]
        rcases this.2.2.1 with h3 | h3
        · rw [h3]; exact ⟨_, _, rfl, .inl rfl⟩
        · rw [h3]; exact ⟨_, _, rfl, .inr rfl⟩
      | error e =>
        rcases this with h3 | h3
        · rw [h3]; exact ⟨_, _, rfl, .inl rfl⟩
        · rw [h3]; exact ⟨_, _, rfl, .inr rfl⟩
    | some b =>
      cases r with
      | error e =>
        rcases this with h3 | h3
        · rw [h3]; exact ⟨_, _, rfl, .inl rfl⟩
        · rw [h3]; exact ⟨_, _, rfl, .inr rfl⟩
      | ok bs =>
        simp only [ok_bind, State.write, hm]
        rw [this.2.1 rfl, this.1]
        refine .inl ⟨?_, fun hst b' hb' => hs hst b' ?_⟩
        · simp only [cap]
          rw [lim_upd ht]
        · rw [← hb']
          exact (upd_ne _ _ (Ne.symm ht)).symm

theorem PutRel.step {strict : Bool} {room : Option Nat} {o : Res State} {oW : ResW State} (h : PutRel strict room o oW) :
    StepRel strict room o oW := by
  cases o with
  | error f => exact h
  | ok s =>
    rcases h with h | ⟨h, b, hb, hf⟩
    · exact .inl h
    · exact .inr ⟨_, _, h, rfl, b, [], by rw [lim_direct, hb]; rfl, hf, by simp [hb]⟩

theorem write_append (s : State) (t : Target) (a b : Bytes) :
    s.write t (a ++ b) = s.write t a >>= fun s1 => s1.write t b := by
  unfold State.write
  cases hm : s.mem (s.sink t) with
  | none => rfl
  | some c =>
    simp only [ok_bind]
    have : State.sink { s with mem := upd s.mem (s.sink t) (some (c ++ a)) } t = s.sink t := rfl
    simp only [this, upd_same, List.append_assoc]
    congr 2
    funext z
    simp only [upd]
    split <;> rfl

/-- Writing never takes back. -/
theorem write_grows {s s' : State} {t : Target} {bs b : Bytes} (h : s.write t bs = .ok s') (hb : s.mem .direct = some b) :
    ∃ b', s'.mem .direct = some (b ++ b') := by
  unfold State.write at h
  cases hm : s.mem (s.sink t) with
  | none => rw [hm] at h; cases h
  | some c =>
    rw [hm] at h
    cases h
    by_cases ht : s.sink t = .direct
    · rw [ht, hb] at hm
      cases hm
      exact ⟨bs, by simp [ht]⟩
    · exact ⟨[], by simp [upd_ne _ _ (Ne.symm ht), hb]⟩

theorem inState_rel {α} {strict : Bool} {room : Option Nat} {s : State} {r : Res α} {k : α → Res State} {kW : α → ResW State}
    (h : ∀ a, r = .ok a → StepRel strict room (k a) (kW a)) : StepRel strict room (r >>= k) (inState s r kW) := by
  cases r with
  | ok a => exact h a rfl
  | error f => exact ⟨f, s, rfl, .inl rfl⟩

theorem finish_rel {strict : Bool} {room : Option Nat} {X : Ext} {Y : ExtW} (hX : ExtMeets strict X Y) {s : State}
    (hs : strict = true → Fit room s) (r : Nat) : StepRel strict room (s.finish X r) ((lim room s).finishW room Y r) := by
  unfold State.finish State.finishW
  have hi : (lim room s).info = s.info := rfl
  rw [hi]
  cases s.info r with
  | none => exact ⟨_, _, rfl, .inl rfl⟩
  | some i =>
    cases i with
    | alias t => exact .inl ⟨rfl, hs⟩
    | owned u xf args =>
      simp only [lim_mem (t := .stream r) (by simp)]
      refine inState_rel fun data _ => ?_
      rw [hX.xform]
      cases hx : Y.xform xf args data with
      | error f => exact ⟨_, _, rfl, .inl rfl⟩
      | ok o =>
        simp only [Except.map, ok_bind, inState, write_append]
        have h1 := put_rel hs u (writeAll_meets strict o.1)
        simp only [ok_bind] at h1
        cases hw : s.write u o.1 with
        | error f =>
          rw [hw] at h1
          obtain ⟨f', w, h1, hf⟩ := h1
          rw [h1]
          exact ⟨f', w, rfl, hf⟩
        | ok s1 =>
          rw [hw] at h1
          simp only [ok_bind]
          rcases h1 with ⟨h1, hs1⟩ | ⟨h1, b, hb, hfb⟩
          · rw [h1]
            have h2 := put_rel hs1 u (writeAll_meets strict o.2)
            simp only [ok_bind] at h2
            cases hw2 : s1.write u o.2 with
            | error f =>
              -- the sink exists: it has just been written to
              exfalso
              unfold State.write at hw hw2
              cases hm : s.mem (s.sink u) with
              | none => rw [hm] at hw; cases hw
              | some c =>
                rw [hm] at hw
                cases hw
                have : State.sink { s with mem := upd s.mem (s.sink u) (some (c ++ o.1)) } u = s.sink u := rfl
                simp [this] at hw2
            | ok s2 =>
              rw [hw2] at h2
              rcases h2 with ⟨h2, hs2⟩ | ⟨h2, b, hb, hfb⟩
              · simp only [h2]
                exact .inl ⟨rfl, hs2⟩
              · simp only [h2]
                refine .inl ⟨rfl, fun hst => ?_⟩
                -- nothing is left to write
                have hd := hX.drops hst _ _ _ _ hx
                rw [hd] at hw2
                intro b' hb'
                have : s2.mem .direct = s1.mem .direct := by
                  unfold State.write at hw2
                  cases hm : s1.mem (s1.sink u) with
                  | none => rw [hm] at hw2; cases hw2
                  | some c =>
                    rw [hm] at hw2
                    cases hw2
                    simp only [List.append_nil, upd]
                    split
                    · rename_i he
                      rw [he, hm]
                    · rfl
                rw [this] at hb'
                exact hs1 hst b' hb'
          · rw [h1]
            cases hw2 : s1.write u o.2 with
            | error f => exact ⟨_, _, rfl, .inr rfl⟩
            | ok s2 =>
              obtain ⟨b', hb'⟩ := write_grows hw2 hb
              exact .inr ⟨_, _, rfl, rfl, b, b', by rw [lim_direct, hb]; rfl, hfb, hb'⟩

theorem quiet_rel {strict : Bool} {room : Option Nat} {X : Ext} {Y : ExtW} {refs : Refs} {s : State}
    (hs : strict = true → Fit room s) {i : Op} {α} {r : Res α} {k : α → State} {kW : α → State}
    (h : execOp X refs s i = r >>= fun a => .ok (k a)) (hW : execOp Y.quiet refs (lim room s) i = r >>= fun a => .ok (kW a))
    (hk : ∀ a, kW a = lim room (k a)) (hm : ∀ a, (k a).mem .direct = s.mem .direct) :
    StepRel strict room (execOp X refs s i) (inState (lim room s) (execOp Y.quiet refs (lim room s) i) .ok) := by
  rw [h, hW]
  cases r with
  | error f => exact ⟨f, _, rfl, .inl rfl⟩
  | ok a =>
    refine .inl ⟨?_, fun hst b hb => hs hst b ?_⟩
    · simp only [ok_bind, inState, hk]
    · rw [← hm a]; exact hb

theorem execOp_rel {strict : Bool} {room : Option Nat} {X : Ext} {Y : ExtW} (hX : ExtMeets strict X Y) (refs : Refs) {s : State}
    (hs : strict = true → Fit room s) (i : Op) : StepRel strict room (execOp X refs s i) (execOpW room Y refs (lim room s) i) := by
  have hreg : ∀ r, (lim room s).reg r = s.reg r := fun _ => rfl
  have hargs : ∀ r, (lim room s).args r = s.args r := fun _ => rfl
  have hlen : ∀ r, optLen (lim room s) r = optLen s r := fun _ => rfl
  have hinfo : (lim room s).info = s.info := rfl
  cases i with
  | endStream r => exact finish_rel hX hs r
  | drop r =>
    simp only [execOp, execOpW, hinfo]
    cases s.info r with
    | none => exact .inl ⟨rfl, hs⟩
    | some i => exact finish_rel hX hs r
  | emitBuf t b =>
    simp only [execOp, execOpW, lim_mem (t := .buf b) (by simp)]
    exact inState_rel fun bs _ => (put_rel hs t (writeAll_meets strict bs)).step
  | foreign t src n args =>
    simp only [execOp, execOpW, hreg, hargs]
    exact inState_rel fun vs _ => inState_rel fun v _ => (put_rel hs t (hX.foreign n vs v)).step
  | ref t src n args =>
    simp only [execOp, execOpW, hreg, hargs]
    exact inState_rel fun vs _ => inState_rel fun v _ => (put_rel hs t (hX.call n vs v)).step
  | repr t src ty =>
    simp only [execOp, execOpW, hreg]
    exact inState_rel fun v _ => inState_rel fun bs _ => (put_rel hs t (writeAll_meets strict bs)).step
  | prim t src p =>
    simp only [execOp, execOpW, hreg]
    exact inState_rel fun v _ => inState_rel fun bs _ => (put_rel hs t (writeAll_meets strict bs)).step
  | primArray t src p len =>
    simp only [execOp, execOpW, hreg, hlen]
    exact inState_rel fun k _ => inState_rel fun v _ => inState_rel fun bs _ => (put_rel hs t (writeAll_meets strict bs)).step
  | reprArray t src p len =>
    simp only [execOp, execOpW, hreg, hlen]
    exact inState_rel fun k _ => inState_rel fun v _ => inState_rel fun bs _ => (put_rel hs t (writeAll_meets strict bs)).step
  | pad t len =>
    simp only [execOp, execOpW, hreg]
    exact inState_rel fun v _ => inState_rel fun bs _ => (put_rel hs t (writeAll_meets strict bs)).step
  | eval r e =>
    simp only [execOpW]
    refine quiet_rel hs (r := runE X.oc ⟨fun n => (refs n).bind s.regs, X.input⟩ e) (k := fun v => s.setReg r v)
      (kW := fun v => (lim room s).setReg r v) rfl ?_ (fun _ => rfl) (fun _ => rfl)
    simp only [execOp, ExtW.quiet, hX.oc, hX.input]
    rfl
  | evalBlen r e bl =>
    simp only [execOpW]
    refine quiet_rel hs (r := runE X.oc ⟨fun n => (overlay refs bl n).bind s.regs, X.input⟩ e) (k := fun v => s.setReg r v)
      (kW := fun v => (lim room s).setReg r v) rfl ?_ (fun _ => rfl) (fun _ => rfl)
    simp only [execOp, ExtW.quiet, hX.oc, hX.input]
    rfl
  | getName r src n =>
    simp only [execOpW]
    refine quiet_rel hs (r := s.reg src >>= fun v => fieldOf v n) (k := fun v => s.setReg r v)
      (kW := fun v => (lim room s).setReg r v) ?_ ?_ (fun _ => rfl) (fun _ => rfl)
    · simp only [execOp]; cases s.reg src <;> rfl
    · simp only [execOp, hreg]; cases s.reg src <;> rfl
  | getIndex r src idx =>
    simp only [execOpW]
    refine quiet_rel hs (r := s.reg src >>= fun v => s.reg idx >>= fun i => i.toInt >>= fun n => itemOf v n.val.toNat)
      (k := fun v => s.setReg r v) (kW := fun v => (lim room s).setReg r v) ?_ ?_ (fun _ => rfl) (fun _ => rfl)
    · simp only [execOp]
      cases s.reg src <;> try rfl
      cases s.reg idx <;> try rfl
      rename_i i
      simp only [ok_bind]
      cases i.toInt <;> rfl
    · simp only [execOp, hreg]
      cases s.reg src <;> try rfl
      cases s.reg idx <;> try rfl
      rename_i i
      simp only [ok_bind]
      cases i.toInt <;> rfl
  | getInner r src =>
    simp only [execOpW]
    refine quiet_rel hs (r := s.reg src >>= fun v => innerOf v) (k := fun v => s.setReg r v)
      (kW := fun v => (lim room s).setReg r v) ?_ ?_ (fun _ => rfl) (fun _ => rfl)
    · simp only [execOp]; cases s.reg src <;> rfl
    · simp only [execOp, hreg]; cases s.reg src <;> rfl
  | getRef r n =>
    simp only [execOpW]
    exact quiet_rel hs (r := optRes ((refs n).bind s.regs)) (k := fun v => s.setReg r v)
      (kW := fun v => (lim room s).setReg r v) rfl rfl (fun _ => rfl) (fun _ => rfl)
  | setRef n r =>
    simp only [execOpW]
    exact quiet_rel hs (r := .ok ()) (k := fun _ => s) (kW := fun _ => lim room s) rfl rfl (fun _ => rfl) (fun _ => rfl)
  | allocBuf b len =>
    simp only [execOpW]
    refine quiet_rel hs (r := s.reg len >>= fun v => asUsize v >>= fun n => if 2 ^ 63 ≤ n then .error .panic else .ok ())
      (k := fun _ => { s with mem := upd s.mem (.buf b) (some []) })
      (kW := fun _ => { lim room s with mem := upd (lim room s).mem (.buf b) (some []) }) ?_ ?_
      (fun _ => lim_upd (t := .buf b) (by simp) _) (fun _ => upd_buf s.mem b (some []))
    · simp only [execOp]
      cases s.reg len <;> try rfl
      rename_i v
      simp only [ok_bind]
      cases asUsize v <;> try rfl
      simp only [ok_bind]
      split <;> rfl
    · simp only [execOp, hreg]
      cases s.reg len <;> try rfl
      rename_i v
      simp only [ok_bind]
      cases asUsize v <;> try rfl
      simp only [ok_bind]
      split <;> rfl
  | allocDyn b =>
    simp only [execOpW]
    exact quiet_rel hs (r := .ok ()) (k := fun _ => { s with mem := upd s.mem (.buf b) (some []) })
      (kW := fun _ => { lim room s with mem := upd (lim room s).mem (.buf b) (some []) }) rfl rfl
      (fun _ => lim_upd (t := .buf b) (by simp) _) (fun _ => upd_buf s.mem b (some []))
  | wrap u new xf args =>
    simp only [execOpW]
    exact quiet_rel hs (r := s.args args) (k := fun vs => s.open u new xf vs)
      (kW := fun vs => (lim room s).open u new xf vs) rfl rfl
      (fun _ => open_lim _ _ _ _) (fun _ => open_direct _ _ _ _ _)
  | lenVal r src =>
    simp only [execOpW]
    refine quiet_rel hs (r := s.reg src >>= fun v => rtLen v) (k := fun n => s.setReg r (.int ⟨.u64, n⟩))
      (kW := fun n => (lim room s).setReg r (.int ⟨.u64, n⟩)) ?_ ?_ (fun _ => rfl) (fun _ => rfl)
    · simp only [execOp]; cases s.reg src <;> rfl
    · simp only [execOp, hreg]; cases s.reg src <;> rfl
  | lenBuf r b =>
    simp only [execOpW]
    refine quiet_rel hs (r := optRes (s.mem (.buf b))) (k := fun bs => s.setReg r (.int ⟨.u64, bs.length⟩))
      (kW := fun bs => (lim room s).setReg r (.int ⟨.u64, bs.length⟩)) rfl ?_ (fun _ => rfl) (fun _ => rfl)
    simp only [execOp, lim_mem (t := .buf b) (by simp)]
  | nullCheck src dst m =>
    simp only [execOpW]
    refine quiet_rel hs (r := s.reg src >>= fun v => Verif.nullCheck m v) (k := fun v => s.setReg dst v)
      (kW := fun v => (lim room s).setReg dst v) ?_ ?_ (fun _ => rfl) (fun _ => rfl)
    · simp only [execOp]; cases s.reg src <;> rfl
    · simp only [execOp, hreg]; cases s.reg src <;> rfl
  | unwrapEnum en d src dst m =>
    simp only [execOpW]
    refine quiet_rel hs (r := s.reg src >>= fun v => Verif.unwrapEnum en d m v) (k := fun v => s.setReg dst v)
      (kW := fun v => (lim room s).setReg dst v) ?_ ?_ (fun _ => rfl) (fun _ => rfl)
    · simp only [execOp]; cases s.reg src <;> rfl
    · simp only [execOp, hreg]; cases s.reg src <;> rfl
  | unwrapStruct en d src dst m =>
    simp only [execOpW]
    refine quiet_rel hs (r := s.reg src >>= fun v => Verif.unwrapStruct en d m (dst.map (·.1)) v)
      (k := fun xs => { s with regs := bindRegs s.regs dst xs })
      (kW := fun xs => { lim room s with regs := bindRegs (lim room s).regs dst xs }) ?_ ?_ (fun _ => rfl) (fun _ => rfl)
    · simp only [execOp]; cases s.reg src <;> rfl
    · simp only [execOp, hreg]; cases s.reg src <;> rfl
  | brk => exact ⟨_, _, rfl, .inl rfl⟩

/-! ## Programs -/

/-- What the caller's writer has is never taken back. -/
def Grows (s s' : State) : Prop := ∀ b, s.mem .direct = some b → ∃ b', s'.mem .direct = some (b ++ b')

theorem Grows.refl (s : State) : Grows s s := fun b h => ⟨[], by simpa using h⟩
theorem Grows.trans {s t u : State} (h : Grows s t) (h' : Grows t u) : Grows s u := by
  intro b hb
  obtain ⟨b1, h1⟩ := h b hb
  obtain ⟨b2, h2⟩ := h' _ h1
  exact ⟨b1 ++ b2, by rw [h2, List.append_assoc]⟩
theorem Grows.same {s s' : State} (h : s'.mem .direct = s.mem .direct) : Grows s s' := fun b hb => ⟨[], by rw [h, hb]; simp⟩

def Out.grows (s : State) : Out → Prop
  | .next s' => Grows s s'
  | .brk s' => Grows s s'
  | .fault _ => True

theorem bind_ok_inv {α β} {r : Res α} {k : α → Res β} {b : β} (h : r >>= k = .ok b) : ∃ a, r = .ok a ∧ k a = .ok b := by
  cases r with
  | ok a => exact ⟨a, rfl, h⟩
  | error f => cases h

theorem finish_grows {X : Ext} {s s' : State} {r : Nat} (h : s.finish X r = .ok s') : Grows s s' := by
  unfold State.finish at h
  cases hi : s.info r with
  | none => rw [hi] at h; cases h
  | some i =>
    rw [hi] at h
    cases i with
    | alias t => cases h; exact .refl s
    | owned u xf args =>
      obtain ⟨_, _, h⟩ := bind_ok_inv h
      obtain ⟨_, _, h⟩ := bind_ok_inv h
      exact fun b hb => write_grows h hb

theorem execOp_grows {X : Ext} {refs : Refs} {s s' : State} {i : Op} (h : execOp X refs s i = .ok s') : Grows s s' := by
  have wr : ∀ {t bs}, s.write t bs = .ok s' → Grows s s' := fun h b hb => write_grows h hb
  cases i <;> simp only [execOp] at h
  case endStream => exact finish_grows h
  case drop =>
    split at h
    · exact finish_grows h
    · cases h; exact .refl s
  case brk => cases h
  case setRef => cases h; exact .refl s
  case allocDyn b => cases h; exact .same (upd_buf s.mem b (some []))
  case allocBuf b len =>
    obtain ⟨_, _, h⟩ := bind_ok_inv h
    obtain ⟨_, _, h⟩ := bind_ok_inv h
    split at h
    · cases h
    · cases h; exact .same (upd_buf s.mem b (some []))
  case wrap => obtain ⟨_, _, h⟩ := bind_ok_inv h; cases h; exact .same (open_direct _ _ _ _ _)
  case emitBuf => obtain ⟨_, _, h⟩ := bind_ok_inv h; exact wr h
  case foreign =>
    obtain ⟨_, _, h⟩ := bind_ok_inv h; obtain ⟨_, _, h⟩ := bind_ok_inv h; obtain ⟨_, _, h⟩ := bind_ok_inv h; exact wr h
  case ref =>
    obtain ⟨_, _, h⟩ := bind_ok_inv h; obtain ⟨_, _, h⟩ := bind_ok_inv h; obtain ⟨_, _, h⟩ := bind_ok_inv h; exact wr h
  case repr => obtain ⟨_, _, h⟩ := bind_ok_inv h; obtain ⟨_, _, h⟩ := bind_ok_inv h; exact wr h
  case prim => obtain ⟨_, _, h⟩ := bind_ok_inv h; obtain ⟨_, _, h⟩ := bind_ok_inv h; exact wr h
  case primArray =>
    obtain ⟨_, _, h⟩ := bind_ok_inv h; obtain ⟨_, _, h⟩ := bind_ok_inv h; obtain ⟨_, _, h⟩ := bind_ok_inv h; exact wr h
  case reprArray =>
    obtain ⟨_, _, h⟩ := bind_ok_inv h; obtain ⟨_, _, h⟩ := bind_ok_inv h; obtain ⟨_, _, h⟩ := bind_ok_inv h; exact wr h
  case pad => obtain ⟨_, _, h⟩ := bind_ok_inv h; obtain ⟨_, _, h⟩ := bind_ok_inv h; exact wr h
  case getIndex =>
    obtain ⟨_, _, h⟩ := bind_ok_inv h; obtain ⟨_, _, h⟩ := bind_ok_inv h; obtain ⟨_, _, h⟩ := bind_ok_inv h
    obtain ⟨_, _, h⟩ := bind_ok_inv h; cases h; exact .same rfl
  case eval => obtain ⟨_, _, h⟩ := bind_ok_inv h; cases h; exact .same rfl
  case evalBlen => obtain ⟨_, _, h⟩ := bind_ok_inv h; cases h; exact .same rfl
  case getRef => obtain ⟨_, _, h⟩ := bind_ok_inv h; cases h; exact .same rfl
  case lenBuf => obtain ⟨_, _, h⟩ := bind_ok_inv h; cases h; exact .same rfl
  case getName => obtain ⟨_, _, h⟩ := bind_ok_inv h; obtain ⟨_, _, h⟩ := bind_ok_inv h; cases h; exact .same rfl
  case getInner => obtain ⟨_, _, h⟩ := bind_ok_inv h; obtain ⟨_, _, h⟩ := bind_ok_inv h; cases h; exact .same rfl
  case lenVal => obtain ⟨_, _, h⟩ := bind_ok_inv h; obtain ⟨_, _, h⟩ := bind_ok_inv h; cases h; exact .same rfl
  case nullCheck => obtain ⟨_, _, h⟩ := bind_ok_inv h; obtain ⟨_, _, h⟩ := bind_ok_inv h; cases h; exact .same rfl
  case unwrapEnum => obtain ⟨_, _, h⟩ := bind_ok_inv h; obtain ⟨_, _, h⟩ := bind_ok_inv h; cases h; exact .same rfl
  case unwrapStruct => obtain ⟨_, _, h⟩ := bind_ok_inv h; obtain ⟨_, _, h⟩ := bind_ok_inv h; cases h; exact .same rfl

theorem Out.grows.trans {s t : State} (h : Grows s t) {o : Out} (ho : o.grows t) : o.grows s := by
  cases o with
  | next => exact h.trans ho
  | brk => exact h.trans ho
  | fault => exact trivial

theorem loopN_grows {body : State → Out} (hb : ∀ s, (body s).grows s) (idx : Nat) :
    ∀ n i s, (loopN body idx i n s).grows s := by
  intro n
  induction n with
  | zero => exact fun i s => .refl s
  | succ n ih =>
    intro i s
    simp only [loopN]
    have h := hb (s.setReg idx (.int ⟨.u64, i⟩))
    cases hr : body (s.setReg idx (.int ⟨.u64, i⟩)) with
    | next s' =>
      rw [hr] at h
      have : Grows s (s.leave s') := h
      exact Out.grows.trans this (ih (i + 1) (s.leave s'))
    | brk s' => rw [hr] at h; exact h
    | fault f => exact trivial

theorem exec_grows (X : Ext) : ∀ p refs s, (exec X refs p s).grows s := by
  intro p
  induction p with
  | nil => exact fun refs s => .refl s
  | op i rest ih =>
    intro refs s
    unfold exec
    split
    · exact .refl s
    · exact ih _ s
    · split
      · rename_i s' h
        exact Out.grows.trans (execOp_grows h) (ih _ s')
      · exact trivial
  | loop idx len inner rest ihi ih =>
    intro refs s
    simp only [exec]
    split
    · rename_i n _
      have h := loopN_grows (fun s => ihi refs s) idx n 0 s
      cases hr : loopN (exec X refs inner) idx 0 n s with
      | next s' => rw [hr] at h; exact Out.grows.trans h (ih _ s')
      | brk s' => rw [hr] at h; exact h
      | fault f => exact trivial
    · exact trivial
  | cond c inner rest ihi ih =>
    intro refs s
    simp only [exec]
    split
    · have h := ihi refs s
      cases hr : exec X refs inner s with
      | next s' =>
        rw [hr] at h
        have : Grows s (s.leave s') := h
        exact Out.grows.trans this (ih _ (s.leave s'))
      | brk s' => rw [hr] at h; exact h
      | fault f => exact trivial
    · exact ih _ s
    · exact trivial
  | condWrap c prelude u new owned xf args rest ihi ih =>
    intro refs s
    simp only [exec]
    split
    · have h := ihi refs s
      cases hr : exec X refs prelude s with
      | next s' =>
        rw [hr] at h
        simp only
        cases s'.args args with
        | ok vs =>
          refine Out.grows.trans ?_ (ih _ _)
          have : Grows s (s.leave s') := h
          exact this.trans (.same (open_direct (s.leave s') u owned xf vs))
        | error f => exact trivial
      | brk s' => rw [hr] at h; exact h
      | fault f => exact trivial
    · refine Out.grows.trans ?_ (ih _ _)
      exact .same rfl
    · exact trivial
  | block inner rest ihi ih =>
    intro refs s
    simp only [exec]
    have h := ihi refs s
    cases hr : exec X refs inner s with
    | next s' =>
      rw [hr] at h
      have : Grows s (s.leave s') := h
      exact Out.grows.trans this (ih _ (s.leave s'))
    | brk s' =>
      rw [hr] at h
      have : Grows s (s.leave s') := h
      exact Out.grows.trans this (ih _ (s.leave s'))
    | fault f => exact trivial

/-- The limited run has ended with an error, and the unlimited one goes on. -/
def Halted (room : Option Nat) (o : Out) (oW : OutW) : Prop :=
  match o with
  | .next s => ∃ f w, oW = .fault f w ∧ Stopped room s f w
  | .brk s => ∃ f w, oW = .fault f w ∧ Stopped room s f w
  | .fault _ => ∃ w, oW = .fault ioFault w

/-- How the limited run of a program ends. -/
def RunRel (strict : Bool) (room : Option Nat) (o : Out) (oW : OutW) : Prop :=
  Halted room o oW ∨
  match o with
  | .next s => oW = .next (lim room s) ∧ (strict = true → Fit room s)
  | .brk s => oW = .brk (lim room s) ∧ (strict = true → Fit room s)
  | .fault f => ∃ w, oW = .fault f w

theorem Stopped.grow {room : Option Nat} {s s' : State} {f : Fault} {w : State} (h : Stopped room s f w) (hg : Grows s s') :
    Stopped room s' f w := by
  obtain ⟨hf, b, b', hw, hb, hs⟩ := h
  obtain ⟨c, hc⟩ := hg _ hs
  exact ⟨hf, b, b' ++ c, hw, hb, by rw [hc, List.append_assoc]⟩

/-- Once it has ended, whatever the unlimited run does afterwards. -/
theorem Stopped.halted {room : Option Nat} {s : State} {f : Fault} {w : State} (h : Stopped room s f w) {o : Out} (hg : o.grows s) :
    Halted room o (.fault f w) := by
  cases o with
  | next s' => exact ⟨f, w, rfl, h.grow hg⟩
  | brk s' => exact ⟨f, w, rfl, h.grow hg⟩
  | fault g => exact ⟨w, by rw [h.1]⟩

theorem loopN_rel {strict : Bool} {room : Option Nat} {body : State → Out} {bodyW : State → OutW}
    (hg : ∀ s, (body s).grows s)
    (h : ∀ s, (strict = true → Fit room s) → RunRel strict room (body s) (bodyW (lim room s))) (idx : Nat) :
    ∀ n i s, (strict = true → Fit room s) → RunRel strict room (loopN body idx i n s) (loopNW bodyW idx i n (lim room s)) := by
  intro n
  induction n with
  | zero => exact fun i s hs => .inr ⟨rfl, hs⟩
  | succ n ih =>
    intro i s hs
    simp only [loopN, loopNW]
    have h1 := h (s.setReg idx (.int ⟨.u64, i⟩)) hs
    have hl : (lim room s).setReg idx (.int ⟨.u64, i⟩) = lim room (s.setReg idx (.int ⟨.u64, i⟩)) := rfl
    rw [hl]
    cases hr : body (s.setReg idx (.int ⟨.u64, i⟩)) with
    | next s' =>
      rw [hr] at h1
      rcases h1 with ⟨f, w, h1, hst⟩ | ⟨h1, hs'⟩
      · rw [h1]
        refine .inl (Stopped.halted (s := s.leave s') hst ?_)
        exact loopN_grows hg idx n (i + 1) (s.leave s')
      · rw [h1]
        exact ih (i + 1) (s.leave s') hs'
    | brk s' =>
      rw [hr] at h1
      rcases h1 with ⟨f, w, h1, hst⟩ | ⟨h1, hs'⟩
      · rw [h1]; exact .inl ⟨f, w, rfl, hst⟩
      · rw [h1]; exact .inr ⟨rfl, hs'⟩
    | fault g =>
      rw [hr] at h1
      rcases h1 with ⟨w, h1⟩ | ⟨w, h1⟩
      · rw [h1]; exact .inl ⟨w, rfl⟩
      · rw [h1]; exact .inr ⟨w, rfl⟩

/-- Going on after a part of a program. -/
theorem RunRel.andThen {strict : Bool} {room : Option Nat} {o : Out} {oW : OutW} {k : State → Out} {kW : State → OutW} :
    RunRel strict room o oW → (∀ s, (k s).grows s) →
    (∀ s, (strict = true → Fit room s) → RunRel strict room (k s) (kW (lim room s))) →
    RunRel strict room
      (match o with | .next s => k s | o => o) (match oW with | .next s => kW s | o => o) := by
  intro h hg hk
  cases o with
  | next s =>
    rcases h with ⟨f, w, h, hst⟩ | ⟨h, hs⟩
    · subst h
      exact .inl (hst.halted (hg s))
    · subst h
      exact hk s hs
  | brk s =>
    rcases h with ⟨f, w, h, hst⟩ | ⟨h, hs⟩
    · subst h; exact .inl ⟨f, w, rfl, hst⟩
    · subst h; exact .inr ⟨rfl, hs⟩
  | fault g =>
    rcases h with ⟨w, h⟩ | ⟨w, h⟩
    · subst h; exact .inl ⟨w, rfl⟩
    · subst h; exact .inr ⟨w, rfl⟩

theorem boolCases (x : Option Val) : x = some (.bool true) ∨ x = some (.bool false) ∨ ∀ b, x ≠ some (.bool b) := by
  cases x with
  | none => simp
  | some v =>
    cases v with
    | bool b => cases b <;> simp
    | _ => simp

theorem exec_rel {strict : Bool} {room : Option Nat} {X : Ext} {Y : ExtW} (hX : ExtMeets strict X Y) :
    ∀ p refs s, (strict = true → Fit room s) → RunRel strict room (exec X refs p s) (execW room Y refs p (lim room s)) := by
  intro p
  induction p with
  | nil => exact fun refs s hs => .inr ⟨rfl, hs⟩
  | op i rest ih =>
    intro refs s hs
    have plain : RunRel strict room
        (match execOp X refs s i with | .ok s' => exec X refs rest s' | .error f => .fault f)
        (match execOpW room Y refs (lim room s) i with
          | .ok s' => execW room Y refs rest s' | .error (f, s') => .fault f s') := by
      have h := execOp_rel hX refs hs i
      cases hr : execOp X refs s i with
      | ok s' =>
        rw [hr] at h
        rcases h with ⟨h, hs'⟩ | ⟨f, w, h, hst⟩
        · rw [h]; exact ih refs s' hs'
        · rw [h]; exact .inl (hst.halted (exec_grows X rest refs s'))
      | error f =>
        rw [hr] at h
        obtain ⟨f', w, h, hf⟩ := h
        rw [h]
        rcases hf with rfl | rfl
        · exact .inr ⟨w, rfl⟩
        · exact .inl ⟨w, rfl⟩
    cases i with
    | brk => exact .inr ⟨rfl, hs⟩
    | setRef n r => exact ih _ s hs
    | _ => exact plain
  | loop idx len inner rest ihi ih =>
    intro refs s hs
    simp only [exec, execW]
    have hreg : (lim room s).reg len = s.reg len := rfl
    rw [hreg]
    cases (s.reg len).bind rangeCount with
    | error f => exact .inr ⟨_, rfl⟩
    | ok n =>
      simp only
      have h := loopN_rel (fun s => exec_grows X inner refs s) (fun s hs => ihi refs s hs) idx n 0 s hs
      exact h.andThen (k := exec X (refsAfter inner refs) rest) (kW := execW room Y (refsAfter inner refs) rest)
        (exec_grows X rest _) (fun s hs => ih _ s hs)
  | cond c inner rest ihi ih =>
    intro refs s hs
    simp only [exec, execW]
    have hreg : (lim room s).regs = s.regs := rfl
    rw [hreg]
    rcases boolCases (s.regs c) with hc | hc | hc
    · have h := ihi refs s hs
      simp only [hc]
      exact h.andThen (k := fun s' => exec X (refsAfter inner refs) rest (s.leave s'))
        (kW := fun s' => execW room Y (refsAfter inner refs) rest ((lim room s).leave s'))
        (fun s' => exec_grows X rest _ (s.leave s')) (fun s' hs' => ih _ (s.leave s') hs')
    · simp only [hc]
      exact ih _ s hs
    · revert hc
      cases s.regs c with
      | none => intro _; exact .inr ⟨_, rfl⟩
      | some v =>
        cases v with
        | bool b => intro hc; exact (hc b rfl).elim
        | _ => intro _; exact .inr ⟨_, rfl⟩
  | condWrap c prelude u new owned xf args rest ihi ih =>
    intro refs s hs
    simp only [exec, execW]
    have hreg : (lim room s).regs = s.regs := rfl
    rw [hreg]
    rcases boolCases (s.regs c) with hc | hc | hc
    · have h := ihi refs s hs
      simp only [hc]
      refine h.andThen
        (k := fun s' => match s'.args args with
          | .ok vs => exec X (refsAfter prelude refs) rest (((s.leave s').open u owned xf vs).alias (.stream owned) new)
          | .error f => .fault f)
        (kW := fun s' => match s'.args args with
          | .ok vs => execW room Y (refsAfter prelude refs) rest
              ((((lim room s).leave s').open u owned xf vs).alias (.stream owned) new)
          | .error f => .fault f s')
        (fun s' => ?_) (fun s' hs' => ?_)
      · cases s'.args args with
        | error f => exact trivial
        | ok vs =>
          refine Out.grows.trans ?_ (exec_grows X rest _ _)
          exact .same (open_direct (s.leave s') u owned xf vs)
      · have ha : (lim room s').args args = s'.args args := rfl
        simp only [ha]
        cases s'.args args with
        | error f => exact .inr ⟨_, rfl⟩
        | ok vs =>
          have hl : ((lim room s).leave (lim room s')).open u owned xf vs = lim room ((s.leave s').open u owned xf vs) :=
            open_lim (s := s.leave s') u owned xf vs
          simp only [hl]
          refine ih _ (((s.leave s').open u owned xf vs).alias (.stream owned) new) fun hst b hb => hs' hst b ?_
          rw [← hb]
          exact (open_direct (s.leave s') u owned xf vs).symm
    · simp only [hc]
      exact ih _ ((s.noStream owned).alias u new) hs
    · revert hc
      cases s.regs c with
      | none => intro _; exact .inr ⟨_, rfl⟩
      | some v =>
        cases v with
        | bool b => intro hc; exact (hc b rfl).elim
        | _ => intro _; exact .inr ⟨_, rfl⟩
  | block inner rest ihi ih =>
    intro refs s hs
    simp only [exec, execW]
    have h := ihi refs s hs
    cases hr : exec X refs inner s with
    | next s' =>
      rw [hr] at h
      rcases h with ⟨f, w, h, hst⟩ | ⟨h, hs'⟩
      · rw [h]; exact .inl (Stopped.halted (s := s.leave s') hst (exec_grows X rest _ (s.leave s')))
      · rw [h]; exact ih _ (s.leave s') hs'
    | brk s' =>
      rw [hr] at h
      rcases h with ⟨f, w, h, hst⟩ | ⟨h, hs'⟩
      · rw [h]; exact .inl (Stopped.halted (s := s.leave s') hst (exec_grows X rest _ (s.leave s')))
      · rw [h]; exact ih _ (s.leave s') hs'
    | fault g =>
      rw [hr] at h
      rcases h with ⟨w, h⟩ | ⟨w, h⟩
      · rw [h]; exact .inl ⟨w, rfl⟩
      · rw [h]; exact .inr ⟨w, rfl⟩

theorem initState_lim (room : Option Nat) (v : Val) : lim room (initState v) = initState v := by
  unfold lim initState
  congr 1
  funext t
  by_cases h : t = .direct
  · subst h; simp [cap_nil]
  · simp [h]

theorem runProg_meets {strict : Bool} {X : Ext} {Y : ExtW} (hX : ExtMeets strict X Y) (p : Prog) (v : Val) :
    Meets strict (runProg X p v) (runProgW Y p v) := by
  intro room
  have h := exec_rel (room := room) hX p (fun _ => none) (initState v) fun _ b hb => by
    simp only [initState, if_true, Option.some.injEq] at hb
    subst hb
    cases room <;> simp [fits]
  rw [initState_lim] at h
  unfold runProg runProgW
  have hg := exec_grows X p (fun _ => none) (initState v)
  cases hr : exec X (fun _ => none) p (initState v) with
  | fault f =>
    rw [hr] at h
    rcases h with ⟨w, h⟩ | ⟨w, h⟩
    · simp only [h]; exact .inr trivial
    · simp only [h]; exact .inl trivial
  | brk s =>
    rw [hr] at h
    rcases h with ⟨f, w, h, hst⟩ | ⟨h, hs⟩
    · simp only [h]; exact .inr (by rw [hst.1])
    · simp only [h]; exact .inl trivial
  | next s =>
    rw [hr] at h hg
    obtain ⟨b', hb'⟩ := hg [] (by simp [initState])
    simp only [List.nil_append] at hb'
    simp only [hb', optRes]
    rcases h with ⟨f, w, h, hf, b, b2, hw, hfb, hsb⟩ | ⟨h, hs⟩
    · rw [hb'] at hsb
      cases hsb
      simp only [h]
      refine ⟨?_, fun hfit => ?_, .inr (by rw [hf]), fun _ _ => by rw [hf]⟩
      · rw [cap_prefix hfb]
        simp [State.out, hw]
      · rw [fits_left hfit] at hfb
        cases hfb
    · simp only [h, State.out, lim_direct, hb', Option.map_some, Option.getD_some]
      refine ⟨trivial, fun _ => rfl, .inl rfl, fun hst hfb => ?_⟩
      rw [hs hst b' hb'] at hfb
      cases hfb

structure LibMeets (strict : Bool) (L : Lib) (M : LibW) : Prop where
  oc : M.oc = L.oc
  foreign : ∀ n vs v, Meets strict (L.foreign n vs v) (M.foreign n vs v)
  xform : ∀ n vs d, L.xform n vs d = (M.xform n vs d).map fun o => o.1 ++ o.2
  drops : strict = true → ∀ n vs d o, M.xform n vs d = .ok o → o.2 = []

theorem error_meets (strict : Bool) (f : Fault) (w : Bytes) : Meets strict (.error f) fun _ => (w, .error f) :=
  fun _ => .inl rfl

/-- The encoders of a schema on a writer that may fail. -/
theorem runEncodeW_meets {strict : Bool} {L : Lib} {M : LibW} (h : LibMeets strict L M) (sch : Schema) :
    ∀ fuel name args v, Meets strict (runEncode sch L fuel name args v) (runEncodeW sch M fuel name args v) := by
  intro fuel
  induction fuel with
  | zero => exact fun name args v => error_meets strict _ []
  | succ fuel ih =>
    intro name args v
    unfold runEncode callDecl runEncodeW
    cases sch.find name with
    | none => exact error_meets strict _ []
    | some d =>
      simp only
      split
      · exact error_meets strict _ []
      · unfold runDecl runDeclW
        split
        · exact runProg_meets ⟨h.oc, rfl, ih, h.foreign, h.xform, h.drops⟩ _ v
        · exact error_meets strict _ []

end Verif.Enc
