import Verif.Lossless
/-!
# Readers that fail

`DecodeVM` gives the generated decoders a reader that ends: after its bytes there is nothing more. Here the reader has some bytes and then fails
(`io::Error` of a kind other than `Interrupted`: a lost connection, a broken disk). The statements of `compiler/decoder.rs` then do this:

* `read_exact` beyond the bytes is an error, as at the end of the input (the error is another one);
* `read_to_end` (318-336, 352-370, 405-411) is an error instead of the bytes so far;
* `fill_buf` (386-404) shows the bytes that are there, and is an error if there are none, instead of showing an empty buffer;
* `take(n)` (156-163) stops after `n` bytes without asking the reader again: a container whose length ends before the failure does not meet it.

All of them pass the error on with `?`.
-/
namespace Verif.Dec
open Verif

/-- The failure of the reader, as `?` converts it. -/
def ioFault : Fault := .err "io error"

/-- The number of things a base reader has to show: its bytes, and, for base 0, the failure behind them. -/
def State.size (s : State) (b : Nat) : Nat := (s.mem b).length + if b = 0 then 1 else 0

/-- `stop` of a window on base 0 counts the failure as one more byte. -/
def State.visF (s : State) (w : Win) : Bytes := (s.mem w.base).take (s.size w.base - w.stop)
def State.hidF (s : State) (w : Win) : Bytes := (s.mem w.base).drop (s.size w.base - w.stop)

/-- The window reaches the failure. -/
def Win.fails (w : Win) : Bool := decide (w.base = 0) && decide (w.stop = 0)

/-- As `onStream`: `fF` if the reader fails behind the bytes it shows, `f` if it ends there. -/
def State.onStreamF {α} (s : State) (t : Target) (f fF : Bytes → Res (α × Bytes)) : Res (α × State) := do
  let w ← optRes (s.strm t)
  let (a, rest) ← (if w.fails then fF else f) (s.visF w)
  .ok (a, { s with mem := upd s.mem w.base (rest ++ s.hidF w) })

def State.decIntoF (s : State) (t : Target) (out : Nat) (f fF : Bytes → Res (Val × Bytes)) : Res State := do
  let (v, s') ← s.onStreamF t f fF
  .ok (s'.setReg out v)

/-- `compiler/decoder.rs` 305-337 on a reader that fails: `read_exact` as before, `read_to_end` is an error. -/
def decPrimArrayF (oc : Bool) (p : Prim) (count : Option Nat) (bs : Bytes) : Res (Val × Bytes) :=
  match count with
  | some n => decPrimArray oc p (some n) bs
  | none => if p = .bool then .error .ill else .error ioFault

/-- `compiler/decoder.rs` 338-372, likewise. -/
def decReprArrayF (oc : Bool) (t : ReprTy) (count : Option Nat) (bs : Bytes) : Res (Val × Bytes) :=
  match count with
  | some n => decReprArray oc t (some n) bs
  | none => .error ioFault

/-- As `wrapStream`. A transform reads what it needs at creation (as in `Ext.xform`), so its own reader does not fail. -/
def State.wrapStreamF (X Y : Ext) (s : State) (src : Target) (new : Nat) (xf : String) (args : List Val) : Res State := do
  let (dec, s') ← s.onStreamF src (X.xform xf args) (Y.xform xf args)
  .ok (s'.newStream (.stream new) dec)

/-- One statement, as `execOp`. `X`: what is called with readers that end, `Y`: with readers that fail. -/
def execOpF (X Y : Ext) (s : State) : Op → Out
  | .ret r => match s.reg r with | .ok v => .ret v s | .error f => .fault f
  | .error m => .fault (.err m)
  | .constrict src new len =>
    Res.out (do
      let v ← s.reg len
      let k ← asUsize v
      let w ← optRes (s.strm src)
      let w' : Win := ⟨w.base, max w.stop (s.size w.base - k)⟩
      .ok { s with strm := upd s.strm (.stream new) (some w') })
  | .wrap src new xf args => Res.out (do let vs ← s.args args; s.wrapStreamF X Y src new xf vs)
  | .foreign src out n args => Res.out (do let vs ← s.args args; s.decIntoF src out (X.foreign n vs) (Y.foreign n vs))
  | .ref src out n args => Res.out (do let vs ← s.args args; s.decIntoF src out (X.call n vs) (Y.call n vs))
  | .repr t out src => Res.out (s.decIntoF src out (decRepr t) (decRepr t))
  | .prim src out p => Res.out (s.decIntoF src out (decPrim p) (decPrim p))
  | .primArray src out p len => Res.out (do let k ← optLen s len; s.decIntoF src out (decPrimArray X.oc p k) (decPrimArrayF X.oc p k))
  | .reprArray src out t len => Res.out (do let k ← optLen s len; s.decIntoF src out (decReprArray X.oc t k) (decReprArrayF X.oc t k))
  | .skip src len =>
    Res.out (do
      let v ← s.reg len
      let k ← asUsize v
      let (_, s') ← s.onStreamF src (skipBytes k) (skipBytes k)
      .ok s')
  | i => execOp X s i

/-- `compiler/decoder.rs` 386-404, as `loopTerm`. -/
def loopTermF (body : State → Out) (w : Win) (t : Bytes) : Nat → State → Out
  | fuel, s =>
    if s.visF w = [] then (if w.fails then .fault ioFault else .next s)
    else if (s.visF w).length < t.length then .fault .diverge
    else if (s.visF w).take t.length = t then
      .next { s with mem := upd s.mem w.base ((s.visF w).drop t.length ++ s.hidF w) }
    else
      match fuel with
      | 0 => .fault .diverge
      | fuel + 1 =>
        match body s with
        | .next s' =>
          if (s'.visF w).length < (s.visF w).length then loopTermF body w t fuel s' else .fault .diverge
        | o => o

/-- `compiler/decoder.rs` 373-424, as `execLoop`. The loop over a `Cursor` is `loopWhile`: a cursor does not fail. -/
def execLoopF (body : State → Out) (src : Target) (len term : Option Nat) (out : Nat) (s : State) : Out :=
  let s0 := s.setReg out (.arr [])
  match len, term with
  | some l, _ =>
    match (s.reg l).bind loopCount with
    | .ok n => loopN (iter body out) n s0
    | .error f => .fault f
  | none, some t =>
    match s.reg t, s.strm src with
    | .ok v, some w =>
      match v.toBytes with
      | some tb => loopTermF (iter body out) w tb (s.visF w).length s0
      | none => .fault .ill
    | _, _ => .fault .ill
  | none, none =>
    match s0.onStreamF src (fun bs => .ok (bs, [])) (fun _ => .error ioFault) with
    | .ok (r, s1) =>
      let s2 := s1.newStream src r
      match loopWhile (iter body out) ⟨s1.nb, 0⟩ r.length s2 with
      | .next s3 => .next { s3 with strm := s.strm }
      | o => o
    | .error f => .fault f

/-- Runs an instruction list, as `exec`. -/
def execF (X Y : Ext) : Prog → State → Out
  | .nil, s => .next s
  | .op i rest, s =>
    match execOpF X Y s i with
    | .next s' => execF X Y rest s'
    | o => o
  | .loop src len term out inner rest, s =>
    match execLoopF (execF X Y inner) src len term out s with
    | .next s' => execF X Y rest s'
    | o => o
  | .cond regs c inner rest, s =>
    match s.regs c with
    | some (.bool true) =>
      match execF X Y inner s with
      | .next s' => execF X Y rest { (s.leave s') with regs := somes s.regs s'.regs regs }
      | o => o
    | some (.bool false) => execF X Y rest { s with regs := nones s.regs regs }
    | _ => .fault .ill
  | .condPred c inner rest, s =>
    match s.regs c with
    | some (.bool true) =>
      match execF X Y inner s with
      | .next s' => execF X Y rest (s.leave s')
      | o => o
    | some (.bool false) => execF X Y rest s
    | _ => .fault .ill
  | .condWrap c prelude src new xf args rest, s =>
    match s.regs c with
    | some (.bool true) =>
      match execF X Y prelude s with
      | .next s' =>
        match (s'.args args).bind (fun vs => (s.leave s').wrapStreamF X Y src new xf vs) with
        | .ok s'' => execF X Y rest s''
        | .error f => .fault f
      | o => o
    | some (.bool false) => execF X Y rest { s with strm := upd s.strm (.stream new) (s.strm src) }
    | _ => .fault .ill

/-- `Name::decode_sync(reader, args..)` on a reader that fails after `bs`: the value and the bytes left in front of the failure. -/
def runProgF (X Y : Ext) (p : Prog) (bs : Bytes) : Res (Val × Bytes) :=
  match execF X Y p (initState bs) with
  | .ret v s => .ok (v, s.mem 0)
  | .next _ => .error .ill
  | .fault f => .error f

/-- Foreign types and transforms on a reader that fails. -/
structure LibF where
  foreign : String → List Val → Bytes → Res (Val × Bytes)
  xform : String → List Val → Bytes → Res (Bytes × Bytes)

/-- Calls of the functions generated for a schema on a reader that fails, as `callDecl`. -/
def runDecodeF (sch : Schema) (L : Lib) (LF : LibF) : Nat → String → List Val → Bytes → Res (Val × Bytes)
  | 0, _, _, _ => .error .diverge
  | fuel + 1, n, args, bs =>
    match sch.find n with
    | none => .error .ill
    | some d =>
      if d.params.length ≠ args.length then .error .ill
      else
        runProgF ⟨L.oc, bindArgs d.params args, runDecode sch L fuel, L.foreign, L.xform⟩
          ⟨L.oc, bindArgs d.params args, runDecodeF sch L LF fuel, LF.foreign, LF.xform⟩ (genDecl d) bs

/-! ## Decoders do not put bytes back -/

def NoMore {α} (f : Bytes → Res (α × Bytes)) : Prop := ∀ bs a r, f bs = .ok (a, r) → r.length ≤ bs.length

/-- A block leaves no more in the reader than there was, and forgets no base. -/
def Shr (s : State) : Out → Prop
  | .next s' => s.nb ≤ s'.nb ∧ (s'.mem 0).length ≤ (s.mem 0).length
  | .ret _ s' => s.nb ≤ s'.nb ∧ (s'.mem 0).length ≤ (s.mem 0).length
  | .fault _ => True

structure ExtShr (X : Ext) : Prop where
  call : ∀ n vs, NoMore (X.call n vs)
  foreign : ∀ n vs, NoMore (X.foreign n vs)
  xform : ∀ n vs, NoMore (X.xform n vs)

theorem readExact_noMore (n : Nat) : NoMore (readExact n) := by
  intro bs a r h
  unfold readExact at h
  split at h
  · cases h
  · cases h; simp

theorem decPrim_noMore (p : Prim) : NoMore (decPrim p) := by
  intro bs a r h
  obtain ⟨⟨x, y⟩, h1, h⟩ := res_bind_inv h
  cases h
  exact readExact_noMore _ _ _ _ h1

theorem decRepr_noMore (t : ReprTy) : NoMore (decRepr t) := by
  intro bs a r h
  obtain ⟨⟨x, y⟩, h1, h⟩ := res_bind_inv h
  obtain ⟨v, _, h⟩ := res_bind_inv h
  cases h
  exact readExact_noMore _ _ _ _ h1

theorem readItems_noMore (oc : Bool) (size : Nat) (n : Option Nat) : NoMore (readItems oc size n) := by
  intro bs a r h
  cases n with
  | some n =>
    simp only [readItems] at h
    obtain ⟨_, _, h⟩ := res_bind_inv h
    obtain ⟨_, _, h⟩ := res_bind_inv h
    exact readExact_noMore _ _ _ _ h
  | none => cases h; simp

theorem decPrimArray_noMore (oc : Bool) (p : Prim) (n : Option Nat) : NoMore (decPrimArray oc p n) := by
  intro bs a r h
  unfold decPrimArray at h
  split at h
  · cases h
  · obtain ⟨⟨x, y⟩, h1, h⟩ := res_bind_inv h
    cases h
    exact readItems_noMore _ _ _ _ _ _ h1

theorem decReprArray_noMore (oc : Bool) (t : ReprTy) (n : Option Nat) : NoMore (decReprArray oc t n) := by
  intro bs a r h
  obtain ⟨⟨x, y⟩, h1, h⟩ := res_bind_inv h
  obtain ⟨v, _, h⟩ := res_bind_inv h
  cases h
  exact readItems_noMore _ _ _ _ _ _ h1

theorem skipBytes_noMore (n : Nat) : NoMore (skipBytes n) := by
  intro bs a r h
  obtain ⟨_, _, h⟩ := res_bind_inv h
  obtain ⟨⟨x, y⟩, h1, h⟩ := res_bind_inv h
  cases h
  exact readExact_noMore _ _ _ _ h1

theorem vis_hid_len (s : State) (w : Win) : (s.vis w).length + (s.hid w).length = (s.mem w.base).length := by
  rw [← List.length_append]
  exact congrArg _ (List.take_append_drop _ _)

theorem store_len {s : State} {w : Win} {r : Bytes} (h : r.length ≤ (s.vis w).length) :
    (upd s.mem w.base (r ++ s.hid w) 0).length ≤ (s.mem 0).length := by
  have := vis_hid_len s w
  by_cases hb : 0 = w.base
  · rw [← hb, upd_same, List.length_append]
    rw [← hb] at this
    omega
  · rw [upd_ne _ _ hb]
    exact Nat.le_refl _

theorem onStream_shr {α} {f : Bytes → Res (α × Bytes)} (hf : NoMore f) {s : State} {t : Target} {a : α} {s' : State}
    (h : s.onStream t f = .ok (a, s')) : s'.nb = s.nb ∧ (s'.mem 0).length ≤ (s.mem 0).length := by
  obtain ⟨w, _, h⟩ := res_bind_inv h
  obtain ⟨⟨b, r⟩, h1, h⟩ := res_bind_inv h
  cases h
  exact ⟨rfl, store_len (hf _ _ _ h1)⟩

theorem newStream_shr {s : State} (hn : 1 ≤ s.nb) (t : Target) (bs : Bytes) :
    (s.newStream t bs).nb = s.nb + 1 ∧ (s.newStream t bs).mem 0 = s.mem 0 :=
  ⟨rfl, upd_ne _ _ (by omega)⟩

theorem wrapStream_shr {X : Ext} (hX : ExtShr X) {s : State} (hn : 1 ≤ s.nb) {src : Target} {new : Nat} {xf : String} {vs : List Val} {s' : State}
    (h : s.wrapStream X src new xf vs = .ok s') : s.nb ≤ s'.nb ∧ (s'.mem 0).length ≤ (s.mem 0).length := by
  obtain ⟨⟨d, s1⟩, h1, h⟩ := res_bind_inv h
  cases h
  obtain ⟨h2, h3⟩ := onStream_shr (hX.xform xf vs) h1
  obtain ⟨h4, h5⟩ := newStream_shr (s := s1) (by omega) (.stream new) d
  exact ⟨by omega, by rw [h5]; exact h3⟩

theorem decInto_shr {f : Bytes → Res (Val × Bytes)} (hf : NoMore f) {s : State} {t : Target} {out : Nat} {s' : State}
    (h : s.decInto t out f = .ok s') : s.nb ≤ s'.nb ∧ (s'.mem 0).length ≤ (s.mem 0).length := by
  obtain ⟨⟨d, s1⟩, h1, h⟩ := res_bind_inv h
  cases h
  obtain ⟨h2, h3⟩ := onStream_shr hf h1
  exact ⟨by show s.nb ≤ s1.nb; omega, h3⟩

theorem shr_res {s : State} {r : Res State} (h : ∀ s', r = .ok s' → s.nb ≤ s'.nb ∧ (s'.mem 0).length ≤ (s.mem 0).length) :
    Shr s (Res.out r) := by
  cases r with
  | ok s' => exact h s' rfl
  | error f => trivial

theorem shr_same {s : State} {s' : State} (h1 : s'.nb = s.nb) (h2 : s'.mem = s.mem) : s.nb ≤ s'.nb ∧ (s'.mem 0).length ≤ (s.mem 0).length := by
  rw [h1, h2]; exact ⟨Nat.le_refl _, Nat.le_refl _⟩

theorem execOp_shr {X : Ext} (hX : ExtShr X) {s : State} (hn : 1 ≤ s.nb) (i : Op) : Shr s (execOp X s i) := by
  cases i with
  | ret r =>
    unfold execOp
    simp only
    cases s.reg r with
    | ok v => exact ⟨Nat.le_refl _, Nat.le_refl _⟩
    | error f => trivial
  | error m => trivial
  | eval r e m =>
    refine shr_res fun s' h => ?_
    obtain ⟨v, _, h⟩ := res_bind_inv h
    cases h; exact shr_same rfl rfl
  | construct r c =>
    refine shr_res fun s' h => ?_
    obtain ⟨v, _, h⟩ := res_bind_inv h
    cases h; exact shr_same rfl rfl
  | constrict src new len =>
    refine shr_res fun s' h => ?_
    obtain ⟨v, _, h⟩ := res_bind_inv h
    obtain ⟨v, _, h⟩ := res_bind_inv h
    obtain ⟨v, _, h⟩ := res_bind_inv h
    cases h; exact shr_same rfl rfl
  | wrap src new xf args =>
    refine shr_res fun s' h => ?_
    obtain ⟨v, _, h⟩ := res_bind_inv h
    exact wrapStream_shr hX hn h
  | foreign src out n args =>
    refine shr_res fun s' h => ?_
    obtain ⟨v, _, h⟩ := res_bind_inv h
    exact decInto_shr (hX.foreign n v) h
  | ref src out n args =>
    refine shr_res fun s' h => ?_
    obtain ⟨v, _, h⟩ := res_bind_inv h
    exact decInto_shr (hX.call n v) h
  | repr t out src => exact shr_res fun s' h => decInto_shr (decRepr_noMore t) h
  | prim src out p => exact shr_res fun s' h => decInto_shr (decPrim_noMore p) h
  | primArray src out p len =>
    refine shr_res fun s' h => ?_
    obtain ⟨v, _, h⟩ := res_bind_inv h
    exact decInto_shr (decPrimArray_noMore _ _ _) h
  | reprArray src out t len =>
    refine shr_res fun s' h => ?_
    obtain ⟨v, _, h⟩ := res_bind_inv h
    exact decInto_shr (decReprArray_noMore _ _ _) h
  | skip src len =>
    refine shr_res fun s' h => ?_
    obtain ⟨v, _, h⟩ := res_bind_inv h
    obtain ⟨k, _, h⟩ := res_bind_inv h
    obtain ⟨⟨u, s1⟩, h1, h⟩ := res_bind_inv h
    cases h
    obtain ⟨h2, h3⟩ := onStream_shr (skipBytes_noMore k) h1
    exact ⟨by omega, h3⟩
  | loopOutput out item =>
    refine shr_res fun s' h => ?_
    obtain ⟨v, _, h⟩ := res_bind_inv h
    obtain ⟨o, _, h⟩ := res_bind_inv h
    split at h
    · cases h; exact shr_same rfl rfl
    · cases h

theorem Shr.trans {s s1 : State} {o : Out} (h1 : s.nb ≤ s1.nb ∧ (s1.mem 0).length ≤ (s.mem 0).length) (h : Shr s1 o) : Shr s o := by
  cases o with
  | next s' => exact ⟨Nat.le_trans h1.1 h.1, Nat.le_trans h.2 h1.2⟩
  | ret v s' => exact ⟨Nat.le_trans h1.1 h.1, Nat.le_trans h.2 h1.2⟩
  | fault f => trivial

theorem Shr.bind {s : State} {o : Out} {k : State → Out} : Shr s o → 1 ≤ s.nb → (∀ s1, 1 ≤ s1.nb → Shr s1 (k s1)) →
    Shr s (match o with | .next s' => k s' | o => o) := by
  intro h hn hk
  cases o with
  | next s1 => exact Shr.trans h (hk s1 (Nat.le_trans hn h.1))
  | ret v s1 => exact h
  | fault f => trivial

theorem iter_shr {f : State → Out} (hf : ∀ s, 1 ≤ s.nb → Shr s (f s)) (out : Nat) (s : State) (hn : 1 ≤ s.nb) : Shr s (iter f out s) := by
  unfold iter
  have h := hf s hn
  cases ho : f s with
  | next s1 => rw [ho] at h; exact h
  | ret v s1 => rw [ho] at h; exact h
  | fault f => trivial

theorem loopN_shr {f : State → Out} (hf : ∀ s, 1 ≤ s.nb → Shr s (f s)) : ∀ n s, 1 ≤ s.nb → Shr s (loopN f n s)
  | 0, s, _ => ⟨Nat.le_refl _, Nat.le_refl _⟩
  | n + 1, s, hn => by
    unfold loopN
    exact (hf s hn).bind hn fun s1 h1 => loopN_shr hf n s1 h1

theorem loopWhile_shr {f : State → Out} (hf : ∀ s, 1 ≤ s.nb → Shr s (f s)) (w : Win) : ∀ n s, 1 ≤ s.nb → Shr s (loopWhile f w n s) := by
  intro n
  induction n with
  | zero =>
    intro s hn
    unfold loopWhile
    split
    · exact ⟨Nat.le_refl _, Nat.le_refl _⟩
    · trivial
  | succ n ih =>
    intro s hn
    unfold loopWhile
    split
    · exact ⟨Nat.le_refl _, Nat.le_refl _⟩
    · have h := hf s hn
      simp only
      cases ho : f s with
      | next s1 =>
        rw [ho] at h
        simp only
        split
        · exact Shr.trans h (ih s1 (Nat.le_trans hn h.1))
        · trivial
      | ret v s1 => rw [ho] at h; exact h
      | fault f => trivial

theorem loopTerm_shr {f : State → Out} (hf : ∀ s, 1 ≤ s.nb → Shr s (f s)) (w : Win) (t : Bytes) : ∀ n s, 1 ≤ s.nb → Shr s (loopTerm f w t n s) := by
  intro n
  induction n with
  | zero =>
    intro s hn
    unfold loopTerm
    split
    · exact ⟨Nat.le_refl _, Nat.le_refl _⟩
    · split
      · trivial
      · split
        · exact ⟨Nat.le_refl _, store_len (by simp)⟩
        · trivial
  | succ n ih =>
    intro s hn
    unfold loopTerm
    split
    · exact ⟨Nat.le_refl _, Nat.le_refl _⟩
    · split
      · trivial
      · split
        · exact ⟨Nat.le_refl _, store_len (by simp)⟩
        · have h := hf s hn
          simp only
          cases ho : f s with
          | next s1 =>
            rw [ho] at h
            simp only
            split
            · exact Shr.trans h (ih s1 (Nat.le_trans hn h.1))
            · trivial
          | ret v s1 => rw [ho] at h; exact h
          | fault f => trivial

theorem all_noMore : NoMore (fun bs : Bytes => (.ok (bs, []) : Res (Bytes × Bytes))) := by
  intro bs a r h; cases h; simp

theorem execLoop_shr {f : State → Out} (hf : ∀ s, 1 ≤ s.nb → Shr s (f s)) (src : Target) (len term : Option Nat) (out : Nat) (s : State)
    (hn : 1 ≤ s.nb) : Shr s (execLoop f src len term out s) := by
  have hi := fun s hn => iter_shr hf out s hn
  unfold execLoop
  cases len with
  | some l =>
    simp only
    cases (s.reg l).bind loopCount with
    | ok n => exact Shr.trans (s1 := s.setReg out (.arr [])) ⟨Nat.le_refl _, Nat.le_refl _⟩ (loopN_shr hi _ _ hn)
    | error f => trivial
  | none =>
    cases term with
    | some t =>
      simp only
      cases s.reg t with
      | error f => trivial
      | ok v =>
        cases s.strm src with
        | none => trivial
        | some w =>
          simp only
          cases v.toBytes with
          | none => trivial
          | some tb => exact Shr.trans (s1 := s.setReg out (.arr [])) ⟨Nat.le_refl _, Nat.le_refl _⟩ (loopTerm_shr hi _ _ _ _ hn)
    | none =>
      simp only
      cases ho : (s.setReg out (Val.arr [])).onStream src (fun bs => Except.ok (bs, [])) with
      | error f => trivial
      | ok p =>
        obtain ⟨r, s1⟩ := p
        obtain ⟨h1, h2⟩ := onStream_shr all_noMore ho
        have h1 : s1.nb = s.nb := h1
        have h2 : (s1.mem 0).length ≤ (s.mem 0).length := h2
        have hn1 : 1 ≤ s1.nb := by omega
        obtain ⟨h3, h4⟩ := newStream_shr hn1 src r
        have h := loopWhile_shr hi ⟨s1.nb, 0⟩ r.length (s1.newStream src r) (by omega)
        have h := Shr.trans (s := s) ⟨by omega, by rw [h4]; exact h2⟩ h
        simp only
        cases hl : loopWhile (iter f out) ⟨s1.nb, 0⟩ r.length (s1.newStream src r) with
        | next s3 => rw [hl] at h; exact h
        | ret v s3 => rw [hl] at h; exact h
        | fault f => trivial

theorem exec_shr {X : Ext} (hX : ExtShr X) : ∀ (p : Prog) (s : State), 1 ≤ s.nb → Shr s (exec X p s) := by
  intro p
  induction p with
  | nil => intro s _; exact ⟨Nat.le_refl _, Nat.le_refl _⟩
  | op i rest ih =>
    intro s hn
    unfold exec
    exact (execOp_shr hX hn i).bind hn ih
  | loop src len term out inner rest ihi ihr =>
    intro s hn
    unfold exec
    exact (execLoop_shr ihi src len term out s hn).bind hn ihr
  | cond regs c inner rest ihi ihr =>
    intro s hn
    unfold exec
    split
    · have h := ihi s hn
      cases ho : exec X inner s with
      | next s1 =>
        rw [ho] at h
        exact Shr.trans (s1 := { (s.leave s1) with regs := somes s.regs s1.regs regs }) h (ihr _ (Nat.le_trans hn h.1))
      | ret v s1 => rw [ho] at h; exact h
      | fault f => trivial
    · exact Shr.trans (s1 := { s with regs := nones s.regs regs }) ⟨Nat.le_refl _, Nat.le_refl _⟩ (ihr _ hn)
    · trivial
  | condPred c inner rest ihi ihr =>
    intro s hn
    unfold exec
    split
    · have h := ihi s hn
      cases ho : exec X inner s with
      | next s1 =>
        rw [ho] at h
        exact Shr.trans (s1 := s.leave s1) h (ihr _ (Nat.le_trans hn h.1))
      | ret v s1 => rw [ho] at h; exact h
      | fault f => trivial
    · exact ihr _ hn
    · trivial
  | condWrap c prelude src new xf args rest ihp ihr =>
    intro s hn
    unfold exec
    split
    · have h := ihp s hn
      cases ho : exec X prelude s with
      | next s1 =>
        rw [ho] at h
        simp only
        cases hw : (s1.args args).bind (fun vs => (s.leave s1).wrapStream X src new xf vs) with
        | error f => trivial
        | ok s2 =>
          obtain ⟨vs, _, hw⟩ := res_bind_inv hw
          have h2 := wrapStream_shr hX (s := s.leave s1) (Nat.le_trans hn h.1) hw
          have h3 : s.nb ≤ s2.nb ∧ (s2.mem 0).length ≤ (s.mem 0).length := ⟨Nat.le_trans h.1 h2.1, Nat.le_trans h2.2 h.2⟩
          exact Shr.trans h3 (ihr s2 (Nat.le_trans hn h3.1))
      | ret v s1 => rw [ho] at h; exact h
      | fault f => trivial
    · exact Shr.trans (s1 := { s with strm := upd s.strm (.stream new) (s.strm src) }) ⟨Nat.le_refl _, Nat.le_refl _⟩ (ihr _ hn)
    · trivial

theorem runProg_noMore {X : Ext} (hX : ExtShr X) (p : Prog) : NoMore (runProg X p) := by
  intro bs v r h
  have hs := exec_shr hX p (initState bs) (Nat.le_refl _)
  unfold runProg at h
  split at h
  · rename_i ho
    cases h
    rw [ho] at hs
    exact hs.2
  · cases h
  · cases h

structure LibShr (L : Lib) : Prop where
  foreign : ∀ n vs, NoMore (L.foreign n vs)
  xform : ∀ n vs, NoMore (L.xform n vs)

theorem runDecode_noMore {sch : Schema} {L : Lib} (hL : LibShr L) : ∀ fuel n vs, NoMore (runDecode sch L fuel n vs) := by
  intro fuel
  induction fuel with
  | zero => intro n vs bs a r h; cases h
  | succ fuel ih =>
    intro n vs bs a r h
    simp only [runDecode, callDecl] at h
    split at h
    · cases h
    · split at h
      · cases h
      · exact runProg_noMore ⟨ih, hL.foreign, hL.xform⟩ _ _ _ _ h

/-! ## A reader that fails and a reader that has more -/

/-- What `fF` makes of the bytes `bs` before a failure, `f` makes of every continuation of `bs`. And if `fF` meets the failure, `f` looks at what is
behind `bs`: it takes some of it, or, if there is nothing, all of `bs`. `c`: also if there is something behind. -/
def Fails {α} (c : Bool) (f fF : Bytes → Res (α × Bytes)) : Prop :=
  ∀ bs m,
    (∀ a r, fF bs = .ok (a, r) → f (bs ++ m) = .ok (a, r ++ m)) ∧
    (∀ e, fF bs = .error e → (c = true ∨ m = []) → ∀ a r, f (bs ++ m) = .ok (a, r) → r.length < max 1 m.length)

/-- A window that reaches the failure reaches into what is behind the bytes; others are the same. -/
def WinRel (more : Bytes) (w w' : Win) : Prop :=
  w'.base = w.base ∧
    (w.base = 0 → w.stop = 0 → w'.stop ≤ more.length - 1) ∧
    (w.base = 0 → w.stop ≠ 0 → w'.stop = w.stop - 1 + more.length) ∧
    (w.base ≠ 0 → w'.stop = w.stop)

/-- The same moment: on the left the reader fails after `mem 0`, on the right `more` follows. -/
structure Beside (more : Bytes) (sF s : State) : Prop where
  regs : s.regs = sF.regs
  nb : s.nb = sF.nb
  pos : 1 ≤ sF.nb
  mem0 : s.mem 0 = sF.mem 0 ++ more
  mem : ∀ b, b ≠ 0 → s.mem b = sF.mem b
  none : ∀ t, sF.strm t = none → s.strm t = none
  some : ∀ t w, sF.strm t = some w → ∃ w', s.strm t = some w' ∧ WinRel more w w'

/-- Less is left than was behind the failure, or nothing. -/
def Out.spent (more : Bytes) : Out → Prop
  | .next s => 1 ≤ s.nb ∧ (s.mem 0).length < max 1 more.length
  | .ret _ s => 1 ≤ s.nb ∧ (s.mem 0).length < max 1 more.length
  | .fault _ => True

def OutRel (c : Bool) (more : Bytes) (F O : Out) : Prop :=
  match F with
  | .next sF => ∃ s, O = .next s ∧ Beside more sF s
  | .ret v sF => ∃ s, O = .ret v s ∧ Beside more sF s
  | .fault _ => (c = true ∨ more = []) → O.spent more

section
variable {c : Bool} {more : Bytes}

theorem spent_shr {s : State} {o : Out} (hn : 1 ≤ s.nb) (h : (s.mem 0).length < max 1 more.length) (ho : Shr s o) : o.spent more := by
  cases o with
  | next s' => exact ⟨Nat.le_trans hn ho.1, Nat.lt_of_le_of_lt ho.2 h⟩
  | ret v s' => exact ⟨Nat.le_trans hn ho.1, Nat.lt_of_le_of_lt ho.2 h⟩
  | fault f => trivial

/-- What a window shows of what is behind the failure. -/
def behind (more : Bytes) (w w' : Win) : Bytes := if w.fails then more.take (more.length - w'.stop) else []

/-- What a window shows and what happens to the rest. -/
theorem sim_vis {sF s : State} (h : Beside more sF s) {w w' : Win} (hw : WinRel more w w') :
    ∃ m, m = behind more w w' ∧ s.vis w' = sF.visF w ++ m ∧ (w.fails = false → m = []) ∧ (w.fails = true → (more ≠ [] → m ≠ []) ∧
        ∀ r : Bytes, r.length < max 1 m.length → (upd s.mem w'.base (r ++ s.hid w') 0).length < max 1 more.length) ∧
      ∀ r : Bytes, Beside more { sF with mem := upd sF.mem w.base (r ++ sF.hidF w) } { s with mem := upd s.mem w'.base (r ++ m ++ s.hid w') } := by
  obtain ⟨hb, h1, h2, h3⟩ := hw
  have store : ∀ (x y : Bytes), (w.base = 0 → y = x ++ more) → (w.base ≠ 0 → y = x) →
      Beside more { sF with mem := upd sF.mem w.base x } { s with mem := upd s.mem w'.base y } := by
    intro x y hx hy
    rw [hb]
    refine ⟨h.regs, h.nb, h.pos, ?_, ?_, h.none, h.some⟩
    · show upd s.mem w.base y 0 = upd sF.mem w.base x 0 ++ more
      by_cases hz : 0 = w.base
      · rw [← hz, upd_same, upd_same]; exact hx hz.symm
      · rw [upd_ne _ _ hz, upd_ne _ _ hz]; exact h.mem0
    · intro b hbz
      show upd s.mem w.base y b = upd sF.mem w.base x b
      by_cases hz : b = w.base
      · rw [hz, upd_same, upd_same]; exact hy (by rw [← hz]; exact hbz)
      · rw [upd_ne _ _ hz, upd_ne _ _ hz]; exact h.mem b hbz
  by_cases h0 : w.base = 0
  · have hm : s.mem w'.base = sF.mem w.base ++ more := by rw [hb, h0]; exact h.mem0
    by_cases hs : w.stop = 0
    · have hf : w.fails = true := by simp [Win.fails, h0, hs]
      have hsz : sF.size w.base = (sF.mem w.base).length + 1 := by simp [State.size, h0]
      have hst := h1 h0 hs
      have hvF : sF.visF w = sF.mem w.base := by
        unfold State.visF
        rw [hsz, hs]
        exact List.take_of_length_le (by omega)
      have hhF : sF.hidF w = [] := by
        unfold State.hidF
        rw [hsz, hs]
        exact List.drop_of_length_le (by omega)
      have hlen : (s.mem w'.base).length - w'.stop = (sF.mem w.base).length + (more.length - w'.stop) := by
        rw [hm, List.length_append]; omega
      refine ⟨more.take (more.length - w'.stop), by simp [behind, hf], ?_, fun e => (by rw [hf] at e; cases e), fun _ => ⟨fun hmn => ?_, fun r hr => ?_⟩, fun r => ?_⟩
      · unfold State.vis
        rw [hlen, hm, hvF, List.take_length_add_append]
      · have : 0 < more.length := List.length_pos_iff.2 hmn
        intro e
        have := congrArg List.length e
        simp only [List.length_take, List.length_nil] at this
        omega
      · have hz : (0 : Nat) = w'.base := by rw [hb, h0]
        rw [← hz, upd_same]
        unfold State.hid
        rw [hlen, hm, List.drop_length_add_append, List.length_append, List.length_drop]
        rw [List.length_take] at hr
        omega
      · refine store _ _ (fun _ => ?_) (fun hn => absurd h0 hn)
        unfold State.hid
        rw [hlen, hm, hhF, List.drop_length_add_append, List.append_assoc, List.take_append_drop, List.append_nil]
    · have hf : w.fails = false := by simp [Win.fails, hs]
      have hsz : sF.size w.base = (sF.mem w.base).length + 1 := by simp [State.size, h0]
      have hst := h2 h0 hs
      have hlen : (s.mem w'.base).length - w'.stop = sF.size w.base - w.stop := by
        rw [hm, List.length_append, hsz]; omega
      have hle : sF.size w.base - w.stop ≤ (sF.mem w.base).length := by omega
      refine ⟨[], by simp [behind, hf], ?_, fun _ => rfl, fun e => (by rw [hf] at e; cases e), fun r => ?_⟩
      · unfold State.vis State.visF
        rw [hlen, hm, List.take_append_of_le_length hle, List.append_nil]
      · refine store _ _ (fun _ => ?_) (fun hn => absurd h0 hn)
        unfold State.hid State.hidF
        rw [hlen, hm, List.drop_append_of_le_length hle, List.append_nil, List.append_assoc]
  · have hm : s.mem w'.base = sF.mem w.base := by rw [hb]; exact h.mem _ h0
    have hf : w.fails = false := by simp [Win.fails, h0]
    have hsz : sF.size w.base = (sF.mem w.base).length := by simp [State.size, h0]
    have hst := h3 h0
    refine ⟨[], by simp [behind, hf], ?_, fun _ => rfl, fun e => (by rw [hf] at e; cases e), fun r => ?_⟩
    · unfold State.vis State.visF
      rw [hm, hst, hsz, List.append_nil]
    · refine store _ _ (fun hn => absurd hn h0) (fun _ => ?_)
      unfold State.hid State.hidF
      rw [hm, hst, hsz, List.append_nil]

/-- Results of statements that read. -/
def StRel {α} (c : Bool) (more : Bytes) (F O : Res (α × State)) : Prop :=
  (∀ a sF, F = .ok (a, sF) → ∃ s, O = .ok (a, s) ∧ Beside more sF s) ∧
  (∀ e, F = .error e → (c = true ∨ more = []) → ∀ a s, O = .ok (a, s) → 1 ≤ s.nb ∧ (s.mem 0).length < max 1 more.length)

theorem onStream_rel {α} {f fF : Bytes → Res (α × Bytes)} (hf : Fails c f fF) {sF s : State} (h : Beside more sF s) (t : Target) :
    StRel c more (sF.onStreamF t f fF) (s.onStream t f) := by
  unfold State.onStreamF State.onStream
  cases hF : sF.strm t with
  | none => rw [h.none t hF]; exact ⟨fun _ _ h => (by cases h), fun _ _ _ _ _ h => (by cases h)⟩
  | some w =>
    obtain ⟨w', hO, hw⟩ := h.some t w hF
    rw [hO]
    simp only [optRes, ok_bind]
    obtain ⟨m, -, e1, e2, e3, e4⟩ := sim_vis h hw
    rw [e1]
    cases hwf : w.fails with
    | false =>
      have := e2 hwf
      subst this
      simp only [Bool.false_eq_true, if_false, List.append_nil]
      simp only [List.append_nil] at e4
      cases hr : f (sF.visF w) with
      | error e => exact ⟨fun _ _ h => (by cases h), fun _ _ _ _ _ h => (by cases h)⟩
      | ok p =>
        obtain ⟨a, r⟩ := p
        refine ⟨fun a' s' h => ?_, fun _ h => (by cases h)⟩
        cases h
        exact ⟨_, rfl, e4 r⟩
    | true =>
      obtain ⟨e5, e6⟩ := e3 hwf
      simp only [if_true]
      obtain ⟨g1, g2⟩ := hf (sF.visF w) m
      cases hr : fF (sF.visF w) with
      | error e =>
        refine ⟨fun _ _ h => (by cases h), fun _ _ hc a s' ho => ?_⟩
        obtain ⟨⟨a', r⟩, hk, ho⟩ := res_bind_inv ho
        cases ho
        refine ⟨by show 1 ≤ s.nb; rw [h.nb]; exact h.pos, e6 r (g2 e hr ?_ _ _ hk)⟩
        refine hc.imp id fun hm => ?_
        have hl := congrArg List.length e1
        have h1 := vis_hid_len s w'
        have hwb : w.base = 0 := by simp [Win.fails] at hwf; exact hwf.1
        have hwz : w.stop = 0 := by simp [Win.fails] at hwf; exact hwf.2
        have hvF : (sF.visF w).length = (sF.mem 0).length := by
          unfold State.visF State.size
          rw [hwb, hwz]
          simp
        rw [hw.1, hwb, h.mem0, hm, List.append_nil] at h1
        rw [List.length_append] at hl
        exact List.length_eq_zero_iff.1 (by omega)
      | ok p =>
        obtain ⟨a, r⟩ := p
        refine ⟨fun a' s' h => ?_, fun _ h => (by cases h)⟩
        cases h
        rw [g1 a r hr]
        exact ⟨_, rfl, e4 r⟩


theorem exact_fails (n : Nat) : Fails c (readExact n) (readExact n) := by
  intro bs m
  unfold readExact
  constructor
  · intro a r h
    split at h
    · cases h
    · rename_i hl
      cases h
      rw [if_neg (by rw [List.length_append]; omega), List.take_append_of_le_length (by omega), List.drop_append_of_le_length (by omega)]
  · intro e h _ a r h'
    split at h
    · rename_i hl
      split at h'
      · cases h'
      · rename_i hl'
        cases h'
        rw [List.length_append] at hl'
        rw [List.length_drop, List.length_append]
        omega
    · cases h

/-- Functions that read first and then look at what they have. -/
theorem Fails.map {α β} {f fF : Bytes → Res (α × Bytes)} (hf : Fails c f fF) (g : α → Res β) :
    Fails c (fun bs => f bs >>= fun p => g p.1 >>= fun b => .ok (b, p.2)) (fun bs => fF bs >>= fun p => g p.1 >>= fun b => .ok (b, p.2)) := by
  intro bs m
  obtain ⟨h1, h2⟩ := hf bs m
  constructor
  · intro b r h
    obtain ⟨⟨a, r'⟩, e1, h⟩ := res_bind_inv h
    obtain ⟨b', e2, h⟩ := res_bind_inv h
    cases h
    simp only [h1 a r' e1, ok_bind, e2]
  · intro e h hc b r h'
    obtain ⟨⟨a, r'⟩, e1, h'⟩ := res_bind_inv h'
    obtain ⟨b', e2, h'⟩ := res_bind_inv h'
    cases h'
    cases hF : fF bs with
    | error e' => exact h2 e' hF hc _ _ e1
    | ok p =>
      obtain ⟨a0, r0⟩ := p
      have e0 := h1 a0 r0 hF
      rw [e1] at e0
      cases e0
      have e2 : g a = .ok b := e2
      simp only [hF, ok_bind, e2] at h
      cases h

theorem decPrim_fails (p : Prim) : Fails c (decPrim p) (decPrim p) :=
  (exact_fails p.size).map fun raw => .ok (primOfBytes p raw)

theorem decRepr_fails (t : ReprTy) : Fails c (decRepr t) (decRepr t) :=
  (exact_fails t.rep.scalar.size).map fun raw => ofRepr t (bytesInt t.rep raw)

theorem items_fails (oc : Bool) (size n : Nat) : Fails c (readItems oc size (some n)) (readItems oc size (some n)) := by
  intro bs m
  simp only [readItems]
  cases usizeMul oc n size with
  | error e => exact ⟨fun _ _ h => (by cases h), fun _ _ _ _ _ h => (by cases h)⟩
  | ok total =>
    simp only [ok_bind]
    cases allocBytes total with
    | error e => exact ⟨fun _ _ h => (by cases h), fun _ _ _ _ _ h => (by cases h)⟩
    | ok u => exact exact_fails total bs m

/-- `read_to_end`: on a reader that fails, an error. -/
theorem all_fails {α} {fF : Bytes → Res (α × Bytes)} (hF : ∀ bs, ∃ e, fF bs = .error e) {f : Bytes → Res (α × Bytes)}
    (hf : ∀ bs a r, f bs = .ok (a, r) → r = []) : Fails c f fF := by
  intro bs m
  obtain ⟨e, he⟩ := hF bs
  refine ⟨fun a r h => (by rw [he] at h; cases h), fun e' h hc a r h' => ?_⟩
  rw [hf _ _ _ h']
  show 0 < max 1 m.length
  omega

theorem decPrimArray_fails (oc : Bool) (p : Prim) (n : Option Nat) : Fails c (decPrimArray oc p n) (decPrimArrayF oc p n) := by
  cases n with
  | some n =>
    show Fails c (decPrimArray oc p (some n)) (decPrimArray oc p (some n))
    unfold decPrimArray
    split
    · intro bs m; exact ⟨fun _ _ h => (by cases h), fun _ _ _ _ _ h => (by cases h)⟩
    · exact (items_fails oc p.size n).map fun raw => .ok (Val.arr ((chunksExact p.size raw).map (primOfBytes p)))
  | none =>
    refine all_fails (fun bs => ?_) fun bs a r h => ?_
    · unfold decPrimArrayF
      simp only
      split
      · exact ⟨_, rfl⟩
      · exact ⟨_, rfl⟩
    · unfold decPrimArray at h
      split at h
      · cases h
      · obtain ⟨⟨x, y⟩, h1, h⟩ := res_bind_inv h
        cases h
        cases h1
        rfl

theorem decReprArray_fails (oc : Bool) (t : ReprTy) (n : Option Nat) : Fails c (decReprArray oc t n) (decReprArrayF oc t n) := by
  cases n with
  | some n =>
    have h := ((items_fails (c := c) oc t.rep.scalar.size n).map fun raw =>
      (chunksExact t.rep.scalar.size raw).mapM fun x => ofRepr t (bytesInt t.rep x)).map fun vs => .ok (Val.arr vs)
    have e : decReprArray oc t (some n) = fun bs => (readItems oc t.rep.scalar.size (some n) bs >>= fun p =>
        ((chunksExact t.rep.scalar.size p.1).mapM fun x => ofRepr t (bytesInt t.rep x)) >>= fun b => .ok (b, p.2)) >>= fun p =>
          (.ok (Val.arr p.1) : Res Val) >>= fun b => .ok (b, p.2) := by
      funext bs
      unfold decReprArray
      cases readItems oc t.rep.scalar.size (some n) bs with
      | error e => rfl
      | ok p =>
        obtain ⟨raw, r⟩ := p
        simp only [ok_bind]
        cases (chunksExact t.rep.scalar.size raw).mapM fun x => ofRepr t (bytesInt t.rep x) with
        | error e => rfl
        | ok vs => rfl
    show Fails c (decReprArray oc t (some n)) (decReprArray oc t (some n))
    rw [e]
    exact h
  | none =>
    refine all_fails (fun bs => ⟨_, rfl⟩) fun bs a r h => ?_
    obtain ⟨⟨x, y⟩, h1, h⟩ := res_bind_inv h
    obtain ⟨v, _, h⟩ := res_bind_inv h
    cases h
    cases h1
    rfl

theorem skip_fails (n : Nat) : Fails c (skipBytes n) (skipBytes n) := by
  intro bs m
  unfold skipBytes
  cases allocBytes n with
  | error e => exact ⟨fun _ _ h => (by cases h), fun _ _ _ _ _ h => (by cases h)⟩
  | ok u => exact (exact_fails (c := c) n).map (fun _ => (.ok () : Res Unit)) bs m

/-- What is called on readers that fail and on readers that end. -/
structure ExtFails (c : Bool) (X Y : Ext) : Prop where
  shr : ExtShr X
  call : ∀ n vs, Fails c (X.call n vs) (Y.call n vs)
  foreign : ∀ n vs, Fails c (X.foreign n vs) (Y.foreign n vs)
  xform : ∀ n vs, Fails c (X.xform n vs) (Y.xform n vs)

/-- As `OutRel`, for statements that give a state. -/
def ResRel (c : Bool) (more : Bytes) (F O : Res State) : Prop :=
  (∀ sF, F = .ok sF → ∃ s, O = .ok s ∧ Beside more sF s) ∧
  (∀ e, F = .error e → (c = true ∨ more = []) → ∀ s, O = .ok s → 1 ≤ s.nb ∧ (s.mem 0).length < max 1 more.length)

theorem ResRel.out {F O : Res State} (h : ResRel c more F O) : OutRel c more (Res.out F) (Res.out O) := by
  cases F with
  | ok sF =>
    obtain ⟨s, rfl, hs⟩ := h.1 sF rfl
    exact ⟨s, rfl, hs⟩
  | error e =>
    intro hc
    cases O with
    | ok s => exact h.2 e rfl hc s rfl
    | error f => trivial

theorem ResRel.err {e : Fault} : ResRel c more (.error e) (.error e) :=
  ⟨fun _ h => (by cases h), fun _ _ _ _ h => (by cases h)⟩

theorem ResRel.ok {sF s : State} (h : Beside more sF s) : ResRel c more (.ok sF) (.ok s) :=
  ⟨fun _ e => by cases e; exact ⟨s, rfl, h⟩, fun _ h => (by cases h)⟩

/-- The same computation on both sides, then something related. -/
theorem ResRel.bind {α} {x : Res α} {k l : α → Res State} (h : ∀ a, x = .ok a → ResRel c more (k a) (l a)) :
    ResRel c more (x >>= k) (x >>= l) := by
  cases x with
  | ok a => exact h a rfl
  | error e => exact .err

theorem StRel.bind {α} {F O : Res (α × State)} (h : StRel c more F O) {k : α → State → State}
    (hk : ∀ a sF s, Beside more sF s → Beside more (k a sF) (k a s)) (hn : ∀ a s, 1 ≤ s.nb → 1 ≤ (k a s).nb ∧ (k a s).mem 0 = s.mem 0) :
    ResRel c more (F >>= fun p => .ok (k p.1 p.2)) (O >>= fun p => .ok (k p.1 p.2)) := by
  constructor
  · intro sF hF
    obtain ⟨⟨a, s1⟩, h1, hF⟩ := res_bind_inv hF
    cases hF
    obtain ⟨s, rfl, hs⟩ := h.1 a s1 h1
    exact ⟨_, rfl, hk _ _ _ hs⟩
  · intro e hF hc s hO
    obtain ⟨⟨a, s1⟩, h1, hO⟩ := res_bind_inv hO
    cases hO
    cases F with
    | error e' =>
      obtain ⟨g1, g2⟩ := h.2 e' rfl hc a s1 h1
      obtain ⟨g3, g4⟩ := hn a s1 g1
      exact ⟨g3, by rw [g4]; exact g2⟩
    | ok p => cases hF

theorem setReg_beside {sF s : State} (h : Beside more sF s) (r : Nat) (v : Val) : Beside more (sF.setReg r v) (s.setReg r v) :=
  ⟨by show upd s.regs r (some v) = upd sF.regs r (some v); rw [h.regs], h.nb, h.pos, h.mem0, h.mem, h.none, h.some⟩

theorem strm_beside {sF s : State} (h : Beside more sF s) (t : Target) {w w' : Option Win}
    (hw : (w = none ∧ w' = none) ∨ ∃ x x', w = some x ∧ w' = some x' ∧ WinRel more x x') :
    Beside more { sF with strm := upd sF.strm t w } { s with strm := upd s.strm t w' } := by
  refine ⟨h.regs, h.nb, h.pos, h.mem0, h.mem, fun t' => ?_, fun t' x => ?_⟩
  · show upd sF.strm t w t' = none → upd s.strm t w' t' = none
    by_cases ht : t' = t
    · subst ht
      rw [upd_same, upd_same]
      rintro rfl
      rcases hw with ⟨_, h⟩ | ⟨_, _, h, _⟩
      · exact h
      · cases h
    · rw [upd_ne _ _ ht, upd_ne _ _ ht]; exact h.none t'
  · show upd sF.strm t w t' = some x → ∃ w2, upd s.strm t w' t' = some w2 ∧ WinRel more x w2
    by_cases ht : t' = t
    · subst ht
      rw [upd_same, upd_same]
      rintro rfl
      rcases hw with ⟨h, _⟩ | ⟨y, x', h, h', hr⟩
      · cases h
      · cases h; exact ⟨x', h', hr⟩
    · rw [upd_ne _ _ ht, upd_ne _ _ ht]; exact h.some t' x

theorem newStream_beside {sF s : State} (h : Beside more sF s) (t : Target) (bs : Bytes) :
    Beside more (sF.newStream t bs) (s.newStream t bs) := by
  have hp := h.pos
  have h' := strm_beside h t (w := some ⟨sF.nb, 0⟩) (w' := some ⟨s.nb, 0⟩)
    (.inr ⟨_, _, rfl, rfl, by rw [h.nb], fun e => absurd e (by show sF.nb ≠ 0; omega), fun e => absurd e (by show sF.nb ≠ 0; omega), fun _ => rfl⟩)
  refine ⟨h.regs, by show s.nb + 1 = sF.nb + 1; rw [h.nb], by show 1 ≤ sF.nb + 1; omega, ?_, ?_, h'.none, h'.some⟩
  · show upd s.mem s.nb bs 0 = upd sF.mem sF.nb bs 0 ++ more
    rw [h.nb, upd_ne _ _ (by omega), upd_ne _ _ (by omega)]
    exact h.mem0
  · intro b hb
    show upd s.mem s.nb bs b = upd sF.mem sF.nb bs b
    rw [h.nb]
    by_cases hz : b = sF.nb
    · rw [hz, upd_same, upd_same]
    · rw [upd_ne _ _ hz, upd_ne _ _ hz]; exact h.mem b hb

theorem reg_beside {sF s : State} (h : Beside more sF s) (r : Nat) : s.reg r = sF.reg r := by unfold State.reg; rw [h.regs]
theorem args_beside {sF s : State} (h : Beside more sF s) (rs : List Nat) : s.args rs = sF.args rs := by
  unfold State.args
  exact congrArg (fun f => rs.mapM f) (funext fun r => reg_beside h r)
theorem named_beside {sF s : State} (h : Beside more sF s) (items : List (String × Nat)) : s.named items = sF.named items := by
  unfold State.named
  exact congrArg (fun f => items.mapM f) (funext fun p => by rw [reg_beside h])
theorem optLen_beside {sF s : State} (h : Beside more sF s) (r : Option Nat) : optLen s r = optLen sF r := by
  cases r with
  | none => rfl
  | some r => simp only [optLen, reg_beside h]
theorem build_beside {sF s : State} (h : Beside more sF s) (k : Construct) : s.build k = sF.build k := by
  cases k <;> simp only [State.build, reg_beside h, named_beside h]

theorem decInto_rel {f fF : Bytes → Res (Val × Bytes)} (hf : Fails c f fF) {sF s : State} (h : Beside more sF s) (t : Target) (out : Nat) :
    ResRel c more (sF.decIntoF t out f fF) (s.decInto t out f) :=
  (onStream_rel hf h t).bind (k := fun a s => s.setReg out a) (fun a _ _ h => setReg_beside h out a) fun _ _ h => ⟨h, rfl⟩

theorem wrapStream_rel {X Y : Ext} (hX : ExtFails c X Y) {sF s : State} (h : Beside more sF s) (src : Target) (new : Nat) (xf : String)
    (vs : List Val) : ResRel c more (sF.wrapStreamF X Y src new xf vs) (s.wrapStream X src new xf vs) :=
  (onStream_rel (hX.xform xf vs) h src).bind (k := fun a s => s.newStream (.stream new) a) (fun a _ _ h => newStream_beside h _ a)
    fun a s hn => ⟨by show 1 ≤ s.nb + 1; omega, (newStream_shr hn (.stream new) a).2⟩

theorem constrict_rel {sF s : State} (h : Beside more sF s) {w w' : Win} (hw : WinRel more w w') (k : Nat) :
    WinRel more ⟨w.base, max w.stop (sF.size w.base - k)⟩ ⟨w'.base, max w'.stop ((s.mem w'.base).length - k)⟩ := by
  obtain ⟨hb, h1, h2, h3⟩ := hw
  refine ⟨hb, ?_, ?_, ?_⟩
  · intro h0 hs
    simp only at h0 hs ⊢
    have hm : (s.mem w'.base).length = (sF.mem w.base).length + more.length := by
      rw [hb, h0, h.mem0, List.length_append]
    have hsz : sF.size w.base = (sF.mem w.base).length + 1 := by simp [State.size, h0]
    have := h1 h0 (by omega)
    rw [hm]
    rw [hsz] at hs
    omega
  · intro h0 hs
    simp only at h0 hs ⊢
    have hm : (s.mem w'.base).length = (sF.mem w.base).length + more.length := by
      rw [hb, h0, h.mem0, List.length_append]
    have hsz : sF.size w.base = (sF.mem w.base).length + 1 := by simp [State.size, h0]
    rw [hm, hsz]
    rw [hsz] at hs
    by_cases hz : w.stop = 0
    · have := h1 h0 hz
      omega
    · have := h2 h0 hz
      omega
  · intro h0
    simp only at h0 ⊢
    have hm : s.mem w'.base = sF.mem w.base := by rw [hb]; exact h.mem _ h0
    have hsz : sF.size w.base = (sF.mem w.base).length := by simp [State.size, h0]
    rw [hm, hsz, h3 h0]

theorem execOp_rel {X Y : Ext} (hX : ExtFails c X Y) {sF s : State} (h : Beside more sF s) (i : Op) :
    OutRel c more (execOpF X Y sF i) (execOp X s i) := by
  cases i with
  | ret r =>
    unfold execOpF execOp
    simp only [reg_beside h]
    cases sF.reg r with
    | ok v => exact ⟨s, rfl, h⟩
    | error f => intro _; trivial
  | error m => intro _; trivial
  | eval r e m =>
    refine ResRel.out (F := runE X.oc ⟨fun n => (m n).bind sF.regs, X.input⟩ e >>= fun v => .ok (sF.setReg r v))
      (O := runE X.oc ⟨fun n => (m n).bind s.regs, X.input⟩ e >>= fun v => .ok (s.setReg r v)) ?_
    rw [h.regs]
    exact ResRel.bind fun v _ => .ok (setReg_beside h r v)
  | construct r k =>
    refine ResRel.out (F := sF.build k >>= fun v => .ok (sF.setReg r v)) (O := s.build k >>= fun v => .ok (s.setReg r v)) ?_
    rw [build_beside h]
    exact ResRel.bind fun v _ => .ok (setReg_beside h r v)
  | constrict src new len =>
    refine ResRel.out (F := sF.reg len >>= fun v => asUsize v >>= fun k => optRes (sF.strm src) >>= fun w =>
        .ok { sF with strm := upd sF.strm (.stream new) (some ⟨w.base, max w.stop (sF.size w.base - k)⟩) })
      (O := s.reg len >>= fun v => asUsize v >>= fun k => optRes (s.strm src) >>= fun w =>
        .ok { s with strm := upd s.strm (.stream new) (some ⟨w.base, max w.stop ((s.mem w.base).length - k)⟩) }) ?_
    rw [reg_beside h]
    refine ResRel.bind fun v _ => ResRel.bind fun k _ => ?_
    cases hF : sF.strm src with
    | none => rw [h.none src hF]; exact .err
    | some w =>
      obtain ⟨w', hO, hw⟩ := h.some src w hF
      rw [hO]
      exact .ok (strm_beside h _ (.inr ⟨_, _, rfl, rfl, constrict_rel h hw k⟩))
  | wrap src new xf args =>
    refine ResRel.out (O := s.args args >>= fun vs => s.wrapStream X src new xf vs) ?_
    rw [args_beside h]
    exact ResRel.bind fun vs _ => wrapStream_rel hX h src new xf vs
  | foreign src out n args =>
    refine ResRel.out (O := s.args args >>= fun vs => s.decInto src out (X.foreign n vs)) ?_
    rw [args_beside h]
    exact ResRel.bind fun vs _ => decInto_rel (hX.foreign n vs) h src out
  | ref src out n args =>
    refine ResRel.out (O := s.args args >>= fun vs => s.decInto src out (X.call n vs)) ?_
    rw [args_beside h]
    exact ResRel.bind fun vs _ => decInto_rel (hX.call n vs) h src out
  | repr t out src => exact ResRel.out (O := s.decInto src out (decRepr t)) (decInto_rel (decRepr_fails t) h src out)
  | prim src out p => exact ResRel.out (O := s.decInto src out (decPrim p)) (decInto_rel (decPrim_fails p) h src out)
  | primArray src out p len =>
    refine ResRel.out (O := optLen s len >>= fun k => s.decInto src out (decPrimArray X.oc p k)) ?_
    rw [optLen_beside h]
    exact ResRel.bind fun k _ => decInto_rel (decPrimArray_fails X.oc p k) h src out
  | reprArray src out t len =>
    refine ResRel.out (O := optLen s len >>= fun k => s.decInto src out (decReprArray X.oc t k)) ?_
    rw [optLen_beside h]
    exact ResRel.bind fun k _ => decInto_rel (decReprArray_fails X.oc t k) h src out
  | skip src len =>
    refine ResRel.out (O := s.reg len >>= fun v => asUsize v >>= fun k => s.onStream src (skipBytes k) >>= fun p => .ok p.2) ?_
    rw [reg_beside h]
    refine ResRel.bind fun v _ => ResRel.bind fun k _ => ?_
    exact (onStream_rel (skip_fails k) h src).bind (k := fun _ s => s) (fun _ _ _ h => h) fun _ _ h => ⟨h, rfl⟩
  | loopOutput out item =>
    refine ResRel.out (F := sF.reg item >>= fun v => sF.reg out >>= fun o =>
        match o with | .arr vs => .ok (sF.setReg out (.arr (vs ++ [v]))) | _ => .error .ill)
      (O := s.reg item >>= fun v => s.reg out >>= fun o =>
        match o with | .arr vs => .ok (s.setReg out (.arr (vs ++ [v]))) | _ => .error .ill) ?_
    rw [reg_beside h, reg_beside h]
    refine ResRel.bind fun v _ => ResRel.bind fun o _ => ?_
    cases o <;> first | exact .ok (setReg_beside h _ _) | exact .err


theorem spent_next {o : Out} {l : State → Out} : o.spent more → (∀ s, 1 ≤ s.nb → Shr s (l s)) →
    (match o with | .next s => l s | o => o).spent more := by
  intro h hl
  cases o with
  | next s => exact spent_shr h.1 h.2 (hl s h.1)
  | ret v s => exact h
  | fault f => trivial

theorem OutRel.bind {F O : Out} {k l : State → Out} : OutRel c more F O → (∀ sF s, Beside more sF s → OutRel c more (k sF) (l s)) →
    (∀ s, 1 ≤ s.nb → Shr s (l s)) →
    OutRel c more (match F with | .next s => k s | o => o) (match O with | .next s => l s | o => o) := by
  intro h hk hl
  cases F with
  | next sF =>
    obtain ⟨s, rfl, hs⟩ := h
    exact hk sF s hs
  | ret v sF =>
    obtain ⟨s, rfl, hs⟩ := h
    exact ⟨s, rfl, hs⟩
  | fault f =>
    intro hc
    exact spent_next (h hc) hl

theorem leave_beside {sF s sF' s' : State} (h : Beside more sF s) (h' : Beside more sF' s') {r r' : Nat → Option Val} (hr : r' = r) :
    Beside more { (sF.leave sF') with regs := r } { (s.leave s') with regs := r' } :=
  ⟨hr, h'.nb, h'.pos, h'.mem0, h'.mem, h.none, h.some⟩

theorem iter_rel {k l : State → Out} (h : ∀ sF s, Beside more sF s → OutRel c more (k sF) (l s)) (out : Nat) (sF s : State) (hs : Beside more sF s) :
    OutRel c more (iter k out sF) (iter l out s) := by
  unfold iter
  have h := h sF s hs
  cases hF : k sF with
  | next sF' =>
    rw [hF] at h
    obtain ⟨s', hO, hs'⟩ := h
    rw [hO]
    exact ⟨_, rfl, leave_beside hs hs' (by rw [hs.regs, hs'.regs])⟩
  | ret v sF' =>
    rw [hF] at h
    obtain ⟨s', hO, hs'⟩ := h
    rw [hO]
    exact ⟨_, rfl, hs'⟩
  | fault f =>
    rw [hF] at h
    intro hc
    have h := h hc
    cases hO : l s with
    | next s' => rw [hO] at h; exact h
    | ret v s' => rw [hO] at h; exact h
    | fault f => trivial

section
variable {k l : State → Out} (h : ∀ sF s, Beside more sF s → OutRel c more (k sF) (l s)) (hl : ∀ s, 1 ≤ s.nb → Shr s (l s))
include h hl

theorem loopN_rel : ∀ n sF s, Beside more sF s → OutRel c more (loopN k n sF) (loopN l n s)
  | 0, sF, s, hs => ⟨s, rfl, hs⟩
  | n + 1, sF, s, hs => by
    unfold loopN
    exact (h sF s hs).bind (loopN_rel n) fun s hn => loopN_shr hl n s hn

omit hl h in
theorem vis_beside {sF s : State} (hs : Beside more sF s) {w : Win} (hw : w.base ≠ 0) : s.vis w = sF.vis w := by
  unfold State.vis; rw [hs.mem _ hw]

theorem loopWhile_rel {w : Win} (hw : w.base ≠ 0) : ∀ n sF s, Beside more sF s → OutRel c more (loopWhile k w n sF) (loopWhile l w n s) := by
  intro n
  induction n with
  | zero =>
    intro sF s hs
    unfold loopWhile
    rw [vis_beside hs hw]
    split
    · exact ⟨s, rfl, hs⟩
    · intro _; trivial
  | succ n ih =>
    intro sF s hs
    unfold loopWhile
    rw [vis_beside hs hw]
    split
    · exact ⟨s, rfl, hs⟩
    · simp only
      have hb := h sF s hs
      cases hF : k sF with
      | next sF' =>
        rw [hF] at hb
        obtain ⟨s', hO, hs'⟩ := hb
        rw [hO]
        simp only
        rw [vis_beside hs' hw]
        split
        · exact ih sF' s' hs'
        · intro _; trivial
      | ret v sF' =>
        rw [hF] at hb
        obtain ⟨s', hO, hs'⟩ := hb
        rw [hO]
        exact ⟨_, rfl, hs'⟩
      | fault f =>
        rw [hF] at hb
        intro hc
        have hb := hb hc
        cases hO : l s with
        | next s' =>
          rw [hO] at hb
          simp only
          split
          · exact spent_shr hb.1 hb.2 (loopWhile_shr hl w n s' hb.1)
          · trivial
        | ret v s' => rw [hO] at hb; exact hb
        | fault f => trivial

end

/-- The register holds a text that is not empty. -/
def HoldsFull (s : State) (r : Nat) : Prop := ∃ v tb, s.regs r = some v ∧ v.toBytes = some tb ∧ tb ≠ []

/-- A loop with a terminator ends where its window ends, or behind a terminator. -/
theorem loopTerm_ends {l : State → Out} (hl : ∀ s, 1 ≤ s.nb → Shr s (l s)) (hr : ∀ s v s', l s ≠ .ret v s') {w : Win} (hw : w.base = 0) (t : Bytes) :
    ∀ n s, 1 ≤ s.nb → match loopTerm l w t n s with
      | .next s' => 1 ≤ s'.nb ∧ ((s'.mem 0).length ≤ w.stop ∨ (s'.mem 0).length + t.length ≤ (s.mem 0).length)
      | .ret _ _ => False
      | .fault _ => True := by
  have len (s : State) : (s.vis w).length = (s.mem 0).length - w.stop := by
    unfold State.vis; rw [hw, List.length_take]; omega
  have found (s : State) (hn : 1 ≤ s.nb) (h : ¬(s.vis w).length < t.length) :
      1 ≤ s.nb ∧ ((upd s.mem w.base ((s.vis w).drop t.length ++ s.hid w) 0).length ≤ w.stop ∨
        (upd s.mem w.base ((s.vis w).drop t.length ++ s.hid w) 0).length + t.length ≤ (s.mem 0).length) := by
    refine ⟨hn, .inr ?_⟩
    have := vis_hid_len s w
    rw [hw] at this
    rw [hw, upd_same, List.length_append, List.length_drop]
    omega
  have empty (s : State) (hn : 1 ≤ s.nb) (h : s.vis w = []) :
      1 ≤ s.nb ∧ ((s.mem 0).length ≤ w.stop ∨ (s.mem 0).length + t.length ≤ (s.mem 0).length) := by
    refine ⟨hn, .inl ?_⟩
    have := len s
    rw [h] at this
    simp only [List.length_nil] at this
    omega
  intro n
  induction n with
  | zero =>
    intro s hn
    unfold loopTerm
    by_cases h0 : s.vis w = []
    · rw [if_pos h0]; exact empty s hn h0
    · rw [if_neg h0]
      by_cases h1 : (s.vis w).length < t.length
      · rw [if_pos h1]; trivial
      · rw [if_neg h1]
        by_cases h2 : (s.vis w).take t.length = t
        · rw [if_pos h2]; exact found s hn h1
        · rw [if_neg h2]; trivial
  | succ n ih =>
    intro s hn
    unfold loopTerm
    by_cases h0 : s.vis w = []
    · rw [if_pos h0]; exact empty s hn h0
    · rw [if_neg h0]
      by_cases h1 : (s.vis w).length < t.length
      · rw [if_pos h1]; trivial
      · rw [if_neg h1]
        by_cases h2 : (s.vis w).take t.length = t
        · rw [if_pos h2]; exact found s hn h1
        · rw [if_neg h2]
          simp only
          have hs := hl s hn
          have hr := hr s
          cases ho : l s with
          | next s' =>
            rw [ho] at hs
            simp only
            by_cases hp : (s'.vis w).length < (s.vis w).length
            · rw [if_pos hp]
              have h := ih s' (Nat.le_trans hn hs.1)
              generalize loopTerm l w t n s' = o at h
              cases o with
              | next s2 => exact ⟨h.1, h.2.imp id fun h => Nat.le_trans h hs.2⟩
              | ret v s2 => exact h
              | fault f => trivial
            · rw [if_neg hp]; trivial
          | ret v s' => exact (hr v s' ho).elim
          | fault f => trivial

theorem loopTerm_rel {k l : State → Out} (h : ∀ sF s, Beside more sF s → OutRel c more (k sF) (l s)) (hl : ∀ s, 1 ≤ s.nb → Shr s (l s))
    {w w' : Win} (hw : WinRel more w w') (t : Bytes)
    (hc : c = true → t ≠ [] ∧ ∀ s v s', l s ≠ .ret v s') : ∀ n nO sF s, Beside more sF s → (sF.visF w).length ≤ n → (s.vis w').length ≤ nO →
      OutRel c more (loopTermF k w t n sF) (loopTerm l w' t nO s) := by
  have short : ∀ nO sF s, Beside more sF s → w.fails = true → (sF.visF w).length < t.length → c = true →
      (loopTerm l w' t nO s).spent more := by
    intro nO sF s hs hf hlt hct
    obtain ⟨hwb, hwz⟩ : w.base = 0 ∧ w.stop = 0 := by simpa [Win.fails] using hf
    have hmem : (sF.visF w).length = (sF.mem 0).length := by
      unfold State.visF State.size
      rw [hwb, hwz]
      simp
    have hstop := hw.2.1 hwb hwz
    have he := loopTerm_ends hl (hc hct).2 (w := w') (by rw [hw.1]; exact hwb) t nO s (by rw [hs.nb]; exact hs.pos)
    have h0 : (s.mem 0).length = (sF.mem 0).length + more.length := by rw [hs.mem0, List.length_append]
    generalize loopTerm l w' t nO s = o at he
    cases o with
    | next s' => exact ⟨he.1, by have := he.2; omega⟩
    | ret v s' => exact he.elim
    | fault f => trivial
  intro n
  induction n with
  | zero =>
    intro nO sF s hs h1 h2
    have hz : sF.visF w = [] := List.length_eq_zero_iff.1 (by omega)
    obtain ⟨m, em, e1, e2, e3, e4⟩ := sim_vis hs hw
    unfold loopTermF
    rw [if_pos hz]
    cases hf : w.fails with
    | false =>
      rw [if_neg (by simp)]
      unfold loopTerm
      rw [if_pos (by rw [e1, hz, e2 hf]; rfl)]
      exact ⟨s, rfl, hs⟩
    | true =>
      rw [if_pos rfl]
      intro hcc
      by_cases hct : c = true
      · exact short nO sF s hs hf (by rw [hz]; exact List.length_pos_iff.2 (hc hct).1) hct
      have hc : more = [] := hcc.resolve_left hct
      have hm : m = [] := by rw [em, hc]; simp [behind]
      unfold loopTerm
      rw [if_pos (by rw [e1, hz, hm]; rfl)]
      refine ⟨by rw [hs.nb]; exact hs.pos, ?_⟩
      have hwb : w.base = 0 := by simp [Win.fails] at hf; exact hf.1
      have hwz : w.stop = 0 := by simp [Win.fails] at hf; exact hf.2
      have : (sF.visF w).length = (sF.mem 0).length := by
        unfold State.visF State.size
        rw [hwb, hwz]
        simp
      rw [hz] at this
      rw [hs.mem0, hc, List.append_nil, ← this]
      simp
  | succ n ih =>
    intro nO sF s hs h1 h2
    obtain ⟨m, em, e1, e2, e3, e4⟩ := sim_vis hs hw
    unfold loopTermF
    by_cases hz : sF.visF w = []
    · rw [if_pos hz]
      cases hf : w.fails with
      | false =>
        rw [if_neg (by simp)]
        unfold loopTerm
        rw [if_pos (by rw [e1, hz, e2 hf]; rfl)]
        exact ⟨s, rfl, hs⟩
      | true =>
        rw [if_pos rfl]
        intro hcc
        by_cases hct : c = true
        · exact short nO sF s hs hf (by rw [hz]; exact List.length_pos_iff.2 (hc hct).1) hct
        have hc : more = [] := hcc.resolve_left hct
        have hm : m = [] := by rw [em, hc]; simp [behind]
        unfold loopTerm
        rw [if_pos (by rw [e1, hz, hm]; rfl)]
        refine ⟨by rw [hs.nb]; exact hs.pos, ?_⟩
        have hwb : w.base = 0 := by simp [Win.fails] at hf; exact hf.1
        have hwz : w.stop = 0 := by simp [Win.fails] at hf; exact hf.2
        have : (sF.visF w).length = (sF.mem 0).length := by
          unfold State.visF State.size
          rw [hwb, hwz]
          simp
        rw [hz] at this
        rw [hs.mem0, hc, List.append_nil, ← this]
        simp
    · rw [if_neg hz]
      have hzO : s.vis w' ≠ [] := by rw [e1]; simp [hz]
      by_cases ht : (sF.visF w).length < t.length
      · rw [if_pos ht]
        intro hcc
        cases hf : w.fails with
        | true =>
          by_cases hct : c = true
          · exact short nO sF s hs hf ht hct
          have hc : more = [] := hcc.resolve_left hct
          have hm : m = [] := by rw [em, hc]; simp [behind]
          unfold loopTerm
          rw [if_neg hzO, if_pos (by rw [e1, hm, List.append_nil]; exact ht)]
          trivial
        | false =>
          unfold loopTerm
          rw [if_neg hzO, if_pos (by rw [e1, e2 hf, List.append_nil]; exact ht)]
          trivial
      · unfold loopTerm
        rw [if_neg hzO]
        have hlO : ¬ (s.vis w').length < t.length := by rw [e1, List.length_append]; omega
        rw [if_neg ht]
        have htk : (s.vis w').take t.length = (sF.visF w).take t.length := by
          rw [e1, List.take_append_of_le_length (by omega)]
        by_cases he : (sF.visF w).take t.length = t
        · rw [if_pos he, if_neg hlO, if_pos (htk.trans he)]
          refine ⟨_, rfl, ?_⟩
          have := e4 ((sF.visF w).drop t.length)
          rw [e1, List.drop_append_of_le_length (by omega)]
          exact this
        · rw [if_neg he, if_neg hlO, if_neg (fun e => he (htk.symm.trans e))]
          have hb := h sF s hs
          obtain ⟨nO, rfl⟩ : ∃ x, nO = x + 1 := ⟨nO - 1, by
            have := List.length_pos_iff.2 hzO
            omega⟩
          simp only
          cases hF : k sF with
          | next sF' =>
            rw [hF] at hb
            obtain ⟨s', hO, hs'⟩ := hb
            rw [hO]
            simp only
            obtain ⟨m', em', e1', -⟩ := sim_vis hs' hw
            have hmm : m' = m := em'.trans em.symm
            have hiff : (s'.vis w').length < (s.vis w').length ↔ (sF'.visF w).length < (sF.visF w).length := by
              rw [e1, e1', hmm, List.length_append, List.length_append]; omega
            by_cases hp : (sF'.visF w).length < (sF.visF w).length
            · rw [if_pos hp, if_pos (hiff.2 hp)]
              have := hiff.2 hp
              exact ih nO sF' s' hs' (by omega) (by omega)
            · rw [if_neg hp, if_neg (fun e => hp (hiff.1 e))]
              intro _; trivial
          | ret v sF' =>
            rw [hF] at hb
            obtain ⟨s', hO, hs'⟩ := hb
            rw [hO]
            exact ⟨_, rfl, hs'⟩
          | fault f =>
            rw [hF] at hb
            intro hcc
            have hb := hb hcc
            cases hO : l s with
            | next s' =>
              rw [hO] at hb
              simp only
              split
              · exact spent_shr hb.1 hb.2 (loopTerm_shr hl w' t nO s' hb.1)
              · trivial
            | ret v s' => rw [hO] at hb; exact hb
            | fault f => trivial

theorem execLoop_rel {k l : State → Out} (h : ∀ sF s, Beside more sF s → OutRel c more (k sF) (l s)) (hl : ∀ s, 1 ≤ s.nb → Shr s (l s))
    (src : Target) (len term : Option Nat) (out : Nat) (sF s : State) (hs : Beside more sF s)
    (hc : ∀ r, len = none → term = some r → c = true → HoldsFull s r ∧ ∀ s v s', l s ≠ .ret v s') :
    OutRel c more (execLoopF k src len term out sF) (execLoop l src len term out s) := by
  have hi := iter_rel h out
  have hli := fun s hn => iter_shr hl out s hn
  have hs0 := setReg_beside hs out (.arr [])
  unfold execLoopF execLoop
  cases len with
  | some n =>
    simp only [reg_beside hs]
    cases (sF.reg n).bind loopCount with
    | ok n => exact loopN_rel hi hli n _ _ hs0
    | error f => intro _; trivial
  | none =>
    cases term with
    | some t =>
      have hc := hc t rfl rfl
      have hreg : s.reg t = sF.reg t := reg_beside hs t
      simp only [hreg]
      cases ht : sF.reg t with
      | error f => intro _; trivial
      | ok v =>
        rw [ht] at hreg
        cases hF : sF.strm src with
        | none => rw [hs.none src hF]; intro _; trivial
        | some w =>
          obtain ⟨w', hO, hw⟩ := hs.some src w hF
          rw [hO]
          simp only
          cases hv : v.toBytes with
          | none => intro _; trivial
          | some tb =>
            refine loopTerm_rel hi hli hw tb (fun hct => ?_) _ _ _ _ hs0 (Nat.le_refl _) (Nat.le_refl _)
            obtain ⟨⟨v', tb', h1, h2, h3⟩, h4⟩ := hc hct
            have : v' = v := by
              unfold State.reg at hreg
              rw [h1] at hreg
              cases hreg
              rfl
            subst this
            rw [hv] at h2
            cases h2
            refine ⟨h3, fun s v s' h => ?_⟩
            unfold iter at h
            cases ho : l s with
            | next s2 => rw [ho] at h; cases h
            | ret v2 s2 => exact h4 _ _ _ ho
            | fault f => rw [ho] at h; cases h
    | none =>
      simp only
      have hr := onStream_rel (c := c) (f := fun bs : Bytes => (.ok (bs, []) : Res (Bytes × Bytes))) (fF := fun _ => .error ioFault)
        (all_fails (fun bs => ⟨_, rfl⟩) fun bs a r h => by cases h; rfl) hs0 src
      cases hF : (sF.setReg out (Val.arr [])).onStreamF src (fun bs => .ok (bs, [])) (fun _ => .error ioFault) with
      | error f =>
        intro hcc
        cases hO : (s.setReg out (Val.arr [])).onStream src (fun bs => Except.ok (bs, [])) with
        | error f => trivial
        | ok p =>
          obtain ⟨r, s1⟩ := p
          obtain ⟨g1, g2⟩ := hr.2 f hF hcc r s1 hO
          obtain ⟨h3, h4⟩ := newStream_shr g1 src r
          have := loopWhile_shr hli ⟨s1.nb, 0⟩ r.length (s1.newStream src r) (by omega)
          have := spent_shr (more := more) (by omega) (by rw [h4]; exact g2) this
          simp only
          cases hL : loopWhile (iter l out) ⟨s1.nb, 0⟩ r.length (s1.newStream src r) with
          | next s3 => rw [hL] at this; exact this
          | ret v s3 => rw [hL] at this; exact this
          | fault f => trivial
      | ok p =>
        obtain ⟨r, sF1⟩ := p
        obtain ⟨s1, hO, hs1⟩ := hr.1 r sF1 hF
        rw [hO]
        simp only
        have hlw := loopWhile_rel hi hli (w := ⟨sF1.nb, 0⟩) (by have := hs1.pos; show sF1.nb ≠ 0; omega) r.length _ _ (newStream_beside hs1 src r)
        rw [hs1.nb]
        cases hFw : loopWhile (iter k out) ⟨sF1.nb, 0⟩ r.length (sF1.newStream src r) with
        | next sF3 =>
          rw [hFw] at hlw
          obtain ⟨s3, hO3, hs3⟩ := hlw
          rw [hO3]
          exact ⟨_, rfl, hs3.regs, hs3.nb, hs3.pos, hs3.mem0, hs3.mem, hs.none, hs.some⟩
        | ret v sF3 =>
          rw [hFw] at hlw
          obtain ⟨s3, hO3, hs3⟩ := hlw
          rw [hO3]
          exact ⟨_, rfl, hs3⟩
        | fault f =>
          rw [hFw] at hlw
          intro hcc
          have hlw := hlw hcc
          cases hO3 : loopWhile (iter l out) ⟨sF1.nb, 0⟩ r.length (s1.newStream src r) with
          | next s3 => rw [hO3] at hlw; exact hlw
          | ret v s3 => rw [hO3] at hlw; exact hlw
          | fault f => trivial

end

/-- The code has no `return`. -/
def Prog.noRet : Prog → Bool
  | .nil => true
  | .op i rest => (match i with | .ret _ => false | _ => true) && rest.noRet
  | .loop _ _ _ _ inner rest => inner.noRet && rest.noRet
  | .cond _ _ inner rest => inner.noRet && rest.noRet
  | .condPred _ inner rest => inner.noRet && rest.noRet
  | .condWrap _ prelude _ _ _ _ rest => prelude.noRet && rest.noRet

/-- A literal that is not empty. -/
def fullText : Expr → Bool
  | .str s => decide (s ≠ [])
  | _ => false

/-- In front of every loop with a terminator the terminator is assigned, a literal that is not empty; `known` is the register that holds one. The
loop does not return. -/
def Prog.full : Option Nat → Prog → Bool
  | _, .nil => true
  | _, .op (.eval r e _) rest => rest.full (if fullText e then some r else none)
  | _, .op _ rest => rest.full none
  | known, .loop _ len term _ inner rest =>
    (len.isSome || term.isNone || (decide (known = term) && inner.noRet)) && inner.full none && rest.full none
  | _, .cond _ _ inner rest => inner.full none && rest.full none
  | _, .condPred _ inner rest => inner.full none && rest.full none
  | _, .condWrap _ prelude _ _ _ _ rest => prelude.full none && rest.full none

theorem iter_noRet {f : State → Out} (h : ∀ s v s', f s ≠ .ret v s') (out : Nat) : ∀ s v s', iter f out s ≠ .ret v s' := by
  intro s v s' hi
  unfold iter at hi
  cases ho : f s with
  | next s2 => rw [ho] at hi; cases hi
  | ret v2 s2 => exact h _ _ _ ho
  | fault f => rw [ho] at hi; cases hi

theorem execLoop_noRet {f : State → Out} (h : ∀ s v s', f s ≠ .ret v s') (src : Target) (len term : Option Nat) (out : Nat) :
    ∀ s v s', execLoop f src len term out s ≠ .ret v s' := by
  have h := iter_noRet h out
  generalize hg : iter f out = g at h
  have n1 : ∀ n s v s', loopN g n s ≠ .ret v s' := by
    intro n
    induction n with
    | zero => intro s v s' h; cases h
    | succ n ih =>
      intro s v s' hl
      unfold loopN at hl
      cases ho : g s with
      | next s2 => rw [ho] at hl; exact ih _ _ _ hl
      | ret v2 s2 => exact h _ _ _ ho
      | fault f => rw [ho] at hl; cases hl
  have n2 : ∀ w n s v s', loopWhile g w n s ≠ .ret v s' := by
    intro w n
    induction n with
    | zero => intro s v s' hl; unfold loopWhile at hl; split at hl <;> cases hl
    | succ n ih =>
      intro s v s' hl
      unfold loopWhile at hl
      split at hl
      · cases hl
      · simp only at hl
        cases ho : g s with
        | next s2 =>
          rw [ho] at hl
          simp only at hl
          split at hl
          · exact ih _ _ _ hl
          · cases hl
        | ret v2 s2 => exact h _ _ _ ho
        | fault f => rw [ho] at hl; cases hl
  have n3 : ∀ w t n s v s', loopTerm g w t n s ≠ .ret v s' := by
    intro w t n
    induction n with
    | zero =>
      intro s v s' hl
      unfold loopTerm at hl
      split at hl
      · cases hl
      · split at hl
        · cases hl
        · split at hl <;> cases hl
    | succ n ih =>
      intro s v s' hl
      unfold loopTerm at hl
      split at hl
      · cases hl
      · split at hl
        · cases hl
        · split at hl
          · cases hl
          · simp only at hl
            cases ho : g s with
            | next s2 =>
              rw [ho] at hl
              simp only at hl
              split at hl
              · exact ih _ _ _ hl
              · cases hl
            | ret v2 s2 => exact h _ _ _ ho
            | fault f => rw [ho] at hl; cases hl
  intro s v s' hl
  unfold execLoop at hl
  rw [hg] at hl
  cases len with
  | some k =>
    simp only at hl
    split at hl
    · exact n1 _ _ _ _ hl
    · cases hl
  | none =>
    cases term with
    | some t =>
      simp only at hl
      split at hl
      · split at hl
        · exact n3 _ _ _ _ _ _ hl
        · cases hl
      · cases hl
    | none =>
      simp only at hl
      split at hl
      · rename_i r s1 _
        cases ho : loopWhile g ⟨s1.nb, 0⟩ r.length (s1.newStream src r) with
        | next s2 => rw [ho] at hl; cases hl
        | ret v2 s2 => exact n2 _ _ _ _ _ ho
        | fault f => rw [ho] at hl; cases hl
      · cases hl

theorem execOp_noRet (X : Ext) (i : Op) (hi : (match i with | .ret _ => false | _ => true) = true) : ∀ s v s', execOp X s i ≠ .ret v s' := by
  intro s v s' h
  cases i with
  | ret r => cases hi
  | error m => cases h
  | _ =>
    simp only [execOp] at h
    split at h <;> cases h

theorem exec_noRet (X : Ext) : ∀ (p : Prog), p.noRet = true → ∀ s v s', exec X p s ≠ .ret v s' := by
  intro p
  induction p with
  | nil => intro _ s v s' h; cases h
  | op i rest ih =>
    intro hp s v s' h
    simp only [Prog.noRet, Bool.and_eq_true] at hp
    unfold exec at h
    cases ho : execOp X s i with
    | next s2 => rw [ho] at h; exact ih hp.2 _ _ _ h
    | ret v2 s2 => exact execOp_noRet X i hp.1 _ _ _ ho
    | fault f => rw [ho] at h; cases h
  | loop src len term out inner rest ihi ih =>
    intro hp s v s' h
    simp only [Prog.noRet, Bool.and_eq_true] at hp
    unfold exec at h
    cases ho : execLoop (exec X inner) src len term out s with
    | next s2 => rw [ho] at h; exact ih hp.2 _ _ _ h
    | ret v2 s2 => exact execLoop_noRet (ihi hp.1) _ _ _ _ _ _ _ ho
    | fault f => rw [ho] at h; cases h
  | cond regs c inner rest ihi ih =>
    intro hp s v s' h
    simp only [Prog.noRet, Bool.and_eq_true] at hp
    unfold exec at h
    split at h
    · cases ho : exec X inner s with
      | next s2 => rw [ho] at h; exact ih hp.2 _ _ _ h
      | ret v2 s2 => exact ihi hp.1 _ _ _ ho
      | fault f => rw [ho] at h; cases h
    · exact ih hp.2 _ _ _ h
    · cases h
  | condPred c inner rest ihi ih =>
    intro hp s v s' h
    simp only [Prog.noRet, Bool.and_eq_true] at hp
    unfold exec at h
    split at h
    · cases ho : exec X inner s with
      | next s2 => rw [ho] at h; exact ih hp.2 _ _ _ h
      | ret v2 s2 => exact ihi hp.1 _ _ _ ho
      | fault f => rw [ho] at h; cases h
    · exact ih hp.2 _ _ _ h
    · cases h
  | condWrap c prelude src new xf args rest ihp ih =>
    intro hp s v s' h
    simp only [Prog.noRet, Bool.and_eq_true] at hp
    unfold exec at h
    split at h
    · cases ho : exec X prelude s with
      | next s2 =>
        rw [ho] at h
        simp only at h
        split at h
        · exact ih hp.2 _ _ _ h
        · cases h
      | ret v2 s2 => exact ihp hp.1 _ _ _ ho
      | fault f => rw [ho] at h; cases h
    · exact ih hp.2 _ _ _ h
    · cases h

theorem exec_rel {c : Bool} {more : Bytes} {X Y : Ext} (hX : ExtFails c X Y) : ∀ (p : Prog) (known : Option Nat), (c = true → p.full known = true) →
    ∀ sF s, Beside more sF s → (∀ r, known = some r → HoldsFull s r) → OutRel c more (execF X Y p sF) (exec X p s) := by
  have none_holds (s : State) : ∀ r, (none : Option Nat) = some r → HoldsFull s r := fun r hr => by cases hr
  intro p
  induction p with
  | nil => intro known _ sF s hs _; exact ⟨s, rfl, hs⟩
  | op i rest ih =>
    intro known hc sF s hs hk
    unfold execF exec
    have hop := execOp_rel hX hs i
    have step : ∀ known, (c = true → rest.full known = true) → (∀ s', execOp X s i = .next s' → ∀ r, known = some r → HoldsFull s' r) →
        OutRel c more (match execOpF X Y sF i with | .next s' => execF X Y rest s' | o => o)
          (match execOp X s i with | .next s' => exec X rest s' | o => o) := by
      intro known hc hk
      cases hF : execOpF X Y sF i with
      | next sF' =>
        rw [hF] at hop
        obtain ⟨s', hO, hs'⟩ := hop
        rw [hO]
        exact ih known hc sF' s' hs' (hk s' hO)
      | ret v sF' =>
        rw [hF] at hop
        obtain ⟨s', hO, hs'⟩ := hop
        rw [hO]
        exact ⟨s', rfl, hs'⟩
      | fault f =>
        rw [hF] at hop
        intro hcc
        exact spent_next (hop hcc) fun s hn => exec_shr hX.shr rest s hn
    cases i with
    | eval r e m =>
      refine step (if fullText e then some r else none) hc fun s' ho q hq => ?_
      split at hq
      · rename_i hf
        cases hq
        cases e with
        | str t =>
          simp only [fullText, decide_eq_true_eq] at hf
          have he : execOp X s (.eval r (.str t) m) = .next (s.setReg r (Val.bytes t)) := rfl
          rw [he] at ho
          cases ho
          exact ⟨Val.bytes t, t, by simp [State.setReg, upd], toBytes_bytes t, hf⟩
        | _ => simp [fullText] at hf
      · cases hq
    | _ => exact step none hc fun s' _ => none_holds s'
  | loop src len term out inner rest ihi ihr =>
    intro known hc sF s hs hk
    simp only [Prog.full, Bool.and_eq_true, Bool.or_eq_true, decide_eq_true_eq] at hc
    unfold execF exec
    refine (execLoop_rel (fun sF s hs => ihi none (fun h => (hc h).1.2) sF s hs (none_holds s)) (fun s hn => exec_shr hX.shr inner s hn)
      src len term out sF s hs ?_).bind
      (fun sF s hs => ihr none (fun h => (hc h).2) sF s hs (none_holds s)) fun s hn => exec_shr hX.shr rest s hn
    intro r hl ht hct
    rcases (hc hct).1.1 with (h | h) | h
    · rw [hl] at h; cases h
    · rw [ht] at h; cases h
    · exact ⟨hk r (by rw [h.1, ht]), exec_noRet X inner h.2⟩
  | cond regs r inner rest ihi ihr =>
    intro known hc sF s hs _
    simp only [Prog.full, Bool.and_eq_true] at hc
    unfold execF exec
    rw [hs.regs]
    split
    · rename_i hv
      simp only [hv]
      have h := ihi none (fun h => (hc h).1) sF s hs (none_holds s)
      cases hF : execF X Y inner sF with
      | next sF' =>
        rw [hF] at h
        obtain ⟨s', hO, hs'⟩ := h
        rw [hO]
        exact ihr none (fun h => (hc h).2) _ _ (leave_beside hs hs' (by rw [hs'.regs])) (none_holds _)
      | ret v sF' =>
        rw [hF] at h
        obtain ⟨s', hO, hs'⟩ := h
        rw [hO]
        exact ⟨_, rfl, hs'⟩
      | fault f =>
        rw [hF] at h
        intro hcc
        exact spent_next (l := fun s' => exec X rest { (s.leave s') with regs := somes sF.regs s'.regs regs }) (h hcc) fun s' hn =>
          Shr.trans (s1 := { (s.leave s') with regs := somes sF.regs s'.regs regs }) ⟨Nat.le_refl _, Nat.le_refl _⟩ (exec_shr hX.shr rest _ hn)
    · rename_i hv
      simp only [hv]
      exact ihr none (fun h => (hc h).2) _ _ ⟨rfl, hs.nb, hs.pos, hs.mem0, hs.mem, hs.none, hs.some⟩ (none_holds _)
    · rename_i h1 h2
      intro _
      split
      · exact (h1 (by assumption)).elim
      · exact (h2 (by assumption)).elim
      · trivial
  | condPred r inner rest ihi ihr =>
    intro known hc sF s hs _
    simp only [Prog.full, Bool.and_eq_true] at hc
    unfold execF exec
    rw [hs.regs]
    split
    · rename_i hv
      simp only [hv]
      have h := ihi none (fun h => (hc h).1) sF s hs (none_holds s)
      cases hF : execF X Y inner sF with
      | next sF' =>
        rw [hF] at h
        obtain ⟨s', hO, hs'⟩ := h
        rw [hO]
        exact ihr none (fun h => (hc h).2) _ _ (leave_beside hs hs' hs.regs) (none_holds _)
      | ret v sF' =>
        rw [hF] at h
        obtain ⟨s', hO, hs'⟩ := h
        rw [hO]
        exact ⟨_, rfl, hs'⟩
      | fault f =>
        rw [hF] at h
        intro hcc
        exact spent_next (l := fun s' => exec X rest (s.leave s')) (h hcc) fun s' hn =>
          Shr.trans (s1 := s.leave s') ⟨Nat.le_refl _, Nat.le_refl _⟩ (exec_shr hX.shr rest _ hn)
    · rename_i hv
      simp only [hv]
      exact ihr none (fun h => (hc h).2) _ _ hs (none_holds s)
    · rename_i h1 h2
      intro _
      split
      · exact (h1 (by assumption)).elim
      · exact (h2 (by assumption)).elim
      · trivial
  | condWrap r prelude src new xf args rest ihp ihr =>
    intro known hc sF s hs _
    simp only [Prog.full, Bool.and_eq_true] at hc
    unfold execF exec
    rw [hs.regs]
    split
    · rename_i hv
      simp only [hv]
      have h := ihp none (fun h => (hc h).1) sF s hs (none_holds s)
      have hsp : ∀ s', 1 ≤ s'.nb → Shr s' (match (s'.args args).bind (fun vs => (s.leave s').wrapStream X src new xf vs) with
          | .ok s'' => exec X rest s'' | .error f => .fault f) := by
        intro s' hn
        cases hw : (s'.args args).bind (fun vs => (s.leave s').wrapStream X src new xf vs) with
        | error f => trivial
        | ok s2 =>
          obtain ⟨vs, _, hw⟩ := res_bind_inv hw
          have h2 := wrapStream_shr hX.shr (s := s.leave s') hn hw
          exact Shr.trans h2 (exec_shr hX.shr rest s2 (Nat.le_trans hn h2.1))
      cases hF : execF X Y prelude sF with
      | next sF' =>
        rw [hF] at h
        obtain ⟨s', hO, hs'⟩ := h
        rw [hO]
        simp only
        have hr : ResRel c more ((sF'.args args).bind (fun vs => (sF.leave sF').wrapStreamF X Y src new xf vs))
            ((s'.args args).bind (fun vs => (s.leave s').wrapStream X src new xf vs)) := by
          rw [args_beside hs']
          exact ResRel.bind (x := sF'.args args) (k := fun vs => (sF.leave sF').wrapStreamF X Y src new xf vs)
            (l := fun vs => (s.leave s').wrapStream X src new xf vs) fun vs _ => wrapStream_rel hX (leave_beside hs hs' hs.regs) src new xf vs
        have := hr.out.bind (fun sF s hs => ihr none (fun h => (hc h).2) sF s hs (none_holds s)) fun s hn => exec_shr hX.shr rest s hn
        cases e1 : (sF'.args args).bind (fun vs => (sF.leave sF').wrapStreamF X Y src new xf vs) <;>
          cases e2 : (s'.args args).bind (fun vs => (s.leave s').wrapStream X src new xf vs) <;> (rw [e1, e2] at this; exact this)
      | ret v sF' =>
        rw [hF] at h
        obtain ⟨s', hO, hs'⟩ := h
        rw [hO]
        exact ⟨_, rfl, hs'⟩
      | fault f =>
        rw [hF] at h
        intro hcc
        exact spent_next (h hcc) hsp
    · rename_i hv
      simp only [hv]
      suffices hb : Beside more { sF with strm := upd sF.strm (.stream new) (sF.strm src) }
          { s with strm := upd s.strm (.stream new) (s.strm src) } from
        ihr none (fun h => (hc h).2) _ _ ⟨rfl, hb.nb, hb.pos, hb.mem0, hb.mem, hb.none, hb.some⟩ (none_holds _)
      refine strm_beside hs _ ?_
      cases hF : sF.strm src with
      | none => exact .inl ⟨rfl, hs.none src hF⟩
      | some w =>
        obtain ⟨w', hO, hw⟩ := hs.some src w hF
        exact .inr ⟨_, _, rfl, hO, hw⟩
    · rename_i h1 h2
      intro _
      split
      · exact (h1 (by assumption)).elim
      · exact (h2 (by assumption)).elim
      · trivial

theorem init_beside (bs more : Bytes) : Beside more (initState bs) (initState (bs ++ more)) := by
  refine ⟨rfl, rfl, Nat.le_refl _, rfl, fun b hb => ?_, fun t h => ?_, fun t w h => ?_⟩
  · simp [initState, hb]
  · simp only [initState] at h ⊢
    exact h
  · simp only [initState] at h ⊢
    split at h
    · cases h
      exact ⟨⟨0, 0⟩, by simp [*], rfl, fun _ _ => Nat.zero_le _, fun _ h => absurd rfl h, fun h => absurd rfl h⟩
    · cases h

theorem runProg_fails {c : Bool} {X Y : Ext} (hX : ExtFails c X Y) (p : Prog) (hp : c = true → p.full none = true) :
    Fails c (runProg X p) (runProgF X Y p) := by
  intro bs m
  have h := exec_rel (more := m) hX p none hp _ _ (init_beside bs m) fun r hr => by cases hr
  unfold runProgF runProg
  constructor
  · intro v r hr
    cases hF : execF X Y p (initState bs) with
    | next sF => rw [hF] at hr; cases hr
    | fault f => rw [hF] at hr; cases hr
    | ret v' sF =>
      rw [hF] at hr h
      cases hr
      obtain ⟨s, hO, hs⟩ := h
      rw [hO]
      simp only [hs.mem0]
  · intro e he hc v r hr
    cases hO : exec X p (initState (bs ++ m)) with
    | next s => rw [hO] at hr; cases hr
    | fault f => rw [hO] at hr; cases hr
    | ret v' s =>
      rw [hO] at hr h
      cases hr
      cases hF : execF X Y p (initState bs) with
      | next sF => rw [hF] at h; obtain ⟨_, h, _⟩ := h; cases h
      | ret v'' sF => rw [hF] at he; cases he
      | fault f =>
        rw [hF] at h
        exact (h hc).2

/-- Foreign types and transforms on readers that fail and on readers that end. -/
structure LibFails (c : Bool) (L : Lib) (LF : LibF) : Prop where
  shr : LibShr L
  foreign : ∀ n vs, Fails c (L.foreign n vs) (LF.foreign n vs)
  xform : ∀ n vs, Fails c (L.xform n vs) (LF.xform n vs)

theorem runDecode_fails {c : Bool} {sch : Schema} {L : Lib} {LF : LibF} (hL : LibFails c L LF)
    (hc : c = true → ∀ d ∈ sch, (genDecl d).full none = true) : ∀ fuel n vs, Fails c (runDecode sch L fuel n vs) (runDecodeF sch L LF fuel n vs) := by
  intro fuel
  induction fuel with
  | zero => intro n vs bs m; exact ⟨fun _ _ h => (by cases h), fun _ _ _ _ _ h => (by cases h)⟩
  | succ fuel ih =>
    intro n vs bs m
    simp only [runDecode, callDecl, runDecodeF]
    cases hf : sch.find n with
    | none => exact ⟨fun _ _ h => (by cases h), fun _ _ _ _ _ h => (by cases h)⟩
    | some d =>
      simp only
      split
      · exact ⟨fun _ _ h => (by cases h), fun _ _ _ _ _ h => (by cases h)⟩
      · exact runProg_fails ⟨⟨runDecode_noMore hL.shr fuel, hL.shr.foreign, hL.shr.xform⟩, ih, hL.foreign, hL.xform⟩ (genDecl d)
          (fun h => hc h d (List.mem_of_find?_eq_some hf)) bs m

/-! ### Terminators that are not empty -/

/-- All terminators are literals that are not empty. -/
def fullLeaf : LTy → Bool
  | .array el (.term e) => fullText e && fullLeaf el
  | .array el _ => fullLeaf el
  | _ => true

def fullItems : Fields → Bool
  | .nil => true
  | .pad _ _ rest => fullItems rest
  | .leaf _ ty rest => fullLeaf ty && fullItems rest
  | .cont _ _ items rest => fullItems items && fullItems rest

def fullArm (arm : Arm) : Bool :=
  match arm.body with
  | .leaf ty => fullLeaf ty
  | .cont _ items => fullItems items

def fullDecl (d : Decl) : Bool :=
  match d.body with
  | .leaf _ ty => fullLeaf ty
  | .repr _ => true
  | .struct _ items => fullItems items
  | .tagged _ arms => arms.all fullArm

def fullTerminators (sch : Schema) : Bool := sch.all fullDecl

theorem full_mono : ∀ (p : Prog) (k : Option Nat), p.full none = true → p.full k = true := by
  intro p
  cases p with
  | op i rest => intro k h; cases i <;> exact h
  | loop src len term out inner rest =>
    intro k h
    simp only [Prog.full, Bool.and_eq_true, Bool.or_eq_true, decide_eq_true_eq] at h ⊢
    refine ⟨⟨?_, h.1.2⟩, h.2⟩
    rcases h.1.1 with h | h
    · exact .inl h
    · left; right; rw [← h.1]; rfl
  | _ => intro k h; exact h

theorem full_append : ∀ (p q : Prog) (k : Option Nat), p.full k = true → q.full none = true → (p ++ q).full k = true := by
  intro p
  induction p with
  | nil => intro q k _ hq; exact full_mono q k hq
  | op i rest ih =>
    intro q k hp hq
    show Prog.full k (.op i (rest ++ q)) = true
    cases i <;> exact ih q _ hp hq
  | loop src len term out inner rest _ ih =>
    intro q k hp hq
    show Prog.full k (.loop src len term out inner (rest ++ q)) = true
    simp only [Prog.full, Bool.and_eq_true] at hp ⊢
    exact ⟨hp.1, ih q _ hp.2 hq⟩
  | cond regs c inner rest _ ih =>
    intro q k hp hq
    show Prog.full k (.cond regs c inner (rest ++ q)) = true
    simp only [Prog.full, Bool.and_eq_true] at hp ⊢
    exact ⟨hp.1, ih q _ hp.2 hq⟩
  | condPred c inner rest _ ih =>
    intro q k hp hq
    show Prog.full k (.condPred c inner (rest ++ q)) = true
    simp only [Prog.full, Bool.and_eq_true] at hp ⊢
    exact ⟨hp.1, ih q _ hp.2 hq⟩
  | condWrap c prelude src new xf args rest _ ih =>
    intro q k hp hq
    show Prog.full k (.condWrap c prelude src new xf args (rest ++ q)) = true
    simp only [Prog.full, Bool.and_eq_true] at hp ⊢
    exact ⟨hp.1, ih q _ hp.2 hq⟩

theorem noRet_append : ∀ (p q : Prog), p.noRet = true → q.noRet = true → (p ++ q).noRet = true := by
  intro p
  induction p with
  | nil => intro q _ hq; exact hq
  | op i rest ih =>
    intro q hp hq
    show Prog.noRet (.op i (rest ++ q)) = true
    simp only [Prog.noRet, Bool.and_eq_true] at hp ⊢
    exact ⟨hp.1, ih q hp.2 hq⟩
  | loop src len term out inner rest _ ih =>
    intro q hp hq
    show Prog.noRet (.loop src len term out inner (rest ++ q)) = true
    simp only [Prog.noRet, Bool.and_eq_true] at hp ⊢
    exact ⟨hp.1, ih q hp.2 hq⟩
  | cond regs c inner rest _ ih =>
    intro q hp hq
    show Prog.noRet (.cond regs c inner (rest ++ q)) = true
    simp only [Prog.noRet, Bool.and_eq_true] at hp ⊢
    exact ⟨hp.1, ih q hp.2 hq⟩
  | condPred c inner rest _ ih =>
    intro q hp hq
    show Prog.noRet (.condPred c inner (rest ++ q)) = true
    simp only [Prog.noRet, Bool.and_eq_true] at hp ⊢
    exact ⟨hp.1, ih q hp.2 hq⟩
  | condWrap c prelude src new xf args rest _ ih =>
    intro q hp hq
    show Prog.noRet (.condWrap c prelude src new xf args (rest ++ q)) = true
    simp only [Prog.noRet, Bool.and_eq_true] at hp ⊢
    exact ⟨hp.1, ih q hp.2 hq⟩

theorem genArgs_full (m : RegMap) : ∀ (es : List Expr) (c : Nat), (genArgs m c es).2.1.full none = true ∧ (genArgs m c es).2.1.noRet = true := by
  intro es
  induction es with
  | nil => intro c; exact ⟨rfl, rfl⟩
  | cons e es ih =>
    intro c
    simp only [genArgs, Prog.full, Prog.noRet, Bool.true_and]
    exact ⟨full_mono _ _ (ih (c + 1)).1, (ih (c + 1)).2⟩

theorem genLeaf_noRet (m : RegMap) (src : Target) : ∀ (ty : LTy) (c : Nat), (genLeaf m src ty c).2.1.noRet = true
  | .prim p, c => rfl
  | .ref target foreign res args, c => by
    simp only [genLeaf]
    split <;> exact noRet_append _ _ (genArgs_full m args _).2 rfl
  | .array el (.term e), c => by
    simp only [genLeaf, Prog.noRet, Bool.true_and, Bool.and_true]
    exact noRet_append _ _ (genLeaf_noRet m src el _) rfl
  | .array el (.fixed e), c => by
    simp only [genLeaf]
    split
    · rfl
    · rfl
    · simp only [Prog.noRet, Bool.true_and, Bool.and_true]
      exact noRet_append _ _ (genLeaf_noRet m src el _) rfl
  | .array el .unbounded, c => by
    simp only [genLeaf]
    split
    · rfl
    · rfl
    · simp only [Prog.noRet, Bool.and_true]
      exact noRet_append _ _ (genLeaf_noRet m src el _) rfl

theorem genLeaf_full (m : RegMap) (src : Target) : ∀ (ty : LTy) (c : Nat), fullLeaf ty = true → (genLeaf m src ty c).2.1.full none = true
  | .prim p, c, _ => rfl
  | .ref target foreign res args, c, _ => by
    simp only [genLeaf]
    split <;> exact full_append _ _ _ (genArgs_full m args _).1 rfl
  | .array el (.term e), c, h => by
    simp only [fullLeaf, Bool.and_eq_true] at h
    simp only [genLeaf, Prog.full, h.1, if_true, Bool.and_eq_true, Bool.or_eq_true, decide_eq_true_eq]
    exact ⟨⟨.inr ⟨trivial, noRet_append _ _ (genLeaf_noRet m src el _) rfl⟩, full_append _ _ _ (genLeaf_full m src el _ h.2) rfl⟩, trivial⟩
  | .array el (.fixed e), c, h => by
    have h : fullLeaf el = true := h
    simp only [genLeaf]
    split
    · rfl
    · rfl
    · simp only [Prog.full, Option.isSome_some, Bool.true_or, Bool.true_and, Bool.and_true]
      exact full_append _ _ _ (genLeaf_full m src el _ h) rfl
  | .array el .unbounded, c, h => by
    have h : fullLeaf el = true := h
    simp only [genLeaf]
    split
    · rfl
    · rfl
    · simp only [Prog.full, Option.isNone_none, Bool.or_true, Bool.true_or, Bool.true_and, Bool.and_true]
      exact full_append _ _ _ (genLeaf_full m src el _ h) rfl

theorem genXforms_full (m : RegMap) : ∀ (xs : List XformUse) (src : Target) (c : Nat), (genXforms m src c xs).2.1.full none = true := by
  intro xs
  induction xs with
  | nil => intro src c; rfl
  | cons x xs ih =>
    intro src c
    simp only [genXforms]
    split
    · simp only [Prog.full, Bool.and_eq_true]
      exact ⟨(genArgs_full m x.args _).1, ih _ _⟩
    · refine full_append _ _ _ (genArgs_full m x.args _).1 ?_
      exact ih _ _

theorem genCond_full (m : RegMap) (cond : Option Expr) (c : Nat) : (genCond m cond c).2.1.full none = true := by
  cases cond with
  | none => rfl
  | some e => simp only [genCond, Prog.one, Prog.full]

theorem wrapCond_full {cr : Option Nat} {em : List Nat} {p : Prog} (h : p.full none = true) : (wrapCond cr em p).full none = true := by
  cases cr with
  | none => exact h
  | some r => simp only [wrapCond, Prog.full, h, Bool.and_self]

theorem genConstrict_full (m : RegMap) (src : Target) (len : Option Expr) (c : Nat) : (genConstrict m src len c).2.1.full none = true := by
  cases len with
  | none => rfl
  | some e => simp only [genConstrict, Prog.one, Prog.full]

theorem genItems_full : ∀ (items : Fields) (src : Target) (m : RegMap) (c : Nat), fullItems items = true →
    (genItems src items m c).2.2.1.full none = true := by
  intro items
  induction items with
  | nil => intro src m c _; rfl
  | pad n e rest ih =>
    intro src m c h
    simp only [genItems, Prog.full]
    exact full_mono _ _ (ih _ _ _ h)
  | leaf a ty rest ih =>
    intro src m c h
    simp only [fullItems, Bool.and_eq_true] at h
    simp only [genItems]
    exact full_append _ _ _ (full_append _ _ _ (genCond_full m _ _)
      (wrapCond_full (full_append _ _ _ (genXforms_full m _ _ _) (genLeaf_full _ _ _ _ h.1)))) (ih _ _ _ h.2)
  | cont a len items rest ihi ih =>
    intro src m c h
    simp only [fullItems, Bool.and_eq_true] at h
    simp only [genItems]
    exact full_append _ _ _ (full_append _ _ _ (genCond_full m _ _)
      (wrapCond_full (full_append _ _ _ (full_append _ _ _ (genXforms_full m _ _ _) (genConstrict_full _ _ _ _))
        (ihi _ _ _ h.1)))) (ih _ _ _ h.2)

theorem genArm_full {arm : Arm} (h : fullArm arm = true) (n : String) (src : Target) (m : RegMap) (c : Nat) :
    (genArm n src arm m c).2.2.1.full none = true := by
  unfold genArm
  unfold fullArm at h
  split
  · rename_i ty hb
    rw [hb] at h
    exact genLeaf_full _ _ _ _ h
  · rename_i len items hb
    rw [hb] at h
    exact full_append _ _ _ (genConstrict_full _ _ _ _) (genItems_full _ _ _ _ h)

theorem genArms_full (n : String) (src : Target) : ∀ (arms : List Arm) (m : RegMap) (c : Nat), arms.all fullArm = true →
    (genArms n src arms m c).2.1.full none = true := by
  intro arms
  induction arms with
  | nil => intro m c _; rfl
  | cons arm arms ih =>
    intro m c h
    simp only [List.all_cons, Bool.and_eq_true] at h
    simp only [genArms]
    have hb := fun src' m' c' => genArm_full h.1 n src' m' c'
    split
    · refine full_append _ _ _ (genCond_full m _ _) ?_
      simp only [Prog.full, Bool.and_eq_true]
      refine ⟨full_append _ _ _ (full_append _ _ _ (full_append _ _ _ (genXforms_full m _ _ _) (hb _ _ _)) rfl) rfl, ?_⟩
      exact ih _ _ h.2
    · exact full_append _ _ _ (genCond_full m _ _)
        (full_append _ _ _ (full_append _ _ _ (genXforms_full m _ _ _) (hb _ _ _)) rfl)

theorem genDecl_full {d : Decl} (h : fullDecl d = true) : (genDecl d).full none = true := by
  unfold genDecl
  unfold fullDecl at h
  cases hb : d.body with
  | leaf cond ty =>
    rw [hb] at h
    exact full_append _ _ _ (full_append _ _ _ (genCond_full _ _ _)
      (wrapCond_full (full_append _ _ _ (genXforms_full _ _ _ _) (genLeaf_full _ _ _ _ h)))) rfl
  | repr t => exact full_append _ _ _ (genXforms_full _ _ _ _) rfl
  | struct len items =>
    rw [hb] at h
    exact full_append _ _ _ (full_append _ _ _ (full_append _ _ _ (genXforms_full _ _ _ _)
      (genConstrict_full _ _ _ _)) (genItems_full _ _ _ _ h)) rfl
  | tagged len arms =>
    rw [hb] at h
    refine full_append _ _ _ (full_append _ _ _ (full_append _ _ _ (genXforms_full _ _ _ _)
      (genConstrict_full _ _ _ _)) (genArms_full _ _ _ _ _ h)) ?_
    split <;> rfl

end Verif.Dec
