import Verif.Survive
/-!
# Readers that deliver their bytes in pieces

`DecodeVM` gives the generated decoders a reader that shows all its bytes at once. Here a reader delivers them in
pieces of any size: `fill_buf` shows some of the remaining bytes, at least one if there are any, and the same ones again until they are
consumed (`std::io::BufReader`, `tokio::io::BufReader`). How many it shows is up to a schedule. `read_exact` and `read_to_end`
put the pieces together (`std::io::Read`), so the only statement of the generated code that sees the
pieces is the loop with a terminator, `compiler/decoder.rs` 386-404; `decode_async` runs the same statements with
`.await` (`compiler/decoder.rs` 20-36, `map_async`), where a schedule is also the order in which the parts of the input arrive.
-/
namespace Verif.Dec
open Verif

/-- How many bytes each `fill_buf` shows. Every call of the run has its own place in the tree, so a schedule can be any
sequence of sizes, also one that depends on what has happened before. -/
abbrev Sched := List Nat → Nat

def Sched.sub (ω : Sched) (k : Nat) : Sched := fun p => ω (k :: p)

/-- What `fill_buf` shows of the bytes that are left: `n` of them, but at least one and at most all. -/
def fillBuf (n : Nat) (bs : Bytes) : Bytes := bs.take (max 1 n)

/-- `compiler/decoder.rs` 386-404: `loop { let buf = fill_buf()?; .. }`; `body k` is the `k`-th iteration, `ω [k]` the size of
its buffer. With fewer bytes in the buffer than the terminator has, `continue` asks again, and is shown the same bytes forever. -/
def loopTermS (ω : Sched) (body : Nat → State → Out) (w : Win) (t : Bytes) : Nat → Nat → State → Out
  | k, fuel, s =>
    let buf := fillBuf (ω [k]) (s.vis w)
    if buf = [] then .next s
    else if buf.length < t.length then .fault .diverge
    else if buf.take t.length = t then
      .next { s with mem := upd s.mem w.base ((s.vis w).drop t.length ++ s.hid w) }
    else
      match fuel with
      | 0 => .fault .diverge
      | fuel + 1 =>
        match body k s with
        | .next s' =>
          if (s'.vis w).length < (s.vis w).length then loopTermS ω body w t (k + 1) fuel s' else .fault .diverge
        | o => o

/-- `for _ in 0..n`, as `loopN`. -/
def loopNS (body : Nat → State → Out) : Nat → Nat → State → Out
  | _, 0, s => .next s
  | k, n + 1, s =>
    match body k s with
    | .next s' => loopNS body (k + 1) n s'
    | o => o

/-- `compiler/decoder.rs` 414-419, as `loopWhile`. -/
def loopWhileS (body : Nat → State → Out) (w : Win) : Nat → Nat → State → Out
  | k, fuel, s =>
    if s.vis w = [] then .next s
    else
      match fuel with
      | 0 => .fault .diverge
      | fuel + 1 =>
        match body k s with
        | .next s' =>
          if (s'.vis w).length < (s.vis w).length then loopWhileS body w (k + 1) fuel s' else .fault .diverge
        | o => o

/-- `compiler/decoder.rs` 373-424, as `execLoop`. -/
def execLoopS (ω : Sched) (body : Nat → State → Out) (src : Target) (len term : Option Nat) (out : Nat) (s : State) : Out :=
  let s0 := s.setReg out (.arr [])
  match len, term with
  | some l, _ =>
    match (s.reg l).bind loopCount with
    | .ok n => loopNS (fun k => iter (body k) out) 0 n s0
    | .error f => .fault f
  | none, some t =>
    match s.reg t, s.strm src with
    | .ok v, some w =>
      match v.toBytes with
      | some tb => loopTermS ω (fun k => iter (body k) out) w tb 0 (s.vis w).length s0
      | none => .fault .ill
    | _, _ => .fault .ill
  | none, none =>
    match s0.onStream src (fun bs => .ok (bs, [])) with
    | .ok (r, s1) =>
      let s2 := s1.newStream src r
      match loopWhileS (fun k => iter (body k) out) ⟨s1.nb, 0⟩ 0 r.length s2 with
      | .next s3 => .next { s3 with strm := s.strm }
      | o => o
    | .error f => .fault f

/-- Runs an instruction list, as `exec`; what it calls gets its own part of the schedule. -/
def execS (X : Sched → Ext) : Sched → Prog → State → Out
  | _, .nil, s => .next s
  | ω, .op i rest, s =>
    match execOp (X (ω.sub 0)) s i with
    | .next s' => execS X (ω.sub 1) rest s'
    | o => o
  | ω, .loop src len term out inner rest, s =>
    match execLoopS (ω.sub 0) (fun k => execS X (ω.sub (k + 2)) inner) src len term out s with
    | .next s' => execS X (ω.sub 1) rest s'
    | o => o
  | ω, .cond regs c inner rest, s =>
    match s.regs c with
    | some (.bool true) =>
      match execS X (ω.sub 0) inner s with
      | .next s' => execS X (ω.sub 1) rest { (s.leave s') with regs := somes s.regs s'.regs regs }
      | o => o
    | some (.bool false) => execS X (ω.sub 1) rest { s with regs := nones s.regs regs }
    | _ => .fault .ill
  | ω, .condPred c inner rest, s =>
    match s.regs c with
    | some (.bool true) =>
      match execS X (ω.sub 0) inner s with
      | .next s' => execS X (ω.sub 1) rest (s.leave s')
      | o => o
    | some (.bool false) => execS X (ω.sub 1) rest s
    | _ => .fault .ill
  | ω, .condWrap c prelude src new xf args rest, s =>
    match s.regs c with
    | some (.bool true) =>
      match execS X (ω.sub 0) prelude s with
      | .next s' =>
        match (s'.args args).bind (fun vs => (s.leave s').wrapStream (X (ω.sub 2)) src new xf vs) with
        | .ok s'' => execS X (ω.sub 1) rest s''
        | .error f => .fault f
      | o => o
    | some (.bool false) => execS X (ω.sub 1) rest { s with strm := upd s.strm (.stream new) (s.strm src) }
    | _ => .fault .ill

/-- `Name::decode_sync(reader, args..)` on a reader that delivers `bs` as `ω` says, as `runProg`. -/
def runProgS (X : Sched → Ext) (ω : Sched) (p : Prog) (bs : Bytes) : Res (Val × Bytes) :=
  match execS X ω p (initState bs) with
  | .ret v s => .ok (v, s.mem 0)
  | .next _ => .error .ill
  | .fault f => .error f

/-- Foreign types and transforms; they may use `fill_buf` as well. -/
structure LibS where
  oc : Bool
  foreign : Sched → String → List Val → Bytes → Res (Val × Bytes)
  xform : Sched → String → List Val → Bytes → Res (Bytes × Bytes)

/-- Calls of the functions generated for a schema, as `callDecl`. -/
def runDecodeS (sch : Schema) (L : LibS) : Nat → Sched → String → List Val → Bytes → Res (Val × Bytes)
  | 0, _, _, _, _ => .error .diverge
  | fuel + 1, ω, n, args, bs =>
    match sch.find n with
    | none => .error .ill
    | some d =>
      if d.params.length ≠ args.length then .error .ill
      else
        runProgS (fun ω' => ⟨L.oc, bindArgs d.params args, runDecodeS sch L fuel ω', L.foreign ω', L.xform ω'⟩) ω (genDecl d) bs

/-! ## The outcome does not depend on the schedule, unless the decoder hangs -/

/-- Either the first hangs or both are the same. -/
def OutSame (a b : Out) : Prop := a = .fault .diverge ∨ a = b
def ResSame {α} (a b : Res α) : Prop := a = .error .diverge ∨ a = b

theorem ResSame.bind {α β} {a b : Res α} {k l : α → Res β} (h : ResSame a b) (hk : ∀ x, ResSame (k x) (l x)) :
    ResSame (a >>= k) (b >>= l) := by
  rcases h with rfl | rfl
  · exact .inl rfl
  · cases a with
    | error f => exact .inr rfl
    | ok x => exact hk x

theorem ResSame.refl {α} (a : Res α) : ResSame a a := .inr rfl

/-- Whatever the schedule, calls hang or do what they do on a reader that shows everything. -/
structure ExtSame (X Y : Ext) : Prop where
  oc : X.oc = Y.oc
  input : X.input = Y.input
  call : ∀ n vs bs, ResSame (X.call n vs bs) (Y.call n vs bs)
  foreign : ∀ n vs bs, ResSame (X.foreign n vs bs) (Y.foreign n vs bs)
  xform : ∀ n vs bs, ResSame (X.xform n vs bs) (Y.xform n vs bs)

theorem onStream_same {α} {s : State} {t : Target} {f g : Bytes → Res (α × Bytes)} (h : ∀ bs, ResSame (f bs) (g bs)) :
    ResSame (s.onStream t f) (s.onStream t g) := by
  unfold State.onStream
  exact (ResSame.refl _).bind fun w => (h _).bind fun _ => .refl _

theorem decInto_same {s : State} {t : Target} {out : Nat} {f g : Bytes → Res (Val × Bytes)}
    (h : ∀ bs, ResSame (f bs) (g bs)) : ResSame (s.decInto t out f) (s.decInto t out g) := by
  unfold State.decInto
  exact (onStream_same h).bind fun _ => .refl _

theorem wrapStream_same {X Y : Ext} (h : ExtSame X Y) (s : State) (src : Target) (new : Nat) (xf : String) (vs : List Val) :
    ResSame (s.wrapStream X src new xf vs) (s.wrapStream Y src new xf vs) := by
  unfold State.wrapStream
  exact (onStream_same (h.xform xf vs)).bind fun _ => .refl _

theorem out_same {a b : Res State} : ResSame a b →
    OutSame (match a with | .ok s' => .next s' | .error f => .fault f) (match b with | .ok s' => .next s' | .error f => .fault f) := by
  rintro (rfl | rfl)
  · exact .inl rfl
  · exact .inr rfl

theorem execOp_same {X Y : Ext} (h : ExtSame X Y) (s : State) (i : Op) : OutSame (execOp X s i) (execOp Y s i) := by
  cases i with
  | ret r => exact .inr rfl
  | error m => exact .inr rfl
  | eval r e m => unfold execOp; rw [h.oc, h.input]; exact .inr rfl
  | wrap src new xf args =>
    exact out_same ((ResSame.refl _).bind fun vs => wrapStream_same h s src new xf vs)
  | foreign src out n args =>
    exact out_same ((ResSame.refl _).bind fun vs => decInto_same (h.foreign n vs))
  | ref src out n args =>
    exact out_same ((ResSame.refl _).bind fun vs => decInto_same (h.call n vs))
  | primArray src out p len => unfold execOp; rw [h.oc]; exact .inr rfl
  | reprArray src out t len => unfold execOp; rw [h.oc]; exact .inr rfl
  | construct | constrict | repr | prim | skip | loopOutput => exact .inr rfl

theorem OutSame.next {a b : Out} {k l : State → Out} : OutSame a b → (∀ s, OutSame (k s) (l s)) →
    OutSame (match a with | .next s => k s | o => o) (match b with | .next s => l s | o => o) := by
  rintro (rfl | rfl) hk
  · exact .inl rfl
  · cases a with
    | next s => exact hk s
    | ret v s => exact .inr rfl
    | fault f => exact .inr rfl

theorem iter_same {f g : State → Out} (h : ∀ s, OutSame (f s) (g s)) (out : Nat) (s : State) :
    OutSame (iter f out s) (iter g out s) := by
  unfold iter
  exact (h s).next fun _ => .inr rfl

theorem loopN_same {f : Nat → State → Out} {g : State → Out} (h : ∀ k s, OutSame (f k s) (g s)) :
    ∀ n k s, OutSame (loopNS f k n s) (loopN g n s) := by
  intro n
  induction n with
  | zero => intro k s; exact .inr rfl
  | succ n ih =>
    intro k s
    unfold loopNS loopN
    exact (h k s).next fun s' => ih (k + 1) s'

theorem loopWhile_same {f : Nat → State → Out} {g : State → Out} (h : ∀ k s, OutSame (f k s) (g s)) (w : Win) :
    ∀ n k s, OutSame (loopWhileS f w k n s) (loopWhile g w n s) := by
  intro n
  induction n with
  | zero =>
    intro k s
    unfold loopWhileS loopWhile
    split <;> exact .inr rfl
  | succ n ih =>
    intro k s
    unfold loopWhileS loopWhile
    split
    · exact .inr rfl
    · refine (h k s).next fun s' => ?_
      split
      · exact ih (k + 1) s'
      · exact .inr rfl

theorem fillBuf_nil (n : Nat) (bs : Bytes) : fillBuf n bs = [] ↔ bs = [] := by
  unfold fillBuf
  cases bs with
  | nil => simp
  | cons b bs => simp

theorem fillBuf_take {n k : Nat} {bs : Bytes} (h : k ≤ (fillBuf n bs).length) : (fillBuf n bs).take k = bs.take k ∧ k ≤ bs.length := by
  unfold fillBuf at *
  rw [List.length_take] at h
  rw [List.take_take, Nat.min_eq_left (by omega)]
  exact ⟨rfl, by omega⟩

theorem loopTerm_same {f : Nat → State → Out} {g : State → Out} (h : ∀ k s, OutSame (f k s) (g s)) (ω : Sched) (w : Win)
    (t : Bytes) : ∀ n k s, OutSame (loopTermS ω f w t k n s) (loopTerm g w t n s) := by
  intro n
  induction n with
  | zero =>
    intro k s
    unfold loopTermS loopTerm
    simp only [fillBuf_nil]
    by_cases h0 : s.vis w = []
    · rw [if_pos h0, if_pos h0]; exact .inr rfl
    · rw [if_neg h0, if_neg h0]
      by_cases hl : (fillBuf (ω [k]) (s.vis w)).length < t.length
      · rw [if_pos hl]; exact .inl rfl
      · obtain ⟨h1, h2⟩ := fillBuf_take (Nat.le_of_not_lt hl)
        rw [if_neg hl, h1, if_neg (Nat.not_lt.2 h2)]
        exact .inr rfl
  | succ n ih =>
    intro k s
    unfold loopTermS loopTerm
    simp only [fillBuf_nil]
    by_cases h0 : s.vis w = []
    · rw [if_pos h0, if_pos h0]; exact .inr rfl
    · rw [if_neg h0, if_neg h0]
      by_cases hl : (fillBuf (ω [k]) (s.vis w)).length < t.length
      · rw [if_pos hl]; exact .inl rfl
      · obtain ⟨h1, h2⟩ := fillBuf_take (Nat.le_of_not_lt hl)
        rw [if_neg hl, h1, if_neg (Nat.not_lt.2 h2)]
        split
        · exact .inr rfl
        · refine (h k s).next fun s' => ?_
          split
          · exact ih (k + 1) s'
          · exact .inr rfl

theorem execLoop_same {f : Nat → State → Out} {g : State → Out} (h : ∀ k s, OutSame (f k s) (g s)) (ω : Sched)
    (src : Target) (len term : Option Nat) (out : Nat) (s : State) :
    OutSame (execLoopS ω f src len term out s) (execLoop g src len term out s) := by
  have hi := fun k s => iter_same (h k) out s
  unfold execLoopS execLoop
  cases len with
  | some l =>
    simp only
    generalize (s.reg l).bind loopCount = n
    cases n with
    | ok n => exact loopN_same hi _ _ _
    | error f => exact .inr rfl
  | none =>
    cases term with
    | some t =>
      simp only
      generalize s.reg t = v
      generalize s.strm src = w
      cases v with
      | error f => exact .inr rfl
      | ok v =>
        cases w with
        | none => exact .inr rfl
        | some w =>
          simp only
          generalize v.toBytes = tb
          cases tb with
          | none => exact .inr rfl
          | some tb => exact loopTerm_same hi _ _ _ _ _ _
    | none =>
      simp only
      generalize (s.setReg out (Val.arr [])).onStream src (fun bs => Except.ok (bs, [])) = r
      cases r with
      | error f => exact .inr rfl
      | ok r => exact (loopWhile_same hi _ _ _ _).next fun _ => .inr rfl

theorem execS_same {X : Sched → Ext} {Y : Ext} (h : ∀ ω, ExtSame (X ω) Y) :
    ∀ p ω s, OutSame (execS X ω p s) (exec Y p s) := by
  intro p
  induction p with
  | nil => intro ω s; exact .inr rfl
  | op i rest ih =>
    intro ω s
    unfold execS exec
    exact (execOp_same (h _) s i).next fun s' => ih _ s'
  | loop src len term out inner rest ihi ih =>
    intro ω s
    unfold execS exec
    exact (execLoop_same (fun k s => ihi _ s) _ src len term out s).next fun s' => ih _ s'
  | cond regs c inner rest ihi ih =>
    intro ω s
    unfold execS exec
    generalize s.regs c = x
    cases x with
    | none => exact .inr rfl
    | some x =>
      cases x <;> try exact .inr rfl
      rename_i b
      cases b with
      | true => exact (ihi _ s).next fun s' => ih _ _
      | false => exact ih _ _
  | condPred c inner rest ihi ih =>
    intro ω s
    unfold execS exec
    generalize s.regs c = x
    cases x with
    | none => exact .inr rfl
    | some x =>
      cases x <;> try exact .inr rfl
      rename_i b
      cases b with
      | true => exact (ihi _ s).next fun s' => ih _ _
      | false => exact ih _ _
  | condWrap c prelude src new xf args rest ihp ih =>
    intro ω s
    unfold execS exec
    generalize s.regs c = x
    cases x with
    | none => exact .inr rfl
    | some x =>
      cases x <;> try exact .inr rfl
      rename_i b
      cases b with
      | true =>
        refine (ihp _ s).next fun s' => ?_
        have hw : ResSame ((s'.args args).bind fun vs => (s.leave s').wrapStream (X (ω.sub 2)) src new xf vs)
            ((s'.args args).bind fun vs => (s.leave s').wrapStream Y src new xf vs) :=
          (ResSame.refl _).bind fun vs => wrapStream_same (h _) _ src new xf vs
        rcases hw with hw | hw
        · rw [hw]; exact .inl rfl
        · rw [hw]
          generalize ((s'.args args).bind fun vs => (s.leave s').wrapStream Y src new xf vs) = r
          cases r with
          | ok s'' => exact ih _ _
          | error f => exact .inr rfl
      | false => exact ih _ _

theorem runProgS_same {X : Sched → Ext} {Y : Ext} (h : ∀ ω, ExtSame (X ω) Y) (ω : Sched) (p : Prog) (bs : Bytes) :
    ResSame (runProgS X ω p bs) (runProg Y p bs) := by
  unfold runProgS runProg
  rcases execS_same h p ω (initState bs) with h | h
  · rw [h]; exact .inl rfl
  · rw [h]; exact .inr rfl

/-- The foreign types and transforms hang or do what they do on a reader that shows everything. -/
structure LibSame (L : LibS) (M : Lib) : Prop where
  oc : L.oc = M.oc
  foreign : ∀ ω n vs bs, ResSame (L.foreign ω n vs bs) (M.foreign n vs bs)
  xform : ∀ ω n vs bs, ResSame (L.xform ω n vs bs) (M.xform n vs bs)

theorem runDecodeS_same {L : LibS} {M : Lib} (h : LibSame L M) (sch : Schema) :
    ∀ fuel ω n args bs, ResSame (runDecodeS sch L fuel ω n args bs) (runDecode sch M fuel n args bs) := by
  intro fuel
  induction fuel with
  | zero => intro ω n args bs; exact .inl rfl
  | succ fuel ih =>
    intro ω n args bs
    unfold runDecodeS runDecode callDecl
    generalize sch.find n = d
    cases d with
    | none => exact .inr rfl
    | some d =>
      simp only
      by_cases hl : d.params.length ≠ args.length
      · rw [if_pos hl, if_pos hl]; exact .inr rfl
      · rw [if_neg hl, if_neg hl]
        refine runProgS_same (fun ω' => ?_) ω _ bs
        exact ⟨h.oc, rfl, ih ω', h.foreign ω', h.xform ω'⟩

/-! ## Terminators of at most one byte -/

/-- All terminators are literals of at most one byte. -/
def shortLeaf : LTy → Bool
  | .array el (.term e) => shortText e && shortLeaf el
  | .array el _ => shortLeaf el
  | _ => true

def shortItems : Fields → Bool
  | .nil => true
  | .pad _ _ rest => shortItems rest
  | .leaf _ ty rest => shortLeaf ty && shortItems rest
  | .cont _ _ items rest => shortItems items && shortItems rest

def shortArm (arm : Arm) : Bool :=
  match arm.body with
  | .leaf ty => shortLeaf ty
  | .cont _ items => shortItems items

def shortDecl (d : Decl) : Bool :=
  match d.body with
  | .leaf _ ty => shortLeaf ty
  | .repr _ => true
  | .struct _ items => shortItems items
  | .tagged _ arms => arms.all shortArm

def shortTerminators (sch : Schema) : Bool := sch.all shortDecl

/-- In front of every loop with a terminator the terminator is assigned, a literal of at most one byte; `known` is the register
that holds one. -/
def shortProg : Option Nat → Prog → Bool
  | _, .nil => true
  | _, .op (.eval r e _) rest => shortProg (if shortText e then some r else none) rest
  | _, .op _ rest => shortProg none rest
  | known, .loop _ len term _ inner rest =>
    (len.isSome || term.isNone || decide (known = term)) && shortProg none inner && shortProg none rest
  | _, .cond _ _ inner rest => shortProg none inner && shortProg none rest
  | _, .condPred _ inner rest => shortProg none inner && shortProg none rest
  | _, .condWrap _ prelude _ _ _ _ rest => shortProg none prelude && shortProg none rest

theorem shortProg_mono : ∀ (p : Prog) (k : Option Nat), shortProg none p = true → shortProg k p = true := by
  intro p
  cases p with
  | op i rest => intro k h; cases i <;> exact h
  | loop src len term out inner rest =>
    intro k h
    simp only [shortProg, Bool.and_eq_true, Bool.or_eq_true, decide_eq_true_eq] at h ⊢
    refine ⟨⟨?_, h.1.2⟩, h.2⟩
    rcases h.1.1 with h | h
    · exact .inl h
    · left; right; rw [← h]; rfl
  | _ => intro k h; exact h

theorem shortProg_append : ∀ (p q : Prog) (k : Option Nat), shortProg k p = true → shortProg none q = true →
    shortProg k (p ++ q) = true := by
  intro p
  induction p with
  | nil => intro q k _ hq; exact shortProg_mono q k hq
  | op i rest ih =>
    intro q k hp hq
    show shortProg k (.op i (rest ++ q)) = true
    cases i <;> exact ih q _ hp hq
  | loop src len term out inner rest _ ih =>
    intro q k hp hq
    show shortProg k (.loop src len term out inner (rest ++ q)) = true
    simp only [shortProg, Bool.and_eq_true] at hp ⊢
    exact ⟨hp.1, ih q _ hp.2 hq⟩
  | cond regs c inner rest _ ih =>
    intro q k hp hq
    show shortProg k (.cond regs c inner (rest ++ q)) = true
    simp only [shortProg, Bool.and_eq_true] at hp ⊢
    exact ⟨hp.1, ih q _ hp.2 hq⟩
  | condPred c inner rest _ ih =>
    intro q k hp hq
    show shortProg k (.condPred c inner (rest ++ q)) = true
    simp only [shortProg, Bool.and_eq_true] at hp ⊢
    exact ⟨hp.1, ih q _ hp.2 hq⟩
  | condWrap c prelude src new xf args rest _ ih =>
    intro q k hp hq
    show shortProg k (.condWrap c prelude src new xf args (rest ++ q)) = true
    simp only [shortProg, Bool.and_eq_true] at hp ⊢
    exact ⟨hp.1, ih q _ hp.2 hq⟩

/-! ### Generated code -/

theorem genArgs_short (m : RegMap) : ∀ (es : List Expr) (c : Nat), shortProg none (genArgs m c es).2.1 = true := by
  intro es
  induction es with
  | nil => intro c; rfl
  | cons e es ih =>
    intro c
    simp only [genArgs, shortProg]
    exact shortProg_mono _ _ (ih (c + 1))

theorem genLeaf_short (m : RegMap) (src : Target) : ∀ (ty : LTy) (c : Nat), shortLeaf ty = true →
    shortProg none (genLeaf m src ty c).2.1 = true
  | .prim p, c, _ => rfl
  | .ref target foreign res args, c, _ => by
    simp only [genLeaf]
    split <;> exact shortProg_append _ _ _ (genArgs_short m args _) rfl
  | .array el (.term e), c, h => by
    simp only [shortLeaf, Bool.and_eq_true] at h
    simp only [genLeaf, shortProg, h.1, if_true, Bool.and_eq_true, Bool.or_eq_true, decide_eq_true_eq]
    exact ⟨⟨.inr (by trivial), shortProg_append _ _ _ (genLeaf_short m src el _ h.2) rfl⟩, trivial⟩
  | .array el (.fixed e), c, h => by
    have h : shortLeaf el = true := h
    simp only [genLeaf]
    split
    · rfl
    · rfl
    · simp only [shortProg, Option.isSome_some, Bool.true_or, Bool.true_and, Bool.and_true]
      exact shortProg_append _ _ _ (genLeaf_short m src el _ h) rfl
  | .array el .unbounded, c, h => by
    have h : shortLeaf el = true := h
    simp only [genLeaf]
    split
    · rfl
    · rfl
    · simp only [shortProg, Option.isNone_none, Bool.or_true, Bool.true_or, Bool.true_and, Bool.and_true]
      exact shortProg_append _ _ _ (genLeaf_short m src el _ h) rfl

theorem genXforms_short (m : RegMap) : ∀ (xs : List XformUse) (src : Target) (c : Nat),
    shortProg none (genXforms m src c xs).2.1 = true := by
  intro xs
  induction xs with
  | nil => intro src c; rfl
  | cons x xs ih =>
    intro src c
    simp only [genXforms]
    split
    · simp only [shortProg]
      simp only [Bool.and_eq_true]
      exact ⟨genArgs_short m x.args _, ih _ _⟩
    · refine shortProg_append _ _ _ (genArgs_short m x.args _) ?_
      exact ih _ _

theorem genCond_short (m : RegMap) (cond : Option Expr) (c : Nat) : shortProg none (genCond m cond c).2.1 = true := by
  cases cond with
  | none => rfl
  | some e => simp only [genCond, Prog.one, shortProg]

theorem wrapCond_short {cr : Option Nat} {em : List Nat} {p : Prog} (h : shortProg none p = true) :
    shortProg none (wrapCond cr em p) = true := by
  cases cr with
  | none => exact h
  | some r => simp only [wrapCond, shortProg, h, Bool.and_self]

theorem genConstrict_short (m : RegMap) (src : Target) (len : Option Expr) (c : Nat) :
    shortProg none (genConstrict m src len c).2.1 = true := by
  cases len with
  | none => rfl
  | some e => simp only [genConstrict, Prog.one, shortProg]

theorem genItems_short : ∀ (items : Fields) (src : Target) (m : RegMap) (c : Nat), shortItems items = true →
    shortProg none (genItems src items m c).2.2.1 = true := by
  intro items
  induction items with
  | nil => intro src m c _; rfl
  | pad n e rest ih =>
    intro src m c h
    simp only [genItems, shortProg]
    exact ih _ _ _ h
  | leaf a ty rest ih =>
    intro src m c h
    simp only [shortItems, Bool.and_eq_true] at h
    simp only [genItems]
    exact shortProg_append _ _ _ (shortProg_append _ _ _ (genCond_short m _ _)
      (wrapCond_short (shortProg_append _ _ _ (genXforms_short m _ _ _) (genLeaf_short _ _ _ _ h.1)))) (ih _ _ _ h.2)
  | cont a len items rest ihi ih =>
    intro src m c h
    simp only [shortItems, Bool.and_eq_true] at h
    simp only [genItems]
    exact shortProg_append _ _ _ (shortProg_append _ _ _ (genCond_short m _ _)
      (wrapCond_short (shortProg_append _ _ _ (shortProg_append _ _ _ (genXforms_short m _ _ _) (genConstrict_short _ _ _ _))
        (ihi _ _ _ h.1)))) (ih _ _ _ h.2)

theorem genArm_short {arm : Arm} (h : shortArm arm = true) (n : String) (src : Target) (m : RegMap) (c : Nat) :
    shortProg none (genArm n src arm m c).2.2.1 = true := by
  unfold genArm
  unfold shortArm at h
  split
  · rename_i ty hb
    rw [hb] at h
    exact genLeaf_short _ _ _ _ h
  · rename_i len items hb
    rw [hb] at h
    exact shortProg_append _ _ _ (genConstrict_short _ _ _ _) (genItems_short _ _ _ _ h)

theorem genArms_short (n : String) (src : Target) : ∀ (arms : List Arm) (m : RegMap) (c : Nat), arms.all shortArm = true →
    shortProg none (genArms n src arms m c).2.1 = true := by
  intro arms
  induction arms with
  | nil => intro m c _; rfl
  | cons arm arms ih =>
    intro m c h
    simp only [List.all_cons, Bool.and_eq_true] at h
    simp only [genArms]
    have hb := fun src' m' c' => genArm_short h.1 n src' m' c'
    split
    · refine shortProg_append _ _ _ (genCond_short m _ _) ?_
      simp only [shortProg, Bool.and_eq_true]
      refine ⟨shortProg_append _ _ _ (shortProg_append _ _ _ (shortProg_append _ _ _ (genXforms_short m _ _ _) (hb _ _ _)) rfl) rfl, ?_⟩
      exact ih _ _ h.2
    · exact shortProg_append _ _ _ (genCond_short m _ _)
        (shortProg_append _ _ _ (shortProg_append _ _ _ (genXforms_short m _ _ _) (hb _ _ _)) rfl)

theorem genDecl_short {d : Decl} (h : shortDecl d = true) : shortProg none (genDecl d) = true := by
  unfold genDecl
  unfold shortDecl at h
  cases hb : d.body with
  | leaf cond ty =>
    rw [hb] at h
    exact shortProg_append _ _ _ (shortProg_append _ _ _ (genCond_short _ _ _)
      (wrapCond_short (shortProg_append _ _ _ (genXforms_short _ _ _ _) (genLeaf_short _ _ _ _ h)))) rfl
  | repr t => exact shortProg_append _ _ _ (genXforms_short _ _ _ _) rfl
  | struct len items =>
    rw [hb] at h
    exact shortProg_append _ _ _ (shortProg_append _ _ _ (shortProg_append _ _ _ (genXforms_short _ _ _ _)
      (genConstrict_short _ _ _ _)) (genItems_short _ _ _ _ h)) rfl
  | tagged len arms =>
    rw [hb] at h
    refine shortProg_append _ _ _ (shortProg_append _ _ _ (shortProg_append _ _ _ (genXforms_short _ _ _ _)
      (genConstrict_short _ _ _ _)) (genArms_short _ _ _ _ _ h)) ?_
    split <;> rfl

/-! ### Runs -/

theorem loopN_exact {f : Nat → State → Out} {g : State → Out} (h : ∀ k s, f k s = g s) :
    ∀ n k s, loopNS f k n s = loopN g n s := by
  intro n
  induction n with
  | zero => intro k s; rfl
  | succ n ih =>
    intro k s
    unfold loopNS loopN
    rw [h k s]
    generalize g s = o
    cases o with
    | next s' => exact ih (k + 1) s'
    | _ => rfl

theorem loopWhile_exact {f : Nat → State → Out} {g : State → Out} (h : ∀ k s, f k s = g s) (w : Win) :
    ∀ n k s, loopWhileS f w k n s = loopWhile g w n s := by
  intro n
  induction n with
  | zero => intro k s; unfold loopWhileS loopWhile; rfl
  | succ n ih =>
    intro k s
    unfold loopWhileS loopWhile
    rw [h k s]
    simp only [ih]
    rfl

theorem loopTerm_exact {f : Nat → State → Out} {g : State → Out} (h : ∀ k s, f k s = g s) (ω : Sched) (w : Win)
    {t : Bytes} (ht : t.length ≤ 1) : ∀ n k s, loopTermS ω f w t k n s = loopTerm g w t n s := by
  have hf (n : Nat) (bs : Bytes) (h : bs ≠ []) : ¬(fillBuf n bs).length < t.length := by
    have : fillBuf n bs ≠ [] := fun h' => h ((fillBuf_nil n bs).1 h')
    have := List.length_pos_iff.2 this
    omega
  intro n
  induction n with
  | zero =>
    intro k s
    unfold loopTermS loopTerm
    simp only [fillBuf_nil]
    by_cases h0 : s.vis w = []
    · rw [if_pos h0, if_pos h0]
    · have hl := hf (ω [k]) _ h0
      obtain ⟨h1, h2⟩ := fillBuf_take (Nat.le_of_not_lt hl)
      rw [if_neg h0, if_neg h0, if_neg hl, h1, if_neg (Nat.not_lt.2 h2)]
  | succ n ih =>
    intro k s
    unfold loopTermS loopTerm
    simp only [fillBuf_nil]
    by_cases h0 : s.vis w = []
    · rw [if_pos h0, if_pos h0]
    · have hl := hf (ω [k]) _ h0
      obtain ⟨h1, h2⟩ := fillBuf_take (Nat.le_of_not_lt hl)
      rw [if_neg h0, if_neg h0, if_neg hl, h1, if_neg (Nat.not_lt.2 h2), h k s]
      simp only [ih]
      rfl

/-- The register holds a text of at most one byte. -/
def HoldsShort (s : State) (r : Nat) : Prop := ∃ v tb, s.regs r = some v ∧ v.toBytes = some tb ∧ tb.length ≤ 1

theorem iter_exact {f : Nat → State → Out} {g : State → Out} (h : ∀ k s, f k s = g s) (out : Nat) :
    ∀ k s, iter (f k) out s = iter g out s := by
  intro k s
  unfold iter
  rw [h k s]

theorem execLoop_exact {f : Nat → State → Out} {g : State → Out} (h : ∀ k s, f k s = g s) (ω : Sched)
    (src : Target) (len term : Option Nat) (out : Nat) (s : State)
    (ht : ∀ r, len = none → term = some r → HoldsShort s r) :
    execLoopS ω f src len term out s = execLoop g src len term out s := by
  have hi := iter_exact h out
  unfold execLoopS execLoop
  cases len with
  | some l =>
    simp only [loopN_exact hi]
    rfl
  | none =>
    cases term with
    | some t =>
      obtain ⟨v, tb, h1, h2, h3⟩ := ht t rfl rfl
      simp only [State.reg, h1, optRes]
      generalize s.strm src = w
      cases w with
      | none => rfl
      | some w =>
        simp only [h2]
        exact loopTerm_exact hi _ _ h3 _ _ _
    | none =>
      simp only [loopWhile_exact hi]
      rfl

theorem execS_exact {X : Sched → Ext} {Y : Ext} (h : ∀ ω, X ω = Y) :
    ∀ p known ω s, shortProg known p = true → (∀ r, known = some r → HoldsShort s r) → execS X ω p s = exec Y p s := by
  intro p
  have none_holds (s : State) : ∀ r, (none : Option Nat) = some r → HoldsShort s r := fun r hr => by cases hr
  induction p with
  | nil => intro known ω s _ _; rfl
  | op i rest ih =>
    intro known ω s hp hk
    unfold execS exec
    rw [h]
    cases i with
    | eval r e m =>
      simp only [shortProg] at hp
      cases ho : execOp Y s (.eval r e m) with
      | next s' =>
        refine ih _ _ s' hp fun q hq => ?_
        split at hq
        · rename_i hs
          cases hq
          cases e with
          | str t =>
            simp only [shortText, decide_eq_true_eq] at hs
            have he : execOp Y s (.eval r (.str t) m) = .next (s.setReg r (Val.bytes t)) := rfl
            rw [he] at ho
            cases ho
            exact ⟨Val.bytes t, t, by simp [State.setReg, upd], toBytes_bytes t, hs⟩
          | _ => simp [shortText] at hs
        · cases hq
      | ret v s' => rfl
      | fault f => rfl
    | _ =>
      simp only [shortProg] at hp
      generalize execOp Y s _ = o
      cases o with
      | next s' => exact ih none _ s' hp (none_holds s')
      | _ => rfl
  | loop src len term out inner rest ihi ih =>
    intro known ω s hp hk
    simp only [shortProg, Bool.and_eq_true, Bool.or_eq_true, decide_eq_true_eq] at hp
    unfold execS exec
    rw [execLoop_exact (g := exec Y inner) (fun k s => ihi none _ s hp.1.2 (none_holds s)) _ src len term out s (by
      intro r hl ht
      refine hk r ?_
      rcases hp.1.1 with (h | h) | h
      · rw [hl] at h; cases h
      · rw [ht] at h; cases h
      · rw [h, ht])]
    generalize execLoop (exec Y inner) src len term out s = o
    cases o with
    | next s' => exact ih none _ s' hp.2 (none_holds s')
    | _ => rfl
  | cond regs c inner rest ihi ih =>
    intro known ω s hp hk
    simp only [shortProg, Bool.and_eq_true] at hp
    unfold execS exec
    rw [ihi none _ s hp.1 (none_holds s)]
    simp only [fun ω' s' => ih none ω' s' hp.2 (none_holds s')]
    rfl
  | condPred c inner rest ihi ih =>
    intro known ω s hp hk
    simp only [shortProg, Bool.and_eq_true] at hp
    unfold execS exec
    rw [ihi none _ s hp.1 (none_holds s)]
    simp only [fun ω' s' => ih none ω' s' hp.2 (none_holds s')]
    rfl
  | condWrap c prelude src new xf args rest ihp ih =>
    intro known ω s hp hk
    simp only [shortProg, Bool.and_eq_true] at hp
    unfold execS exec
    rw [ihp none _ s hp.1 (none_holds s), h]
    simp only [fun ω' s' => ih none ω' s' hp.2 (none_holds s')]
    rfl

/-- The foreign types and transforms do the same whatever the schedule. -/
structure LibExact (L : LibS) (M : Lib) : Prop where
  oc : L.oc = M.oc
  foreign : ∀ ω, L.foreign ω = M.foreign
  xform : ∀ ω, L.xform ω = M.xform

theorem runDecodeS_exact {L : LibS} {M : Lib} (h : LibExact L M) {sch : Schema} (hs : shortTerminators sch = true) :
    ∀ fuel ω n args bs, runDecodeS sch L fuel ω n args bs = runDecode sch M fuel n args bs := by
  intro fuel
  induction fuel with
  | zero => intro ω n args bs; rfl
  | succ fuel ih =>
    intro ω n args bs
    unfold runDecodeS runDecode callDecl
    cases hf : sch.find n with
    | none => rfl
    | some d =>
      have hd : shortDecl d = true := List.all_eq_true.1 hs d (List.mem_of_find?_eq_some hf)
      simp only
      by_cases hl : d.params.length ≠ args.length
      · rw [if_pos hl, if_pos hl]
      · rw [if_neg hl, if_neg hl]
        unfold runProgS runProg
        rw [execS_exact (Y := ⟨M.oc, bindArgs d.params args, runDecode sch M fuel, M.foreign, M.xform⟩) ?_ _ none ω _
          (genDecl_short hd) (fun r hr => by cases hr)]
        · rfl
        · intro ω'
          rw [h.oc, h.foreign, h.xform]
          congr 1
          funext n vs bs
          exact ih ω' n vs bs

/-- A decoder that survives any input has short terminators. -/
theorem leafFine_short {P : Plan} {F : Sig} {sch : Schema} {oc : Bool} {n : String} {Γ : TCtx} {pos : Pos} :
    ∀ {ty : LTy}, leafFine P F sch oc n Γ pos ty = true → shortLeaf ty = true
  | .prim _, _ => rfl
  | .ref .., _ => rfl
  | .array el len, h => by
    simp only [leafFine, Bool.and_eq_true] at h
    have hel := leafFine_short h.1
    cases len with
    | term e =>
      simp only [Bool.and_eq_true] at h
      simp only [shortLeaf, Bool.and_eq_true]
      exact ⟨h.2.1, hel⟩
    | fixed e => exact hel
    | unbounded => exact hel

theorem itemsFine_short {P : Plan} {F : Sig} {sch : Schema} {oc : Bool} {n : String} :
    ∀ {items : Fields} {Γ : TCtx} {pos : Pos}, itemsFine P F sch oc n Γ pos items = true → shortItems items = true := by
  intro items
  induction items with
  | nil => intros; rfl
  | pad m e rest ih =>
    intro Γ pos h
    simp only [itemsFine, Bool.and_eq_true] at h
    exact ih h.2
  | leaf a ty rest ih =>
    intro Γ pos h
    simp only [itemsFine, Bool.and_eq_true] at h
    simp only [shortItems, Bool.and_eq_true]
    exact ⟨leafFine_short h.1.2, ih h.2⟩
  | cont a len items rest ihi ih =>
    intro Γ pos h
    simp only [itemsFine, Bool.and_eq_true] at h
    simp only [shortItems, Bool.and_eq_true]
    exact ⟨ihi h.1.2, ih h.2⟩

theorem survives_short {P : Plan} {F : Sig} {sch : Schema} {oc : Bool} (h : survives P F sch oc = true) :
    shortTerminators sch = true := by
  simp only [survives, Bool.and_eq_true, List.all_eq_true] at h
  refine List.all_eq_true.2 fun d hd => ?_
  have := h.2 d hd
  simp only [declFine, Bool.and_eq_true] at this
  unfold shortDecl
  have := this.2
  cases hb : d.body with
  | leaf cond ty => rw [hb] at this; simp only [Bool.and_eq_true] at this; exact leafFine_short this.2
  | repr t => rfl
  | struct len items => rw [hb] at this; simp only [Bool.and_eq_true] at this; exact itemsFine_short this.2
  | tagged len arms =>
    rw [hb] at this
    simp only [Bool.and_eq_true, List.all_eq_true] at this
    refine List.all_eq_true.2 fun arm ha => ?_
    have := this.2 arm ha
    simp only [armFine, Bool.and_eq_true] at this
    unfold shortArm
    have := this.2
    cases hab : arm.body with
    | leaf ty => rw [hab] at this; exact leafFine_short this
    | cont len items => rw [hab] at this; simp only [Bool.and_eq_true] at this; exact itemsFine_short this.2
end Verif.Dec
