import Verif.EncodeDecl
/-!
# The types of writers in generated encoders

`compiler/encoder.rs` writes to `writer` (the parameter, a `&mut W`), to buffers (`(&mut r_3)`, a `Vec<u8>`), and to the variables of transforms (7-16,
`emit_target`). `let mut r = GzEncoder::new(writer, ..)` (150-158) declares a *value*, not a reference; behind a transform with a condition there is a `&mut dyn
Write` (320-352). What can be done with a writer depends on its type: `write_all` and `flush` work on all of them, `x.encode_sync(w, ..)` (196-202) needs a
`&mut W` with `W: Write`, which is `Sized` (`compiler/mod.rs` 263), and `w as &mut dyn Write` (349) needs a reference. A constructor such as
`GzEncoder::new(w)` (`prelude/gzip.rs` 35) takes the variable away, since its parameter is of a type to be inferred, for which rustc does not reborrow;
`encode_sync(writer: &mut W)` and methods only borrow it. A buffer is lent until the stream over it is dropped.
-/
namespace Verif.Enc
open Verif

/-- The type of a writer variable. -/
inductive Wr
  /-- `&mut W`, the parameter of the function -/
  | own
  /-- `Vec<u8>`, mentioned as `(&mut r)` -/
  | vec
  /-- what the transform makes of a writer, as `flate2::write::GzEncoder<&mut W>`: a value -/
  | xf (name : String) (w : Wr)
  /-- `&mut dyn Write` -/
  | dyn
  deriving DecidableEq, Repr

/-- What is asked of a writer. -/
inductive Ask
  /-- `write_all`, `flush` -/
  | write
  /-- `x.encode_sync(writer, ..)` with `x` of that type -/
  | call (name : String)
  /-- the code of a foreign type with so many arguments -/
  | foreign (name : String) (args : Nat)
  /-- the constructor of a transform -/
  | wrap (name : String)
  /-- `writer as &mut dyn Write` -/
  | cast
  /-- the bytes of a buffer -/
  | look
  deriving DecidableEq, Repr

/-- What rustc knows about the code of a transform: whether it takes the variable away, whether it needs a `&mut W` with `W: Sized`. -/
structure XformApi where
  moves : Bool
  needsRef : Bool

structure Api where
  xf : String → XformApi
  /-- the code of the foreign type, with so many arguments, needs a `&mut W` with `W: Sized` -/
  foreignRef : String → Nat → Bool

/-- The expression is a `&mut W` with `W: Sized`. -/
def Wr.ref : Wr → Bool
  | .own => true
  | .vec => true
  | .xf _ _ => false
  | .dyn => false

/-- The expression can be made a `&mut dyn Write`. -/
def Wr.castable : Wr → Bool
  | .xf _ _ => false
  | _ => true

/-- rustc lets a writer of the type be used so. All are `Write`. -/
def able (A : Api) (w : Wr) : Ask → Bool
  | .write => true
  | .call _ => w.ref
  | .foreign n k => !A.foreignRef n k || w.ref
  | .wrap x => !(A.xf x).needsRef || w.ref
  | .cast => w.castable
  | .look => decide (w = .vec)

/-- The writer variables of a function, `none` if there is no such variable or it has been taken away or lent; and what the streams have borrowed. -/
structure Vars where
  vars : Target → Option Wr
  lent : Nat → Option (Target × Wr)

/-- The constructor of a transform gives its writer back when the stream is dropped: buffers are mentioned by reference. -/
def Api.returns (A : Api) (xf : String) (w : Wr) : Bool := !(A.xf xf).moves || decide (w = .vec)

/-- What is left of a writer when the stream over it has been dropped. -/
def Api.left (A : Api) (xf : String) (w : Option Wr) : Option Wr := w.bind fun w => if A.returns xf w then some w else none

/-- What an instruction asks (`compiler/encoder.rs` 52-264, 403-429). -/
def askedOp (S : Vars) : Op → List (Ask × Option Wr)
  | .wrap t _ xf _ => [(.wrap xf, S.vars t)]
  | .endStream r => [(.write, S.vars (.stream r))]
  | .emitBuf t b => [(.write, S.vars t), (.look, S.vars (.buf b))]
  | .foreign t _ n args => [(.foreign n args.length, S.vars t)]
  | .ref t _ n _ => [(.call n, S.vars t)]
  | .repr t _ _ => [(.write, S.vars t)]
  | .prim t _ _ => [(.write, S.vars t)]
  | .primArray t _ _ _ => [(.write, S.vars t)]
  | .reprArray t _ _ _ => [(.write, S.vars t)]
  | .pad t _ => [(.write, S.vars t)]
  | .lenBuf _ b => [(.look, S.vars (.buf b))]
  | _ => []

/-- A stream is made over a writer, and held by variable `holder`. -/
def Vars.lend (A : Api) (S : Vars) (t : Target) (xf : String) (holder : Nat) : Vars :=
  ⟨upd S.vars t none, upd S.lent holder ((A.left xf (S.vars t)).map fun w => (t, w))⟩

def Vars.set (S : Vars) (t : Target) (w : Option Wr) : Vars := ⟨upd S.vars t w, S.lent⟩

/-- What a variable has borrowed is given back when it is dropped. -/
def Vars.release (S : Vars) (holder : Nat) : Vars :=
  match S.lent holder with
  | some (t, w) => ⟨upd S.vars t (some w), upd S.lent holder none⟩
  | none => S

/-- The writer variables after an instruction (`compiler/encoder.rs` 78-93, 144-158, 176-182). -/
def afterOp (A : Api) (S : Vars) : Op → Vars
  | .allocBuf b _ => S.set (.buf b) (some .vec)
  | .allocDyn b => S.set (.buf b) (some .vec)
  | .wrap t new xf _ => (S.lend A t xf new).set (.stream new) ((S.vars t).map (.xf xf))
  | .endStream r => (S.set (.stream r) none).release r
  | .drop r => S.release r
  | _ => S

/-- Where several ways of execution meet: a variable is there if it is on every one of them. -/
def Vars.meet (S : Vars) (ends : List Vars) : Vars :=
  ⟨fun t => if ends.all fun E => decide (E.vars t = S.vars t) then S.vars t else none, S.lent⟩

/-- The writer variables behind a transform with a condition (`compiler/encoder.rs` 344-351): the stream is held by `owned`. -/
def Vars.condWrap (A : Api) (S : Vars) (t : Target) (new owned : Nat) (xf : String) : Vars :=
  (Vars.lend A ⟨S.vars, upd S.lent new none⟩ t xf owned).set (.stream new) (some .dyn)

mutual
/-- The writer variables at the end of a block, nothing if it cannot be reached. -/
def after (A : Api) : Prog → Vars → Option Vars
  | .nil, S => some S
  | .op i rest, S => match i with
    | .brk => none
    | i => after A rest (afterOp A S i)
  | .loop _ _ inner rest, S => after A rest (S.meet (after A inner S).toList)
  | .cond _ inner rest, S => after A rest (S.meet (after A inner S).toList)
  | .condWrap _ prelude t new owned xf _ rest, S => after A rest ((S.meet (after A prelude S).toList).condWrap A t new owned xf)
  | .block inner rest, S => after A rest (S.meet ((after A inner S).toList ++ breaks A inner S))

/-- The writer variables at each `break 'bb` of a block. -/
def breaks (A : Api) : Prog → Vars → List Vars
  | .nil, _ => []
  | .op i rest, S => match i with
    | .brk => [S]
    | i => breaks A rest (afterOp A S i)
  | .loop _ _ inner rest, S => breaks A inner S ++ breaks A rest (S.meet (after A inner S).toList)
  | .cond _ inner rest, S => breaks A inner S ++ breaks A rest (S.meet (after A inner S).toList)
  | .condWrap _ prelude t new owned xf _ rest, S =>
    breaks A prelude S ++ breaks A rest ((S.meet (after A prelude S).toList).condWrap A t new owned xf)
  | .block inner rest, S => breaks A rest (S.meet ((after A inner S).toList ++ breaks A inner S))
end

/-- What emitted code asks of its writers. Code behind a `break` is not reached. -/
def asked (A : Api) : Prog → Vars → List (Ask × Option Wr)
  | .nil, _ => []
  | .op i rest, S => match i with
    | .brk => []
    | i => askedOp S i ++ asked A rest (afterOp A S i)
  | .loop _ _ inner rest, S => asked A inner S ++ asked A rest (S.meet (after A inner S).toList)
  | .cond _ inner rest, S => asked A inner S ++ asked A rest (S.meet (after A inner S).toList)
  | .condWrap _ prelude t new owned xf _ rest, S =>
    asked A prelude S ++ (.wrap xf, S.vars t) :: (.cast, S.vars t) ::
      asked A rest ((S.meet (after A prelude S).toList).condWrap A t new owned xf)
  | .block inner rest, S => asked A inner S ++ asked A rest (S.meet ((after A inner S).toList ++ breaks A inner S))

/-- At the start there is `writer: &mut W`. -/
def atStart : Vars := ⟨fun t => if t = .direct then some .own else none, fun _ => none⟩

/-! ## The same, said about the specification -/

abbrev Asks := List (Ask × Option Wr)

/-- What the encoding of a type asks of its writer. -/
def wantsLeaf (w : Option Wr) : LTy → Asks
  | .prim _ => [(.write, w)]
  | .ref n foreign _ args => [(if foreign then .foreign n args.length else .call n, w)]
  | .array el len =>
    match len with
    | .term _ => wantsLeaf w el ++ [(.write, w)]
    | .fixed _ => match el.resolved with | .other => wantsLeaf w el | _ => [(.write, w)]
    | .unbounded => match el.resolved with | .other => wantsLeaf w el | _ => [(.write, w)]

/-- The writer that a transform makes. -/
def behindOne (x : XformUse) (w : Option Wr) : Option Wr := if x.cond.isSome then some .dyn else w.map (.xf x.name)

def behindAll : Option Wr → List XformUse → Option Wr
  | w, [] => w
  | w, x :: xs => behindAll (behindOne x w) xs

/-- What making the stream of a transform asks. -/
def wantsOpen (x : XformUse) (w : Option Wr) : Asks := (.wrap x.name, w) :: if x.cond.isSome then [(.cast, w)] else []

/-- Something is written behind transforms, which are opened, and closed in reverse: what this asks. `body` is what the content asks of the
innermost writer, `e` what it leaves of it. -/
def wantsAround (A : Api) : List XformUse → Option Wr → Asks → Option Wr → Asks
  | [], _, body, _ => body
  | x :: xs, w, body, e =>
    wantsOpen x w ++ wantsAround A xs (behindOne x w) body e ++
      [(.write, match xs with | [] => e | y :: _ => A.left y.name (behindOne x w))]

/-- What is left of the outer writer. -/
def leftAround (A : Api) (xs : List XformUse) (w e : Option Wr) : Option Wr :=
  match xs with
  | [] => e
  | x :: _ => A.left x.name w

def wantsField (A : Api) (w : Option Wr) (a : FAttr) (ty : LTy) : Asks :=
  wantsAround A a.xfs w (wantsLeaf (behindAll w a.xfs) ty) (behindAll w a.xfs)

def leftField (A : Api) (w : Option Wr) (a : FAttr) : Option Wr := leftAround A a.xfs w (behindAll w a.xfs)

/-- The writer that items are written to: the last buffer while calculated fields wait for lengths. -/
def whereTo (w : Option Wr) : List (FAttr × LTy) → Option Wr
  | [] => w
  | _ :: _ => some .vec

/-- What is left of the writer of the items after one of them, which has left `e`: writing to a buffer does not concern it. -/
def kept (e w : Option Wr) : List (FAttr × LTy) → Option Wr
  | [] => e
  | _ :: _ => w

/-- The waiting fields whose lengths are known are written: what this asks, the fields that go on waiting, and what is left of the writer. -/
def wantsFlush (A : Api) (p : Plan) : List (FAttr × LTy) → Option Wr → Asks × List (FAttr × LTy) × Option Wr
  | [], w => ([], [], w)
  | d :: ds, w =>
    let (l, rest, w1) := wantsFlush A p ds w
    if p.known (FAttr.blens d.1) then
      let to := whereTo w1 rest
      let e := leftField A to d.1
      (l ++ wantsField A to d.1 d.2 ++ [(.write, e), (.look, some .vec)], rest, kept e w1 rest)
    else (l, d :: rest, w1)

/-- The writer inside of a container: a buffer if it has a length. -/
def boxed (w : Option Wr) (len : Option Expr) : Option Wr := if len.isSome then some .vec else w

/-- What the end of a container with a length asks: its length, if it is waited for, and its bytes. -/
def wantsClose (p : Plan) (name : String) (len : Option Expr) (w e : Option Wr) : Asks :=
  if len.isSome then (if name ∈ p.pending then [(.look, e)] else []) ++ [(.write, w), (.look, e)] else []

/-- What the items of a container ask, and what is left of the container's writer. -/
def wantsItems (A : Api) : Fields → Plan → List (FAttr × LTy) → Option Wr → Asks × Option Wr
  | .nil, _, _, w => ([], w)
  | .pad _ _ rest, p, ds, w =>
    let (l, ds2, w2) := wantsFlush A p ds w
    let (m, e) := wantsItems A rest p ds2 w2
    ((.write, whereTo w ds) :: l ++ m, e)
  | .leaf a ty rest, p, ds, w =>
    if (FAttr.blens a).isEmpty || p.known (FAttr.blens a) then
      let w1 := kept (leftField A w a) w ds
      let (l, ds2, w2) := wantsFlush A p ds w1
      let (m, e) := wantsItems A rest p ds2 w2
      (wantsField A (whereTo w ds) a ty ++ l ++ m, e)
    else wantsItems A rest (p.await a) (ds ++ [(a, ty)]) w
  | .cont a len items rest, p, ds, w =>
    let to := whereTo w ds
    let inner := behindAll to a.xfs
    let (b, eb) := wantsItems A items p [] (boxed inner len)
    let p2 := planItems items p
    let e2 := if len.isSome then inner else eb
    let w1 := kept (leftAround A a.xfs w e2) w ds
    let (l, ds2, w2) := wantsFlush A (p2.close a.name len) ds w1
    let (m, e) := wantsItems A rest (p2.close a.name len) ds2 w2
    (wantsAround A a.xfs to (b ++ wantsClose p2 a.name len inner eb) e2 ++ l ++ m, e)

/-- What an alternative of a tagged enum asks, and leaves of the writer. The transforms and the length of an alternative that is a container are not looked
at. -/
def wantsArm (A : Api) (arm : Arm) (p : Plan) (w : Option Wr) : Asks × Option Wr :=
  match arm.body with
  | .leaf ty => (wantsField A w arm.attr ty, leftField A w arm.attr)
  | .cont _ items => wantsItems A items p [] w

/-- What the alternatives ask, and whether all leave the writer as it was. -/
def wantsArms (A : Api) : List Arm → Plan → Option Wr → Asks × Bool
  | [], _, _ => ([], true)
  | arm :: arms, p, w =>
    let (l, e) := wantsArm A arm p w
    if arm.attr.cond.isSome then
      let (m, k) := wantsArms A arms (planArm arm p) w
      (l ++ m, decide (e = w) && k)
    else (l, decide (e = w))

/-- What the encoder of a type asks of its writers. -/
def wants (A : Api) (d : Decl) : Asks :=
  let w := behindAll (some .own) d.xfs
  match d.body with
  | .leaf _ ty => wantsAround A d.xfs (some .own) (wantsLeaf w ty) w
  | .repr _ => wantsAround A d.xfs (some .own) [(.write, w)] w
  | .struct len items =>
    let (b, eb) := wantsItems A items .init [] (boxed w len)
    wantsAround A d.xfs (some .own) (b ++ wantsClose (planItems items .init) d.name len w eb) (if len.isSome then w else eb)
  | .tagged len arms =>
    let (b, k) := wantsArms A arms .init (boxed w len)
    let eb := if k then boxed w len else none
    wantsAround A d.xfs (some .own) (b ++ wantsClose (arms.foldl (fun p a => planArm a p) .init) d.name len w eb) (if len.isSome then w else eb)

/-- rustc accepts how the encoder of a type uses its writers. -/
def writersOk (A : Api) (d : Decl) : Bool := (wants A d).all fun q => match q.2 with | some w => able A w q.1 | none => false

/-! ## The emitted code asks what the specification says -/

/-- The writer variable is older than register `c`. -/
def Old (c : Nat) : Target → Prop
  | .direct => True
  | .buf r => r < c
  | .stream r => r < c

theorem Old.mono {c c' : Nat} {t : Target} (h : Old c t) (hc : c ≤ c') : Old c' t := by
  cases t with
  | direct => trivial
  | buf r => exact Nat.lt_of_lt_of_le h hc
  | stream r => exact Nat.lt_of_lt_of_le h hc

theorem Old.ne_stream {c r : Nat} {t : Target} (h : Old c t) (hr : c ≤ r) : t ≠ .stream r := fun e => by
  subst e
  simp only [Old] at h
  omega

theorem Old.ne_buf {c r : Nat} {t : Target} (h : Old c t) (hr : c ≤ r) : t ≠ .buf r := fun e => by
  subst e
  simp only [Old] at h
  omega

theorem after_append (A : Api) (p q : Prog) (S : Vars) : after A (p ++ q) S = (after A p S).bind (after A q) := by
  show after A (p.append q) S = _
  induction p generalizing S with
  | nil => rfl
  | op i rest ih => cases i <;> simp only [Prog.append, after, ih, Option.bind_none]
  | loop idx len inner rest _ ih => simp only [Prog.append, after, ih]
  | cond c inner rest _ ih => simp only [Prog.append, after, ih]
  | condWrap c pre u n o x a rest _ ih => simp only [Prog.append, after, ih]
  | block inner rest _ ih => simp only [Prog.append, after, ih]

theorem breaks_append (A : Api) (p q : Prog) (S : Vars) :
    breaks A (p ++ q) S = breaks A p S ++ (after A p S).toList.flatMap (breaks A q) := by
  show breaks A (p.append q) S = _
  induction p generalizing S with
  | nil => simp [Prog.append, breaks, after]
  | op i rest ih => cases i <;> simp [Prog.append, breaks, after, ih]
  | loop idx len inner rest _ ih => simp only [Prog.append, breaks, after, ih, List.append_assoc]
  | cond c inner rest _ ih => simp only [Prog.append, breaks, after, ih, List.append_assoc]
  | condWrap c pre u n o x a rest _ ih => simp only [Prog.append, breaks, after, ih, List.append_assoc]
  | block inner rest _ ih => simp only [Prog.append, breaks, after, ih]

theorem asked_append (A : Api) (p q : Prog) (S : Vars) :
    asked A (p ++ q) S = asked A p S ++ (after A p S).toList.flatMap (asked A q) := by
  show asked A (p.append q) S = _
  induction p generalizing S with
  | nil => simp [Prog.append, asked, after]
  | op i rest ih => cases i <;> simp [Prog.append, asked, after, ih]
  | loop idx len inner rest _ ih => simp only [Prog.append, asked, after, ih, List.append_assoc]
  | cond c inner rest _ ih => simp only [Prog.append, asked, after, ih, List.append_assoc]
  | condWrap c pre u n o x a rest _ ih => simp only [Prog.append, asked, after, ih, List.append_assoc, List.cons_append]
  | block inner rest _ ih => simp only [Prog.append, asked, after, ih, List.append_assoc]

theorem Vars.meet_self (S : Vars) : S.meet [S] = S := by
  simp [Vars.meet]

/-- What is said of a piece of code that works on the writer `t`: it asks `l`, leaves `e` of `t`, and the other writer variables older than it
stay as they are. -/
structure Piece (A : Api) (S S' : Vars) (t : Target) (c c' : Nat) (p : Prog) (l : Asks) (e : Option Wr) : Prop where
  le : c ≤ c'
  asked : asked A p S = l
  after : after A p S = some S'
  brk : breaks A p S = []
  left : S'.vars t = e
  old : ∀ u, Old c u → u ≠ t → S'.vars u = S.vars u
  lent : ∀ r, r < c → S'.lent r = S.lent r

variable {A : Api} {S S' S1 S2 : Vars} {t u : Target} {c c' c1 c2 : Nat} {p q : Prog} {l m : Asks} {e e' : Option Wr}

theorem Piece.append (h : Piece A S S1 t c c1 p l e) (h2 : Piece A S1 S2 t c1 c2 q m e') : Piece A S S2 t c c2 (p ++ q) (l ++ m) e' where
  le := Nat.le_trans h.le h2.le
  asked := by rw [asked_append, h.asked, h.after]; simp [h2.asked]
  after := by rw [after_append, h.after]; exact h2.after
  brk := by rw [breaks_append, h.brk, h.after]; simp [h2.brk]
  left := h2.left
  old u hu hn := by rw [h2.old u (hu.mono h.le) hn, h.old u hu hn]
  lent r hr := by rw [h2.lent r (Nat.lt_of_lt_of_le hr h.le), h.lent r hr]

/-- Code that does nothing with writers. -/
def Quiet (A : Api) (p : Prog) : Prop := ∀ S, asked A p S = [] ∧ after A p S = some S ∧ breaks A p S = []

theorem Quiet.nil : Quiet A .nil := fun _ => ⟨rfl, rfl, rfl⟩

theorem Quiet.append (h : Quiet A p) (h2 : Quiet A q) : Quiet A (p ++ q) := fun S => by
  obtain ⟨a, b, d⟩ := h S
  obtain ⟨a2, b2, d2⟩ := h2 S
  refine ⟨?_, ?_, ?_⟩
  · rw [asked_append, a, b]; simp [a2]
  · rw [after_append, b]; exact b2
  · rw [breaks_append, d, b]; simp [d2]

theorem Quiet.piece (h : Quiet A p) (hc : c ≤ c') (S : Vars) (t : Target) : Piece A S S t c c' p [] (S.vars t) :=
  ⟨hc, (h S).1, (h S).2.1, (h S).2.2, rfl, fun _ _ _ => rfl, fun _ _ => rfl⟩

theorem Piece.before (h : Quiet A p) (hc : c ≤ c1) (h2 : Piece A S S2 t c1 c2 q m e') : Piece A S S2 t c c2 (p ++ q) m e' := by
  have := (h.piece hc S t).append h2
  exact this

theorem Piece.behind (h2 : Piece A S S2 t c c1 q m e') (h : Quiet A p) (hc : c1 ≤ c2) : Piece A S S2 t c c2 (q ++ p) m e' := by
  have := h2.append (h.piece hc S2 t)
  rw [h2.left, List.append_nil] at this
  exact this

theorem Piece.start (h : Piece A S S' t c c' p l e) (hc : c1 ≤ c) : Piece A S S' t c1 c' p l e :=
  ⟨Nat.le_trans hc h.le, h.asked, h.after, h.brk, h.left, fun u hu hn => h.old u (hu.mono hc) hn, fun r hr => h.lent r (Nat.lt_of_lt_of_le hr hc)⟩

/-- Code that leaves its writer as it was leaves all as they were. -/
theorem Piece.off (h : Piece A S S' u c c' p l e) (he : e = S.vars u) (ht : Old c t) : Piece A S S' t c c' p l (S.vars t) := by
  have key : ∀ v, Old c v → S'.vars v = S.vars v := fun v hv => by
    by_cases hvu : v = u
    · rw [hvu, h.left, he]
    · exact h.old v hv hvu
  exact ⟨h.le, h.asked, h.after, h.brk, key t ht, fun v hv _ => key v hv, h.lent⟩

/-- A condition around a block. -/
theorem wrapCond_piece (h : Piece A S S' t c c' p l e) (he : e = S.vars t ∨ e = none) (cr : Option Nat) :
    ∃ S', Piece A S S' t c c' (wrapCond cr p) l e := by
  cases cr with
  | none => exact ⟨S', h⟩
  | some r =>
    refine ⟨S.meet [S'], h.le, ?_, ?_, ?_, ?_, fun u hu hn => ?_, fun _ _ => rfl⟩
    · simp only [wrapCond, Enc.asked, List.append_nil]; exact h.asked
    · simp only [wrapCond, Enc.after, h.after]; rfl
    · simp only [wrapCond, breaks, List.append_nil]; exact h.brk
    · simp only [Vars.meet, List.all_cons, List.all_nil, Bool.and_true, decide_eq_true_eq, h.left]
      rcases he with rfl | rfl
      · simp
      · split
        · rename_i hx; exact hx.symm
        · rfl
    · simp [Vars.meet, h.old u hu hn]

theorem genArgs_quiet : ∀ (es : List Expr) (c : Nat), c ≤ (genArgs c es).1 ∧ Quiet A (genArgs c es).2.1 ∧ (genArgs c es).2.2.length = es.length
  | [], c => ⟨Nat.le_refl _, Quiet.nil, rfl⟩
  | e :: es, c => by
    obtain ⟨h0, h1, h3⟩ := genArgs_quiet es (c + 1)
    simp only [genArgs]
    exact ⟨by omega, h1, by simp [h3]⟩

theorem genLeaf_piece (t : Target) : ∀ (ty : LTy) (src c : Nat) (S : Vars),
    asked A (genLeaf t ty src c).2 S = wantsLeaf (S.vars t) ty ∧ after A (genLeaf t ty src c).2 S = some S ∧ breaks A (genLeaf t ty src c).2 S = []
  | .prim p, src, c, S => ⟨rfl, rfl, rfl⟩
  | .ref n foreign res args, src, c, S => by
    obtain ⟨h0, h1, h3⟩ := genArgs_quiet (A := A) args c
    obtain ⟨a, b, d⟩ := h1 S
    unfold genLeaf
    cases foreign with
    | true =>
      simp only [if_true]
      rw [asked_append, after_append, breaks_append, a, b, d]
      simp [asked, askedOp, Prog.one, wantsLeaf, h3, after, afterOp, breaks]
    | false =>
      simp only [Bool.false_eq_true, if_false]
      rw [asked_append, after_append, breaks_append, a, b, d]
      simp [asked, askedOp, Prog.one, wantsLeaf, after, afterOp, breaks]
  | .array el len, src, c, S => by
    cases len with
    | term e =>
      obtain ⟨h1, h2, h3⟩ := genLeaf_piece t el (c + 2) (c + 3) S
      simp only [genLeaf, wantsLeaf]
      simp [asked, after, breaks, askedOp, afterOp, Prog.one, h1, h2, h3, Vars.meet_self]
    | fixed e =>
      simp only [genLeaf, wantsLeaf]
      cases el.resolved with
      | prim p => exact ⟨rfl, rfl, rfl⟩
      | repr t => exact ⟨rfl, rfl, rfl⟩
      | other =>
        obtain ⟨h1, h2, h3⟩ := genLeaf_piece t el (c + 2) (c + 3) S
        simp [asked, after, breaks, askedOp, afterOp, h1, h2, h3, Vars.meet_self]
    | unbounded =>
      simp only [genLeaf, wantsLeaf]
      cases el.resolved with
      | prim p => exact ⟨rfl, rfl, rfl⟩
      | repr t => exact ⟨rfl, rfl, rfl⟩
      | other =>
        obtain ⟨h1, h2, h3⟩ := genLeaf_piece t el (c + 1) (c + 2) S
        simp [asked, after, breaks, askedOp, afterOp, h1, h2, h3, Vars.meet_self]

theorem genLeaf_piece' (t : Target) (ty : LTy) (src c : Nat) (S : Vars) :
    Piece A S S t c (genLeaf t ty src c).1 (genLeaf t ty src c).2 (wantsLeaf (S.vars t) ty) (S.vars t) := by
  obtain ⟨h1, h2, h3⟩ := genLeaf_piece (A := A) t ty src c S
  exact ⟨genLeaf_le _ _ _ _, h1, h2, h3, rfl, fun _ _ _ => rfl, fun _ _ => rfl⟩

theorem genXforms_old : ∀ (xs : List XformUse) (t : Target) (c : Nat), Old c t → c ≤ (genXforms t c xs).1 ∧ Old (genXforms t c xs).1 (genXforms t c xs).2.2.1
  | [], t, c, h => ⟨Nat.le_refl _, h⟩
  | x :: xs, t, c, h => by
    unfold genXforms
    cases x.cond with
    | some e =>
      have h0 := (genArgs_quiet (A := ⟨fun _ => ⟨false, false⟩, fun _ _ => false⟩) x.args (c + 1)).1
      have := genXforms_old xs (.stream (genArgs (c + 1) x.args).1) ((genArgs (c + 1) x.args).1 + 2) (by simp [Old])
      exact ⟨by simp only; omega, this.2⟩
    | none =>
      have h0 := (genArgs_quiet (A := ⟨fun _ => ⟨false, false⟩, fun _ _ => false⟩) x.args c).1
      have := genXforms_old xs (.stream (genArgs c x.args).1) ((genArgs c x.args).1 + 1) (by simp [Old])
      exact ⟨by simp only; omega, this.2⟩

theorem Prog.append_assoc' (p q r : Prog) : p ++ q ++ r = p ++ (q ++ r) := by
  show (p.append q).append r = p.append (q.append r)
  induction p with
  | nil => rfl
  | op i rest ih => simp only [Prog.append, ih]
  | loop idx len inner rest _ ih => simp only [Prog.append, ih]
  | cond c inner rest _ ih => simp only [Prog.append, ih]
  | condWrap c pre u n o x a rest _ ih => simp only [Prog.append, ih]
  | block inner rest _ ih => simp only [Prog.append, ih]

/-- Code between the opening and the closing of a stream. -/
theorem bracket {po pm pc : Prog} {S3 : Vars} {v : Target} {cc c3 : Nat} {lo lm : Asks} {em el : Option Wr}
    (ho : asked A po S = lo ∧ after A po S = some S1 ∧ breaks A po S = []) (h : Piece A S1 S2 v cc c3 pm lm em) (hc : c ≤ cc)
    (hcl : asked A pc S2 = m ∧ after A pc S2 = some S3 ∧ breaks A pc S2 = []) (ht : S3.vars t = el)
    (hv : ∀ u, Old c u → u ≠ t → S3.vars u = S.vars u) (hl : ∀ r, r < c → S3.lent r = S.lent r) :
    Piece A S S3 t c c3 (po ++ (pm ++ pc)) (lo ++ lm ++ m) el := by
  obtain ⟨o1, o2, o3⟩ := ho
  obtain ⟨k1, k2, k3⟩ := hcl
  refine ⟨Nat.le_trans hc h.le, ?_, ?_, ?_, ht, hv, hl⟩
  · rw [asked_append, o1, o2]; simp [asked_append, h.asked, h.after, k1]
  · rw [after_append, o2]; simp [after_append, h.after, k2]
  · rw [breaks_append, o3, o2]; simp [breaks_append, h.brk, h.after, k3]

theorem release_vars {S : Vars} {r : Nat} {t : Target} {w : Option Wr} (h : S.lent r = w.map fun w => (t, w)) (ht : S.vars t = none) :
    (S.release r).vars t = w ∧ (∀ u, u ≠ t → (S.release r).vars u = S.vars u) ∧ ∀ k, k ≠ r → (S.release r).lent k = S.lent k := by
  unfold Vars.release
  rw [h]
  cases w with
  | none => exact ⟨ht, fun _ _ => rfl, fun _ _ => rfl⟩
  | some w => exact ⟨upd_same _ _ _, fun u hu => upd_ne _ _ hu, fun k hk => upd_ne _ _ hk⟩

theorem wantsAround_cons (A : Api) (x : XformUse) (xs : List XformUse) (w : Option Wr) (lb : Asks) (eb : Option Wr) :
    wantsAround A (x :: xs) w lb eb =
      wantsOpen x w ++ wantsAround A xs (behindOne x w) lb eb ++ [(.write, leftAround A xs (behindOne x w) eb)] := by
  cases xs <;> rfl

theorem around_piece : ∀ (xs : List XformUse) (t : Target) (c : Nat) (S : Vars), Old c t → ∀ (c3 : Nat) (pb : Prog) (lb : Asks) (eb : Option Wr),
    (∀ S1, S1.vars (genXforms t c xs).2.2.1 = behindAll (S.vars t) xs →
      ∃ S2, Piece A S1 S2 (genXforms t c xs).2.2.1 (genXforms t c xs).1 c3 pb lb eb) →
    ∃ S', Piece A S S' t c c3 ((genXforms t c xs).2.1 ++ pb ++ (genXforms t c xs).2.2.2) (wantsAround A xs (S.vars t) lb eb)
      (leftAround A xs (S.vars t) eb)
  | [], t, c, S, ho, c3, pb, lb, eb, hb => by
    obtain ⟨S2, h⟩ := hb S rfl
    refine ⟨S2, ?_⟩
    have := Piece.before (c := c) Quiet.nil (Nat.le_refl _) (h.behind Quiet.nil (Nat.le_refl _))
    rw [← Prog.append_assoc'] at this
    exact this
  | x :: xs, t, c, S, ho, c3, pb, lb, eb, hb => by
    rw [wantsAround_cons]
    cases hx : x.cond with
    | some ex =>
      have hbo : behindOne x (S.vars t) = some .dyn := by simp [behindOne, hx]
      obtain ⟨h0, hq, -⟩ := genArgs_quiet (A := A) x.args (c + 1)
      simp only [genXforms, hx] at hb ⊢
      generalize hg : genArgs (c + 1) x.args = ga at *
      obtain ⟨c1, pa, rs⟩ := ga
      simp only at hb h0 hq ⊢
      have hts : t ≠ .stream c1 := ho.ne_stream (by omega)
      have hv : (S.condWrap A t c1 (c1 + 1) x.name).vars (.stream c1) = behindOne x (S.vars t) := by
        rw [hbo]; simp [Vars.condWrap, Vars.set]
      obtain ⟨S2, h2⟩ := around_piece xs (.stream c1) (c1 + 2) (S.condWrap A t c1 (c1 + 1) x.name) (by simp [Old]) c3 pb lb eb
        (fun S1 h1 => hb S1 (by rw [h1, hv, behindAll]))
      rw [hv] at h2
      have hl1 : S2.lent c1 = none := by
        rw [h2.lent c1 (by omega)]; simp [Vars.condWrap, Vars.set, Vars.lend, upd]
      have hl2 : (S2.set (.stream c1) none).lent (c1 + 1) = (A.left x.name (S.vars t)).map fun w => (t, w) := by
        show S2.lent (c1 + 1) = _
        rw [h2.lent _ (by omega)]; simp [Vars.condWrap, Vars.set, Vars.lend]
      have hvo : ∀ u, Old c u → u ≠ t → (S2.set (.stream c1) none).vars u = S.vars u := fun u hu hn => by
        have hus : u ≠ .stream c1 := hu.ne_stream (by omega)
        simp only [Vars.set, upd_ne _ _ hus]
        rw [h2.old u (hu.mono (by omega)) hus]
        simp [Vars.condWrap, Vars.set, Vars.lend, upd_ne _ _ hus, upd_ne _ _ hn]
      have hvt : (S2.set (.stream c1) none).vars t = none := by
        simp only [Vars.set, upd_ne _ _ hts]
        rw [h2.old t (ho.mono (by omega)) hts]
        simp [Vars.condWrap, Vars.set, Vars.lend, upd_ne _ _ hts]
      have hr1 : (S2.set (.stream c1) none).release c1 = S2.set (.stream c1) none := by
        simp [Vars.release, Vars.set, hl1]
      obtain ⟨r1, r2, r3⟩ := release_vars hl2 hvt
      obtain ⟨q1, q2, q3⟩ := hq S
      refine ⟨(S2.set (.stream c1) none).release (c1 + 1), ?_⟩
      have := bracket (A := A) (S := S) (t := t) (c := c) (po := .op (.eval c ex) (.condWrap c pa t c1 (c1 + 1) x.name rs .nil))
        (pc := .op (.endStream c1) (.one (.drop (c1 + 1)))) (lo := wantsOpen x (S.vars t)) (S3 := (S2.set (.stream c1) none).release (c1 + 1))
        (m := [(.write, leftAround A xs (behindOne x (S.vars t)) eb)])
        ⟨by simp [asked, askedOp, afterOp, q1, wantsOpen, hx], by simp [after, afterOp, q2, S.meet_self], by simp [breaks, afterOp, q3]⟩ h2 (by omega)
        ⟨by simp [asked, askedOp, Prog.one, h2.left], by simp only [after, afterOp, Prog.one, hr1], by simp [breaks, afterOp, Prog.one]⟩ r1
        (fun u hu hn => by rw [r2 u hn, hvo u hu hn])
        (fun r hr => by
          rw [r3 r (by omega)]
          show S2.lent r = _
          rw [h2.lent r (by omega)]
          have e1 : r ≠ c1 := by omega
          have e2 : r ≠ c1 + 1 := by omega
          simp [Vars.condWrap, Vars.set, Vars.lend, upd_ne _ _ e1, upd_ne _ _ e2])
      simp only [Prog.append_assoc'] at this ⊢
      exact this
    | none =>
      have hbo : behindOne x (S.vars t) = (S.vars t).map (.xf x.name) := by simp [behindOne, hx]
      obtain ⟨h0, hq, -⟩ := genArgs_quiet (A := A) x.args c
      simp only [genXforms, hx] at hb ⊢
      generalize hg : genArgs c x.args = ga at *
      obtain ⟨c1, pa, rs⟩ := ga
      simp only at hb h0 hq ⊢
      have hts : t ≠ .stream c1 := ho.ne_stream (by omega)
      have hv : (afterOp A S (.wrap t c1 x.name rs)).vars (.stream c1) = behindOne x (S.vars t) := by
        rw [hbo]; simp [afterOp, Vars.set]
      obtain ⟨S2, h2⟩ := around_piece xs (.stream c1) (c1 + 1) (afterOp A S (.wrap t c1 x.name rs)) (by simp [Old]) c3 pb lb eb
        (fun S1 h1 => hb S1 (by rw [h1, hv, behindAll]))
      rw [hv] at h2
      have hl2 : (S2.set (.stream c1) none).lent c1 = (A.left x.name (S.vars t)).map fun w => (t, w) := by
        show S2.lent c1 = _
        rw [h2.lent _ (by omega)]; simp [afterOp, Vars.set, Vars.lend]
      have hvo : ∀ u, Old c u → u ≠ t → (S2.set (.stream c1) none).vars u = S.vars u := fun u hu hn => by
        have hus : u ≠ .stream c1 := hu.ne_stream (by omega)
        simp only [Vars.set, upd_ne _ _ hus]
        rw [h2.old u (hu.mono (by omega)) hus]
        simp [afterOp, Vars.set, Vars.lend, upd_ne _ _ hus, upd_ne _ _ hn]
      have hvt : (S2.set (.stream c1) none).vars t = none := by
        simp only [Vars.set, upd_ne _ _ hts]
        rw [h2.old t (ho.mono (by omega)) hts]
        simp [afterOp, Vars.set, Vars.lend, upd_ne _ _ hts]
      obtain ⟨r1, r2, r3⟩ := release_vars hl2 hvt
      obtain ⟨q1, q2, q3⟩ := hq S
      refine ⟨(S2.set (.stream c1) none).release c1, ?_⟩
      have := bracket (A := A) (S := S) (t := t) (c := c) (po := pa ++ .one (.wrap t c1 x.name rs))
        (pc := .one (.endStream c1)) (lo := wantsOpen x (S.vars t)) (S3 := (S2.set (.stream c1) none).release c1)
        (m := [(.write, leftAround A xs (behindOne x (S.vars t)) eb)])
        ⟨by rw [asked_append, q1, q2]; simp [asked, askedOp, Prog.one, wantsOpen, hx], by rw [after_append, q2]; simp [after, Prog.one],
          by rw [breaks_append, q3, q2]; simp [breaks, Prog.one]⟩ h2 (by omega)
        ⟨by simp [asked, askedOp, Prog.one, h2.left], by simp [after, afterOp, Prog.one], by simp [breaks, Prog.one]⟩ r1
        (fun u hu hn => by rw [r2 u hn, hvo u hu hn])
        (fun r hr => by
          rw [r3 r (by omega)]
          show S2.lent r = _
          rw [h2.lent r (by omega)]
          have e1 : r ≠ c1 := by omega
          simp [afterOp, Vars.set, Vars.lend, upd_ne _ _ e1])
      simp only [Prog.append_assoc'] at this ⊢
      exact this

/-! ### What is left -/

/-- A writer is left as it was or taken away; buffers are never taken away. -/
def Keeps (w e : Option Wr) : Prop := e = w ∨ (e = none ∧ w ≠ some .vec)

theorem Keeps.refl (w : Option Wr) : Keeps w w := .inl rfl

theorem Keeps.trans {w e f : Option Wr} (h : Keeps w e) (h2 : Keeps e f) : Keeps w f := by
  rcases h with rfl | ⟨rfl, hw⟩
  · exact h2
  · rcases h2 with rfl | ⟨rfl, -⟩ <;> exact .inr ⟨rfl, hw⟩

theorem Keeps.or {w e : Option Wr} (h : Keeps w e) : e = w ∨ e = none := h.imp id And.left

theorem Keeps.vec {e : Option Wr} (h : Keeps (some .vec) e) : e = some .vec := by
  rcases h with h | ⟨-, h⟩
  · exact h
  · exact absurd rfl h

theorem left_keeps (A : Api) (x : String) (w : Option Wr) : Keeps w (A.left x w) := by
  cases w with
  | none => exact .inl rfl
  | some w =>
    by_cases h : A.returns x w = true
    · exact .inl (by simp [Api.left, h])
    · refine .inr ⟨by simp [Api.left, h], fun e => h ?_⟩
      cases e
      simp [Api.returns]

theorem leftAround_keeps (A : Api) (xs : List XformUse) (w e : Option Wr) (h : Keeps (behindAll w xs) e) : Keeps w (leftAround A xs w e) := by
  cases xs with
  | nil => exact h
  | cons x xs => exact left_keeps A x.name w

theorem leftField_keeps (A : Api) (w : Option Wr) (a : FAttr) : Keeps w (leftField A w a) := leftAround_keeps A _ _ _ (Keeps.refl _)

theorem wantsFlush_keeps (A : Api) (p : Plan) : ∀ ds w, Keeps w (wantsFlush A p ds w).2.2
  | [], w => Keeps.refl w
  | d :: ds, w => by
    have ih := wantsFlush_keeps A p ds w
    simp only [wantsFlush]
    split
    · simp only
      cases (wantsFlush A p ds w).2.1 with
      | nil => exact ih.trans (leftField_keeps _ _ _)
      | cons _ _ => exact ih
    · exact ih

theorem wantsItems_keeps (A : Api) : ∀ (fs : Fields) p ds w, Keeps w (wantsItems A fs p ds w).2
  | .nil, p, ds, w => Keeps.refl w
  | .pad _ _ rest, p, ds, w => by
    simp only [wantsItems]
    exact (wantsFlush_keeps A p ds w).trans (wantsItems_keeps A rest _ _ _)
  | .leaf a ty rest, p, ds, w => by
    simp only [wantsItems]
    split
    · refine Keeps.trans (e := kept (leftField A w a) w ds) ?_
        ((wantsFlush_keeps A p ds _).trans (wantsItems_keeps A rest _ _ _))
      cases ds with
      | nil => exact leftField_keeps _ _ _
      | cons d ds => exact Keeps.refl _
    · exact wantsItems_keeps A rest _ _ _
  | .cont a len items rest, p, ds, w => by
    simp only [wantsItems]
    refine Keeps.trans ?_ ((wantsFlush_keeps A _ ds _).trans (wantsItems_keeps A rest _ _ _))
    cases ds with
    | nil =>
      refine leftAround_keeps A _ _ _ ?_
      cases len with
      | none => exact wantsItems_keeps A items p [] _
      | some e => exact Keeps.refl _
    | cons d ds => exact Keeps.refl _

/-! ### Fields -/

theorem genCond_quiet (cond : Option Expr) (c : Nat) : c ≤ (genCond cond c).1 ∧ Quiet A (genCond cond c).2.1 := by
  cases cond with
  | none => exact ⟨Nat.le_refl _, Quiet.nil⟩
  | some e => exact ⟨Nat.le_succ _, fun _ => ⟨rfl, rfl, rfl⟩⟩

theorem genField_piece (t : Target) (src : Nat) (a : FAttr) (ty : LTy) (c : Nat) (S : Vars) (ho : Old c t) :
    ∃ S', Piece A S S' t c (genField t src a ty c).1 (genField t src a ty c).2 (wantsField A (S.vars t) a ty) (leftField A (S.vars t) a) := by
  obtain ⟨h1, q1⟩ := genCond_quiet (A := A) a.cond c
  have hx := genXforms_old a.xfs t (genCond a.cond c).1 (ho.mono h1)
  have key : ∀ (c4 : Nat) (pb : Prog), (∀ S1 : Vars, Piece A S1 S1 (genXforms t (genCond a.cond c).1 a.xfs).2.2.1 (genXforms t (genCond a.cond c).1 a.xfs).1 c4 pb
      (wantsLeaf (S1.vars (genXforms t (genCond a.cond c).1 a.xfs).2.2.1) ty) (S1.vars (genXforms t (genCond a.cond c).1 a.xfs).2.2.1)) →
      ∃ S', Piece A S S' t c c4 ((genCond a.cond c).2.1 ++ wrapCond (genCond a.cond c).2.2
        ((genXforms t (genCond a.cond c).1 a.xfs).2.1 ++ pb ++ (genXforms t (genCond a.cond c).1 a.xfs).2.2.2))
        (wantsField A (S.vars t) a ty) (leftField A (S.vars t) a) := by
    intro c4 pb hb
    obtain ⟨S2, h2⟩ := around_piece (A := A) a.xfs t (genCond a.cond c).1 S (ho.mono h1) c4 pb (wantsLeaf (behindAll (S.vars t) a.xfs) ty)
      (behindAll (S.vars t) a.xfs) (fun S1 e1 => ⟨S1, by have := hb S1; rw [e1] at this; exact this⟩)
    obtain ⟨S3, h3⟩ := wrapCond_piece h2 (leftField_keeps A (S.vars t) a).or (genCond a.cond c).2.2
    exact ⟨S3, Piece.before q1 h1 h3⟩
  unfold genField
  simp only
  split
  · refine key _ _ fun S1 => ?_
    have := genLeaf_piece' (A := A) (genXforms t (genCond a.cond c).1 a.xfs).2.2.1 ty (genXforms t (genCond a.cond c).1 a.xfs).1
      ((genXforms t (genCond a.cond c).1 a.xfs).1 + 1) S1
    exact Piece.before (p := .one (.nullCheck src (genXforms t (genCond a.cond c).1 a.xfs).1 missingMsg)) (fun _ => ⟨rfl, rfl, rfl⟩) (Nat.le_succ _) this
  · exact key _ _ fun S1 => genLeaf_piece' _ _ _ _ _

/-- The deferred fields have buffers of their own. -/
def Bufs (S : Vars) (t : Target) (c : Nat) (ds : List Deferred) : Prop := ∀ d ∈ ds, d.buf < c ∧ Target.buf d.buf ≠ t ∧ S.vars (.buf d.buf) = some .vec

theorem Bufs.step {ds : List Deferred} (hb : Bufs S t c ds) (h : Piece A S S' t c c' p l e) : Bufs S' t c' ds := fun d hd => by
  obtain ⟨h1, h2, h3⟩ := hb d hd
  exact ⟨Nat.lt_of_lt_of_le h1 h.le, h2, by rw [h.old (.buf d.buf) h1 h2]; exact h3⟩

def shapes (ds : List Deferred) : List (FAttr × LTy) := ds.map fun d => (d.attr, d.ty)

theorem genBlen_quiet (res : String → Option Nat) (a : FAttr) (c : Nat) : Quiet A (genBlen res a c) := by
  unfold genBlen
  split <;> exact fun _ => ⟨rfl, rfl, rfl⟩

theorem genFlush_piece (t : Target) (res : String → Option Nat) (p : Plan) (hp : ∀ fs, allResolved res fs = p.known fs) :
    ∀ (ds : List Deferred) (c : Nat) (S : Vars), Old c t → Bufs S t c ds →
    (∃ S', Piece A S S' t c (genFlush t res ds c).1 (genFlush t res ds c).2.1 (wantsFlush A p (shapes ds) (S.vars t)).1
      (wantsFlush A p (shapes ds) (S.vars t)).2.2) ∧
    shapes (genFlush t res ds c).2.2 = (wantsFlush A p (shapes ds) (S.vars t)).2.1 ∧ ∀ d ∈ (genFlush t res ds c).2.2, d ∈ ds
  | [], c, S, ho, hb => ⟨⟨S, Quiet.nil.piece (Nat.le_refl _) S t⟩, rfl, fun _ h => h⟩
  | d :: ds, c, S, ho, hb => by
    obtain ⟨⟨S1, h1⟩, e1, m1⟩ := genFlush_piece t res p hp ds c S ho fun x hx => hb x (List.mem_cons_of_mem _ hx)
    have hb1 := hb.step h1
    simp only [genFlush, wantsFlush, shapes, List.map_cons, hp]
    simp only [shapes] at e1 h1
    split
    · generalize genFlush t res ds c = gf at *
      obtain ⟨c1, p1, rest⟩ := gf
      generalize wantsFlush A p (ds.map fun d => (d.attr, d.ty)) (S.vars t) = wf at *
      obtain ⟨lf, rf, wf⟩ := wf
      simp only at h1 e1 m1 hb1 ⊢
      subst e1
      have hl := h1.le
      refine ⟨?_, rfl, fun x hx => List.mem_cons_of_mem _ (m1 x hx)⟩
      cases rest with
      | nil =>
        simp only [nextTarget, whereTo, List.map_nil]
        obtain ⟨S2, h2⟩ := genField_piece (A := A) t c1 d.attr d.ty (c1 + 1) S1 (ho.mono (by omega))
        rw [h1.left] at h2
        refine ⟨S2, ?_⟩
        have hbd := (hb1 d (List.mem_cons_self ..))
        have hem : Piece A S2 S2 t (genField t c1 d.attr d.ty (c1 + 1)).1 (genField t c1 d.attr d.ty (c1 + 1)).1 (.one (.emitBuf t d.buf))
            [(.write, leftField A wf d.attr), (.look, some .vec)] (leftField A wf d.attr) := by
          refine ⟨Nat.le_refl _, ?_, rfl, rfl, h2.left, fun _ _ _ => rfl, fun _ _ => rfl⟩
          simp only [Prog.one, asked, askedOp, List.append_nil, h2.left, h2.old (.buf d.buf) (show d.buf < c1 + 1 by omega) hbd.2.1, hbd.2.2]
        have := (h1.append ((Piece.before (genBlen_quiet res d.attr c1) (Nat.le_succ _) h2).append hem))
        simp only [Prog.append_assoc', List.append_assoc] at this ⊢
        exact this
      | cons d' rest =>
        simp only [nextTarget, whereTo, List.map_cons]
        have hd' := hb1 d' (List.mem_cons_of_mem _ (m1 d' (List.mem_cons_self ..)))
        obtain ⟨S2, h2⟩ := genField_piece (A := A) (.buf d'.buf) c1 d.attr d.ty (c1 + 1) S1 (show d'.buf < c1 + 1 by omega)
        rw [hd'.2.2] at h2
        have hk := (leftField_keeps A (some .vec) d.attr).vec
        have h2' := h2.off (t := t) (by rw [hk, hd'.2.2]) (ho.mono (by omega))
        refine ⟨S2, ?_⟩
        have hbd := (hb1 d (List.mem_cons_self ..))
        have hem : Piece A S2 S2 t (genField (.buf d'.buf) c1 d.attr d.ty (c1 + 1)).1 (genField (.buf d'.buf) c1 d.attr d.ty (c1 + 1)).1
            (.one (.emitBuf (.buf d'.buf) d.buf))
            [(.write, leftField A (some .vec) d.attr), (.look, some .vec)] wf := by
          refine ⟨Nat.le_refl _, ?_, rfl, rfl, h2'.left.trans h1.left, fun _ _ _ => rfl, fun _ _ => rfl⟩
          simp only [Prog.one, asked, askedOp, List.append_nil, h2.left, h2'.old (.buf d.buf) (show d.buf < c1 + 1 by omega) hbd.2.1, hbd.2.2]
        have := (h1.append ((Piece.before (genBlen_quiet res d.attr c1) (Nat.le_succ _) h2').append hem))
        simp only [Prog.append_assoc', List.append_assoc] at this ⊢
        exact this
    · refine ⟨⟨S1, h1⟩, by rw [← e1]; rfl, fun x hx => ?_⟩
      rcases List.mem_cons.1 hx with rfl | hx
      · exact List.mem_cons_self ..
      · exact List.mem_cons_of_mem _ (m1 x hx)

/-! ### Containers -/

theorem genNullchecks_quiet : ∀ (fs : Fields) (c : Nat), c ≤ (genNullchecks fs c).1 ∧ Quiet A (genNullchecks fs c).2
  | .nil, c => ⟨Nat.le_refl _, Quiet.nil⟩
  | .pad _ _ rest, c => genNullchecks_quiet rest c
  | .cont _ _ _ rest, c => genNullchecks_quiet rest c
  | .leaf a _ rest, c => by
    unfold genNullchecks
    split
    · exact genNullchecks_quiet rest c
    · obtain ⟨h1, h2⟩ := genNullchecks_quiet rest (c + 1)
      exact ⟨by simp only; omega, h2⟩

/-- A container with a length: its buffer, its content, its end. -/
theorem boxed_piece {t' : Target} {name : String} {len : Option Expr} {g g5 : GState} {pm : Prog} {lm : Asks} {eb : Option Wr} {p2 : Plan} {S : Vars}
    (ho : Old g.c t') (hpend : g5.pending = p2.pending)
    (h : ∀ S1, S1.vars (genOpen t' name len g).2.2 = boxed (S.vars t') len →
      ∃ S2, Piece A S1 S2 (genOpen t' name len g).2.2 (genOpen t' name len g).1.c g5.c pm lm eb) :
    ∃ S', Piece A S S' t' g.c (genClose t' name len (genOpen t' name len g).2.2 g5).1.c
      ((genOpen t' name len g).2.1 ++ pm ++ (genClose t' name len (genOpen t' name len g).2.2 g5).2)
      (lm ++ wantsClose p2 name len (S.vars t') eb) (if len.isSome then S.vars t' else eb) := by
  cases len with
  | none =>
    obtain ⟨S2, h2⟩ := h S rfl
    refine ⟨S2, ?_⟩
    have hcl : genClose t' name none t' g5 = (g5, .nil) := by cases t' <;> rfl
    simp only [genOpen, hcl, wantsClose, Option.isSome_none, Bool.false_eq_true, if_false, List.append_nil] at h2 ⊢
    have := Piece.before (c := g.c) Quiet.nil (Nat.le_refl _) (h2.behind Quiet.nil (Nat.le_refl _))
    rw [← Prog.append_assoc'] at this
    exact this
  | some ex =>
    have hob : ∃ c' po, genOpen t' name (some ex) g = ({ g with c := c' }, po, .buf g.c) ∧ g.c < c' ∧
        ∀ S, asked A po S = [] ∧ after A po S = some (S.set (.buf g.c) (some .vec)) ∧ breaks A po S = [] := by
      simp only [genOpen]
      split
      · exact ⟨_, _, rfl, by omega, fun S => ⟨rfl, rfl, rfl⟩⟩
      · exact ⟨_, _, rfl, by omega, fun S => ⟨rfl, rfl, rfl⟩⟩
    obtain ⟨c', po, hg, hc, hpo⟩ := hob
    rw [hg] at h ⊢
    simp only at h ⊢
    obtain ⟨S2, h2⟩ := h (S.set (.buf g.c) (some .vec)) (by simp [Vars.set, boxed])
    have hv : ∀ u, Old g.c u → S2.vars u = S.vars u := fun u hu => by
      have hub : u ≠ .buf g.c := hu.ne_buf (Nat.le_refl _)
      rw [h2.old u (hu.mono (by omega)) hub]
      simp [Vars.set, upd_ne _ _ hub]
    have hcl : asked A (genClose t' name (some ex) (.buf g.c) g5).2 S2 = wantsClose p2 name (some ex) (S.vars t') eb ∧
        after A (genClose t' name (some ex) (.buf g.c) g5).2 S2 = some S2 ∧ breaks A (genClose t' name (some ex) (.buf g.c) g5).2 S2 = [] := by
      simp only [genClose, wantsClose, Option.isSome_some, if_true, ← hpend]
      split <;> simp [asked, askedOp, after, afterOp, breaks, Prog.one, h2.left, hv t' ho]
    have hge : g5.c ≤ (genClose t' name (some ex) (.buf g.c) g5).1.c := by
      simp only [genClose]
      split
      · exact Nat.le_succ _
      · exact Nat.le_refl _
    refine ⟨S2, ?_⟩
    have := bracket (A := A) (c := g.c) (t := t') (el := S.vars t') (hpo S) h2 (by omega) hcl (hv t' ho) (fun u hu _ => hv u hu)
      (fun r hr => by rw [h2.lent r (by omega)]; rfl)
    simp only [Prog.append_assoc', List.nil_append, Option.isSome_some, if_true] at this ⊢
    exact ⟨Nat.le_trans this.le hge, this.asked, this.after, this.brk, this.left, this.old, this.lent⟩

theorem realTarget_eq (t : Target) (autos : List Deferred) :
    (autos = [] ∧ realTarget t autos = t) ∨ ∃ d ∈ autos, autos ≠ [] ∧ realTarget t autos = .buf d.buf := by
  unfold realTarget
  cases h : autos.getLast? with
  | none => exact .inl ⟨List.getLast?_eq_none_iff.1 h, rfl⟩
  | some d =>
    have hm := List.mem_of_getLast? h
    exact .inr ⟨d, hm, List.ne_nil_of_mem hm, rfl⟩

/-- Code for the writer that items are written to, said about the container's writer. -/
theorem real_piece {autos : List Deferred} (ho : Old c t) (hb : Bufs S t c autos) {f : Option Wr → Asks} {g : Option Wr → Option Wr}
    (hg : ∀ w, Keeps w (g w))
    (h : ∀ u, Old c u → u = realTarget t autos → ∃ S', Piece A S S' u c c' p (f (S.vars u)) (g (S.vars u))) :
    ∃ S', Piece A S S' t c c' p (f (whereTo (S.vars t) (shapes autos))) (kept (g (S.vars t)) (S.vars t) (shapes autos)) := by
  rcases realTarget_eq t autos with ⟨h1, h2⟩ | ⟨d, hd, h1, h2⟩
  · subst h1
    exact h t ho h2.symm
  · obtain ⟨b1, b2, b3⟩ := hb d hd
    obtain ⟨S', h3⟩ := h (.buf d.buf) b1 h2.symm
    rw [b3] at h3
    have := h3.off (t := t) (by rw [(hg _).vec, b3]) ho
    cases autos with
    | nil => exact absurd rfl h1
    | cons x xs => exact ⟨S', this⟩

theorem Bufs.sub {ds es : List Deferred} (hb : Bufs S t c ds) (h : ∀ d ∈ es, d ∈ ds) : Bufs S t c es := fun d hd => hb d (h d hd)

/-- What a container asks of the writer it is written to. -/
def wantsBox (A : Api) (p : Plan) (xs : List XformUse) (name : String) (len : Option Expr) (items : Fields) (w : Option Wr) : Asks :=
  wantsAround A xs w ((wantsItems A items p [] (boxed (behindAll w xs) len)).1 ++
      wantsClose (planItems items p) name len (behindAll w xs) (wantsItems A items p [] (boxed (behindAll w xs) len)).2)
    (if len.isSome then behindAll w xs else (wantsItems A items p [] (boxed (behindAll w xs) len)).2)

def leftBox (A : Api) (p : Plan) (xs : List XformUse) (len : Option Expr) (items : Fields) (w : Option Wr) : Option Wr :=
  leftAround A xs w (if len.isSome then behindAll w xs else (wantsItems A items p [] (boxed (behindAll w xs) len)).2)

theorem leftBox_keeps (A : Api) (p : Plan) (xs : List XformUse) (len : Option Expr) (items : Fields) (w : Option Wr) :
    Keeps w (leftBox A p xs len items w) := by
  refine leftAround_keeps A _ _ _ ?_
  cases len with
  | none => exact wantsItems_keeps A items p [] _
  | some e => exact Keeps.refl _

theorem genOpen_old (t : Target) (name : String) (len : Option Expr) (g : GState) (h : Old g.c t) :
    Old (genOpen t name len g).1.c (genOpen t name len g).2.2 := by
  cases len with
  | none => exact h
  | some e => simp only [genOpen]; split <;> simp [Old]

/-- A container: transforms, buffer, some code that does nothing with writers, items. -/
theorem box_piece {u : Target} {c1 : Nat} {xs : List XformUse} {name : String} {len : Option Expr} {items : Fields} {g : GState} {p : Plan} {cond : Bool} {c4 : Nat}
    {p4 : Prog} {S : Vars} (hp : PlanRel g p) (ho : Old c1 u) (hq : Quiet A p4)
    (hc : (genOpen (genXforms u c1 xs).2.2.1 name len { g with c := (genXforms u c1 xs).1 }).1.c ≤ c4)
    (ih : ∀ t g S, PlanRel g p → Old g.c t →
      (∃ S', Piece A S S' t g.c (genItems cond t items g []).1.c (genItems cond t items g []).2 (wantsItems A items p [] (S.vars t)).1
        (wantsItems A items p [] (S.vars t)).2) ∧ PlanRel (genItems cond t items g []).1 (planItems items p)) :
    let x := genXforms u c1 xs
    let o := genOpen x.2.2.1 name len { g with c := x.1 }
    let i := genItems cond o.2.2 items { o.1 with c := c4 } []
    let k := genClose x.2.2.1 name len o.2.2 i.1
    (∃ S', Piece A S S' u c1 k.1.c (x.2.1 ++ o.2.1 ++ p4 ++ i.2 ++ k.2 ++ x.2.2.2) (wantsBox A p xs name len items (S.vars u))
      (leftBox A p xs len items (S.vars u))) ∧ PlanRel k.1 ((planItems items p).close name len) := by
  intro x o i k
  have hx := genXforms_old xs u c1 ho
  have hoo : Old o.1.c o.2.2 := genOpen_old _ _ _ _ hx.2
  have hpo : PlanRel { o.1 with c := c4 } p := by
    obtain ⟨c', -, e⟩ := genOpen_spec x.2.2.1 name len { g with c := x.1 }
    have : o.1 = { g with c := c' } := e
    rw [this]
    exact hp.setC _
  have hpi : PlanRel i.1 (planItems items p) := (ih o.2.2 { o.1 with c := c4 } S hpo (hoo.mono hc)).2
  constructor
  · obtain ⟨S', h⟩ := around_piece (A := A) xs u c1 S ho k.1.c (o.2.1 ++ (p4 ++ i.2) ++ k.2)
      ((wantsItems A items p [] (boxed (behindAll (S.vars u) xs) len)).1 ++
        wantsClose (planItems items p) name len (behindAll (S.vars u) xs) (wantsItems A items p [] (boxed (behindAll (S.vars u) xs) len)).2)
      (if len.isSome then behindAll (S.vars u) xs else (wantsItems A items p [] (boxed (behindAll (S.vars u) xs) len)).2)
      (fun S1 e1 => by
        rw [← e1]
        exact boxed_piece (A := A) (g := { g with c := x.1 }) (g5 := i.1) hx.2 hpi.pending (fun S2 e2 => by
          obtain ⟨S3, h3⟩ := (ih o.2.2 { o.1 with c := c4 } S2 hpo (hoo.mono hc)).1
          rw [e2] at h3
          exact ⟨S3, Piece.before hq hc h3⟩))
    refine ⟨S', ?_⟩
    simp only [Prog.append_assoc'] at h ⊢
    exact h
  · refine (genClose_spec hpi x.2.2.1 name len o.2.2 fun hl => ?_).2.2.1
    have := genOpen_target x.2.2.1 name len { g with c := x.1 }
    rw [if_pos hl] at this
    exact ⟨_, this⟩

theorem genItems_piece : ∀ (fs : Fields) (cond : Bool) (t : Target) (g : GState) (autos : List Deferred) (p : Plan) (S : Vars),
    PlanRel g p → Old g.c t → Bufs S t g.c autos →
    (∃ S', Piece A S S' t g.c (genItems cond t fs g autos).1.c (genItems cond t fs g autos).2 (wantsItems A fs p (shapes autos) (S.vars t)).1
      (wantsItems A fs p (shapes autos) (S.vars t)).2) ∧ PlanRel (genItems cond t fs g autos).1 (planItems fs p)
  | .nil, cond, t, g, autos, p, S, hp, ho, hb => ⟨⟨S, Quiet.nil.piece (Nat.le_refl _) S t⟩, hp.mk' _ rfl rfl⟩
  | .pad n e rest, cond, t, g, autos, p, S, hp, ho, hb => by
    obtain ⟨S1, h1⟩ := real_piece (A := A) (S := S) (c := g.c) (c' := g.c + 1) (p := .op (.eval g.c e) (.one (.pad (realTarget t autos) g.c)))
      ho hb (f := fun w => [(.write, w)]) (g := id) Keeps.refl
      (fun u hu e => ⟨S, Nat.le_succ _, by rw [e]; rfl, rfl, rfl, rfl, fun _ _ _ => rfl, fun _ _ => rfl⟩)
    have hw : (kept (id (S.vars t)) (S.vars t) (shapes autos)) = S.vars t := by cases shapes autos <;> rfl
    rw [hw] at h1
    obtain ⟨⟨S2, h2⟩, e2, m2⟩ := genFlush_piece (A := A) t g.resolved p hp.known autos (g.c + 1) S1 (ho.mono (by omega)) (hb.step h1)
    rw [h1.left] at h2 e2
    obtain ⟨⟨S3, h3⟩, r3⟩ := genItems_piece rest cond t { g with c := (genFlush t g.resolved autos (g.c + 1)).1 }
      (genFlush t g.resolved autos (g.c + 1)).2.2 p S2 (hp.setC _) (ho.mono (Nat.le_trans (Nat.le_succ _) h2.le)) (((hb.step h1).step h2).sub m2)
    rw [h2.left, e2] at h3
    refine ⟨⟨S3, ?_⟩, r3⟩
    have := (h1.append h2).append h3
    simp only [genItems, wantsItems]
    exact this
  | .leaf a ty rest, cond, t, g, autos, p, S, hp, ho, hb => by
    simp only [genItems, wantsItems, planItems, hp.known]
    split
    · have key : ∀ r pb, g.c ≤ r → Quiet A pb →
          (∃ S', Piece A S S' t g.c (genItems cond t rest { g with c := (genFlush t g.resolved autos (genField (realTarget t autos) r a ty (r + 1)).1).1 }
              (genFlush t g.resolved autos (genField (realTarget t autos) r a ty (r + 1)).1).2.2).1.c
            (pb ++ .op (.getRef r a.name) (genField (realTarget t autos) r a ty (r + 1)).2 ++
              (genFlush t g.resolved autos (genField (realTarget t autos) r a ty (r + 1)).1).2.1 ++
              (genItems cond t rest { g with c := (genFlush t g.resolved autos (genField (realTarget t autos) r a ty (r + 1)).1).1 }
              (genFlush t g.resolved autos (genField (realTarget t autos) r a ty (r + 1)).1).2.2).2)
            (wantsField A (whereTo (S.vars t) (shapes autos)) a ty ++
              (wantsFlush A p (shapes autos) (kept (leftField A (S.vars t) a) (S.vars t) (shapes autos))).1 ++
              (wantsItems A rest p (wantsFlush A p (shapes autos) (kept (leftField A (S.vars t) a) (S.vars t) (shapes autos))).2.1
              (wantsFlush A p (shapes autos) (kept (leftField A (S.vars t) a) (S.vars t) (shapes autos))).2.2).1)
            (wantsItems A rest p (wantsFlush A p (shapes autos) (kept (leftField A (S.vars t) a) (S.vars t) (shapes autos))).2.1
              (wantsFlush A p (shapes autos) (kept (leftField A (S.vars t) a) (S.vars t) (shapes autos))).2.2).2) ∧
          PlanRel (genItems cond t rest { g with c := (genFlush t g.resolved autos (genField (realTarget t autos) r a ty (r + 1)).1).1 }
              (genFlush t g.resolved autos (genField (realTarget t autos) r a ty (r + 1)).1).2.2).1 (planItems rest p) := by
        intro r pb hr hq
        have hb' : Bufs S t (r + 1) autos := fun d hd => by
          obtain ⟨b1, b2, b3⟩ := hb d hd
          exact ⟨by omega, b2, b3⟩
        obtain ⟨S1, h1⟩ := real_piece (A := A) (S := S) (c := r + 1) (c' := (genField (realTarget t autos) r a ty (r + 1)).1) (p := (genField (realTarget t autos) r a ty (r + 1)).2)
          (ho.mono (by omega)) hb' (f := fun w => wantsField A w a ty) (g := fun w => leftField A w a) (fun w => leftField_keeps A w a)
          (fun u hu e => by rw [← e]; exact genField_piece (A := A) u r a ty (r + 1) S hu)
        obtain ⟨⟨S2, h2⟩, e2, m2⟩ := genFlush_piece (A := A) t g.resolved p hp.known autos (genField (realTarget t autos) r a ty (r + 1)).1 S1
          (ho.mono (Nat.le_trans (by omega) h1.le)) (hb'.step h1)
        rw [h1.left] at h2 e2
        obtain ⟨⟨S3, h3⟩, r3⟩ := genItems_piece rest cond t { g with c := (genFlush t g.resolved autos (genField (realTarget t autos) r a ty (r + 1)).1).1 }
          (genFlush t g.resolved autos (genField (realTarget t autos) r a ty (r + 1)).1).2.2 p S2 (hp.setC _)
          (ho.mono (Nat.le_trans (Nat.le_trans (by omega) h1.le) h2.le)) (((hb'.step h1).step h2).sub m2)
        rw [h2.left, e2] at h3
        refine ⟨⟨S3, ?_⟩, r3⟩
        have h1' := Piece.before (A := A) (c := g.c) (p := pb ++ .one (.getRef r a.name)) (hq.append (fun _ => ⟨rfl, rfl, rfl⟩)) (by omega) h1
        have := (h1'.append h2).append h3
        rw [Prog.append_assoc' pb] at this
        exact this
      split
      · exact key g.c .nil (Nat.le_refl _) Quiet.nil
      · exact key (g.c + 1) _ (Nat.le_succ _) (genBlen_quiet _ _ _)
    · have hset : ∀ u, Old g.c u → (S.set (.buf g.c) (some .vec)).vars u = S.vars u := fun u hu => upd_ne _ _ (hu.ne_buf (Nat.le_refl _))
      have hb' : Bufs (S.set (.buf g.c) (some .vec)) t (g.c + 1) (autos ++ [⟨g.c, a, ty⟩]) := fun d hd => by
        rcases List.mem_append.1 hd with hd | hd
        · obtain ⟨b1, b2, b3⟩ := hb d hd
          exact ⟨by omega, b2, by rw [hset (.buf d.buf) b1]; exact b3⟩
        · rw [List.mem_singleton] at hd
          subst hd
          exact ⟨Nat.lt_succ_self _, (ho.ne_buf (Nat.le_refl _)).symm, by simp [Vars.set]⟩
      obtain ⟨⟨S3, h3⟩, r3⟩ := genItems_piece rest cond t
        { g with c := g.c + 1, pending := g.pending ++ (FAttr.blens a).filter fun f => (g.resolved f).isNone } (autos ++ [⟨g.c, a, ty⟩]) (p.await a)
        (S.set (.buf g.c) (some .vec)) (hp.await a _) (ho.mono (Nat.le_succ _)) hb'
      rw [hset t ho, show shapes (autos ++ [⟨g.c, a, ty⟩]) = shapes autos ++ [(a, ty)] by simp [shapes]] at h3
      refine ⟨⟨S3, Nat.le_trans (Nat.le_succ _) h3.le, ?_, ?_, ?_, h3.left, fun u hu hn => ?_, fun r hr => ?_⟩, r3⟩
      · simp only [asked, askedOp, afterOp, List.nil_append]; exact h3.asked
      · simp only [after, afterOp]; exact h3.after
      · simp only [breaks, afterOp]; exact h3.brk
      · rw [h3.old u (hu.mono (Nat.le_succ _)) hn, hset u hu]
      · rw [h3.lent r (Nat.lt_succ_of_lt hr)]; rfl
  | .cont a len items rest, cond, t, g, autos, p, S, hp, ho, hb => by
    obtain ⟨hc1, q1⟩ := genCond_quiet (A := A) a.cond g.c
    simp only [genItems, wantsItems, planItems]
    generalize genCond a.cond g.c = gc at *
    obtain ⟨c1, p1, cr⟩ := gc
    simp only at hc1 q1 ⊢
    have hq4 : ∀ k, k ≤ (if cr.isSome || cond then genNullchecks items k else (k, .nil)).1 ∧
        Quiet A (if cr.isSome || cond then genNullchecks items k else (k, .nil)).2 := fun k => by
      split
      · exact genNullchecks_quiet _ _
      · exact ⟨Nat.le_refl _, Quiet.nil⟩
    have hb1 : Bufs S t c1 autos := fun d hd => by
      obtain ⟨b1, b2, b3⟩ := hb d hd
      exact ⟨Nat.lt_of_lt_of_le b1 hc1, b2, b3⟩
    have hor : Old c1 (realTarget t autos) := by
      rcases realTarget_eq t autos with ⟨-, h⟩ | ⟨d, hd, -, h⟩
      · rw [h]; exact ho.mono hc1
      · rw [h]; exact (hb1 d hd).1
    have hbox := box_piece (A := A) (S := S) (u := realTarget t autos) (c1 := c1) (name := a.name) (xs := a.xfs) (len := len) (cond := cr.isSome || cond)
      (p4 := (if cr.isSome || cond then genNullchecks items (genOpen (genXforms (realTarget t autos) c1 a.xfs).2.2.1 a.name len { g with c := (genXforms (realTarget t autos) c1 a.xfs).1 }).1.c else ((genOpen (genXforms (realTarget t autos) c1 a.xfs).2.2.1 a.name len { g with c := (genXforms (realTarget t autos) c1 a.xfs).1 }).1.c, .nil)).2)
      (c4 := (if cr.isSome || cond then genNullchecks items (genOpen (genXforms (realTarget t autos) c1 a.xfs).2.2.1 a.name len { g with c := (genXforms (realTarget t autos) c1 a.xfs).1 }).1.c else ((genOpen (genXforms (realTarget t autos) c1 a.xfs).2.2.1 a.name len { g with c := (genXforms (realTarget t autos) c1 a.xfs).1 }).1.c, .nil)).1)
      hp hor (hq4 _).2 (hq4 _).1 (fun t g S h1 h2 => genItems_piece items (cr.isSome || cond) t g [] p S h1 h2 (fun _ h => by cases h))
    generalize genXforms (realTarget t autos) c1 a.xfs = gx at *
    obtain ⟨c2, po, t', pc⟩ := gx
    simp only at hbox ⊢
    generalize genOpen t' a.name len { g with c := c2 } = go at *
    obtain ⟨g3, p3, bt⟩ := go
    simp only at hbox ⊢
    generalize (if cr.isSome || cond then genNullchecks items g3.c else (g3.c, .nil)) = gn at *
    obtain ⟨c4, p4⟩ := gn
    simp only at hbox ⊢
    generalize genItems (cr.isSome || cond) bt items { g3 with c := c4 } [] = gi at *
    obtain ⟨g5, p5⟩ := gi
    simp only at hbox ⊢
    generalize genClose t' a.name len bt g5 = gk at *
    obtain ⟨g6, p6⟩ := gk
    simp only at hbox ⊢
    obtain ⟨⟨S0, h0⟩, hp6⟩ := hbox
    obtain ⟨S1, h1⟩ := real_piece (A := A) (S := S) (c := c1) (c' := g6.c) (p := wrapCond cr (po ++ p3 ++ p4 ++ p5 ++ p6 ++ pc))
      (ho.mono hc1) hb1 (f := wantsBox A p a.xfs a.name len items) (g := leftBox A p a.xfs len items) (leftBox_keeps A p a.xfs len items)
      (fun u hu e => by
        rw [e]
        exact wrapCond_piece h0 (leftBox_keeps A p a.xfs len items _).or cr)
    obtain ⟨⟨S2, h2⟩, e2, m2⟩ := genFlush_piece (A := A) t g6.resolved ((planItems items p).close a.name len) hp6.known autos g6.c S1
      (ho.mono (Nat.le_trans hc1 h1.le)) (hb1.step h1)
    rw [h1.left] at h2 e2
    obtain ⟨⟨S3, h3⟩, r3⟩ := genItems_piece rest cond t { g6 with c := (genFlush t g6.resolved autos g6.c).1 }
      (genFlush t g6.resolved autos g6.c).2.2 ((planItems items p).close a.name len) S2 (hp6.setC _)
      (ho.mono (Nat.le_trans (Nat.le_trans hc1 h1.le) h2.le)) (((hb1.step h1).step h2).sub m2)
    rw [h2.left, e2] at h3
    refine ⟨⟨S3, ?_⟩, r3⟩
    have := ((Piece.before q1 hc1 h1).append h2).append h3
    generalize shapes autos = ds at this ⊢
    cases ds <;> exact this

/-! ### Tagged enums and declarations -/

theorem setRefs_quiet : ∀ rs, Quiet A (setRefs rs)
  | [] => Quiet.nil
  | _ :: rs => setRefs_quiet rs

theorem genCalculated_quiet : ∀ (as : List FAttr) (c : Nat), c ≤ (genCalculated as c).1 ∧ Quiet A (genCalculated as c).2
  | [], c => ⟨Nat.le_refl _, Quiet.nil⟩
  | a :: as, c => by
    unfold genCalculated
    split
    · split
      · obtain ⟨h1, h2⟩ := genCalculated_quiet as (c + 1)
        exact ⟨by simp only; omega, h2⟩
      · exact genCalculated_quiet as c
    · exact genCalculated_quiet as c

theorem genRefs_quiet (src : Nat) : ∀ (as : List FAttr) (c : Nat), c ≤ (genRefs src as c).1 ∧ Quiet A (genRefs src as c).2
  | [], c => ⟨Nat.le_refl _, Quiet.nil⟩
  | a :: as, c => by
    unfold genRefs
    split
    · exact genRefs_quiet src as c
    · obtain ⟨h1, h2⟩ := genRefs_quiet src as (c + 1)
      exact ⟨by simp only; omega, h2⟩

theorem wantsArm_keeps (A : Api) (arm : Arm) (p : Plan) (w : Option Wr) : Keeps w (wantsArm A arm p w).2 := by
  unfold wantsArm
  cases arm.body with
  | leaf ty => exact leftField_keeps A w arm.attr
  | cont len items => exact wantsItems_keeps A items p [] w

theorem armBody_piece (en : String) (t : Target) (arm : Arm) (g : GState) (c1 : Nat) (p : Plan) (S : Vars) (hp : PlanRel g p) (ho : Old c1 t) :
    (∃ S' pm, (armBody en t arm g c1).2 = pm ++ .one .brk ∧
      Piece A S S' t c1 (armBody en t arm g c1).1.c pm (wantsArm A arm p (S.vars t)).1 (wantsArm A arm p (S.vars t)).2) ∧
    PlanRel (armBody en t arm g c1).1 (planArm arm p) := by
  unfold armBody wantsArm planArm
  cases arm.body with
  | leaf ty =>
    refine ⟨?_, hp.setC _⟩
    have hx := genXforms_old arm.attr.xfs t (c1 + 1) (ho.mono (Nat.le_succ _))
    obtain ⟨S', h⟩ := around_piece (A := A) arm.attr.xfs t (c1 + 1) S (ho.mono (Nat.le_succ _))
      (genLeaf (genXforms t (c1 + 1) arm.attr.xfs).2.2.1 ty c1 (genXforms t (c1 + 1) arm.attr.xfs).1).1
      (genLeaf (genXforms t (c1 + 1) arm.attr.xfs).2.2.1 ty c1 (genXforms t (c1 + 1) arm.attr.xfs).1).2
      (wantsLeaf (behindAll (S.vars t) arm.attr.xfs) ty) (behindAll (S.vars t) arm.attr.xfs)
      (fun S1 e1 => ⟨S1, by have := genLeaf_piece' (A := A) (genXforms t (c1 + 1) arm.attr.xfs).2.2.1 ty c1 (genXforms t (c1 + 1) arm.attr.xfs).1 S1; rw [e1] at this; exact this⟩)
    exact ⟨S', _, rfl, Piece.before (p := .one (.unwrapEnum en arm.attr.name 0 c1 variantMsg)) (fun _ => ⟨rfl, rfl, rfl⟩) (Nat.le_succ _) h⟩
  | cont len items =>
    have h1 := genNames_le items.names (c1 + 1)
    obtain ⟨h2, q2⟩ := genCalculated_quiet (A := A) items.leaves (genNames items.names (c1 + 1)).1
    obtain ⟨⟨S', h3⟩, r3⟩ := genItems_piece (A := A) items false t { g with c := (genCalculated items.leaves (genNames items.names (c1 + 1)).1).1 } [] p S (hp.setC _)
      (ho.mono (by simp only; omega)) (fun _ h => by cases h)
    refine ⟨⟨S', .op (.unwrapStruct en arm.attr.name 0 (genNames items.names (c1 + 1)).2 variantMsg)
      (setRefs (genNames items.names (c1 + 1)).2 ++ (genCalculated items.leaves (genNames items.names (c1 + 1)).1).2) ++
      (genItems false t items { g with c := (genCalculated items.leaves (genNames items.names (c1 + 1)).1).1 } []).2, rfl, ?_⟩, r3⟩
    have := Piece.before (A := A) (c := c1) (p := .op (.unwrapStruct en arm.attr.name 0 (genNames items.names (c1 + 1)).2 variantMsg)
      (setRefs (genNames items.names (c1 + 1)).2 ++ (genCalculated items.leaves (genNames items.names (c1 + 1)).1).2))
      (fun S => (setRefs_quiet _).append q2 S) (by simp only; omega) h3
    exact this

/-- What happens in alternatives: everything ends in `break`, except if no condition holds. -/
theorem genArms_piece (en : String) (t : Target) : ∀ (arms : List Arm) (g : GState) (p : Plan) (S : Vars), PlanRel g p → Old g.c t →
    g.c ≤ (genArms en t arms g).1.c ∧ asked A (genArms en t arms g).2 S = (wantsArms A arms p (S.vars t)).1 ∧
    (∀ E, (E ∈ (after A (genArms en t arms g).2 S).toList ∨ E ∈ breaks A (genArms en t arms g).2 S) →
      (∀ u, Old g.c u → u ≠ t → E.vars u = S.vars u)) ∧
    ((∀ E, (E ∈ (after A (genArms en t arms g).2 S).toList ∨ E ∈ breaks A (genArms en t arms g).2 S) → E.vars t = S.vars t) ↔
      (wantsArms A arms p (S.vars t)).2 = true) ∧
    PlanRel (genArms en t arms g).1 (arms.foldl (fun p a => planArm a p) p)
  | [], g, p, S, hp, ho => by
    refine ⟨Nat.le_refl _, rfl, fun E hE u _ _ => ?_, ?_, hp⟩
    · rcases hE with hE | hE
      · cases List.mem_singleton.1 hE; rfl
      · cases hE
    · refine ⟨fun _ => rfl, fun _ E hE => ?_⟩
      rcases hE with hE | hE
      · cases List.mem_singleton.1 hE; rfl
      · cases hE
  | arm :: arms, g, p, S, hp, ho => by
    obtain ⟨hc1, q1⟩ := genCond_quiet (A := A) arm.attr.cond g.c
    obtain ⟨⟨S', pm, e1, h1⟩, r1⟩ := armBody_piece (A := A) en t arm g (genCond arm.attr.cond g.c).1 p S hp (ho.mono hc1)
    obtain ⟨a2, b2, d2, f2, r2⟩ := genArms_piece en t arms (armBody en t arm g (genCond arm.attr.cond g.c).1).1 (planArm arm p) S r1
      (ho.mono (Nat.le_trans hc1 h1.le))
    have hle : g.c ≤ (genArms en t arms (armBody en t arm g (genCond arm.attr.cond g.c).1).1).1.c := Nat.le_trans (Nat.le_trans hc1 h1.le) a2
    have hbr : asked A (pm ++ .one .brk) S = (wantsArm A arm p (S.vars t)).1 ∧ after A (pm ++ .one .brk) S = none ∧ breaks A (pm ++ .one .brk) S = [S'] := by
      rw [asked_append, after_append, breaks_append, h1.asked, h1.after, h1.brk]
      simp [asked, after, breaks, Prog.one]
    obtain ⟨k1, k2, k3⟩ := hbr
    obtain ⟨qa, qb, qc⟩ := q1 S
    simp only [genArms, genArm_eq, wantsArms]
    cases hcond : arm.attr.cond with
    | none =>
      rw [hcond] at e1 h1 d2 f2 r2 hle a2 qa qb qc
      simp only [genCond] at e1 h1 d2 f2 r2 hle a2 qa qb qc
      simp only [genCond, wrapCond, e1, Option.isSome_none, Bool.false_eq_true, if_false]
      have hnil : (Prog.nil ++ (pm ++ Prog.one .brk)) = pm ++ .one .brk := rfl
      have kk : ∀ q, asked A ((pm ++ Prog.one .brk) ++ q) S = (wantsArm A arm p (S.vars t)).1 ∧ after A ((pm ++ Prog.one .brk) ++ q) S = none ∧
          breaks A ((pm ++ Prog.one .brk) ++ q) S = [S'] := fun q => by
        generalize pm ++ Prog.one .brk = pb at k1 k2 k3 ⊢
        rw [asked_append, after_append, breaks_append, k1, k2, k3]
        simp
      obtain ⟨kk1, kk2, kk3⟩ := kk (genArms en t arms (armBody en t arm g g.c).1).2
      rw [hnil, kk1, kk2, kk3]
      refine ⟨hle, rfl, fun E hE u hu hn => ?_, ?_, r2⟩
      · simp only [Option.toList_none, List.not_mem_nil, false_or, List.mem_singleton] at hE
        subst hE
        exact h1.old u hu hn
      · simp [h1.left]
    | some ex =>
      rw [hcond] at e1 h1 d2 f2 r2 hle a2 b2 qa qb qc
      simp only [genCond] at e1 h1 d2 f2 r2 hle a2 b2 qa qb qc
      simp only [genCond, wrapCond, e1, Option.isSome_some, if_true]
      have hcc : ∀ q : Prog, (Prog.one (.eval g.c ex) ++ Prog.cond g.c (pm ++ .one .brk) .nil) ++ q =
          .op (.eval g.c ex) (.cond g.c (pm ++ .one .brk) q) := fun q => rfl
      have hm : S.meet [] = S := by simp [Vars.meet]
      rw [hcc]
      simp only [asked, after, breaks, askedOp, afterOp, k1, k2, k3, Option.toList_none, hm, List.nil_append, b2]
      refine ⟨hle, trivial, fun E hE u hu hn => ?_, ?_, r2⟩
      · rcases hE with hE | hE
        · exact d2 E (.inl hE) u (hu.mono (Nat.le_trans (Nat.le_succ _) h1.le)) hn
        · rcases List.mem_append.1 hE with hE | hE
          · rw [List.mem_singleton] at hE
            subst hE
            exact h1.old u (hu.mono (Nat.le_succ _)) hn
          · exact d2 E (.inr hE) u (hu.mono (Nat.le_trans (Nat.le_succ _) h1.le)) hn
      · rw [Bool.and_eq_true, decide_eq_true_eq, ← f2, ← h1.left]
        constructor
        · intro h
          exact ⟨h S' (.inr (List.mem_append_left _ (List.mem_singleton.2 rfl))), fun E hE => h E (hE.imp_right (List.mem_append_right _))⟩
        · rintro ⟨hS, h⟩ E (hE | hE)
          · exact h E (.inl hE)
          · rcases List.mem_append.1 hE with hE | hE
            · rw [List.mem_singleton] at hE
              subst hE
              exact hS
            · exact h E (.inr hE)

theorem block_piece (en : String) (t : Target) (arms : List Arm) (g : GState) (p : Plan) (S : Vars) (hp : PlanRel g p) (ho : Old g.c t) :
    (∃ S', Piece A S S' t g.c (genArms en t arms g).1.c (.block (genArms en t arms g).2 .nil) (wantsArms A arms p (S.vars t)).1
      (if (wantsArms A arms p (S.vars t)).2 then S.vars t else none)) ∧ PlanRel (genArms en t arms g).1 (arms.foldl (fun p a => planArm a p) p) := by
  obtain ⟨h1, h2, h3, h4, h5⟩ := genArms_piece (A := A) en t arms g p S hp ho
  refine ⟨⟨S.meet ((after A (genArms en t arms g).2 S).toList ++ breaks A (genArms en t arms g).2 S), h1, ?_, by simp only [after], ?_, ?_, fun u hu hn => ?_, fun _ _ => rfl⟩, h5⟩
  · simp only [asked, List.append_nil]; exact h2
  · simp only [breaks]
  · have hall : (((after A (genArms en t arms g).2 S).toList ++ breaks A (genArms en t arms g).2 S).all fun E => decide (E.vars t = S.vars t)) = true ↔
        (wantsArms A arms p (S.vars t)).2 = true := by
      rw [← h4, List.all_eq_true]
      simp only [decide_eq_true_eq, List.mem_append]
    simp only [Vars.meet]
    by_cases hk : (wantsArms A arms p (S.vars t)).2 = true
    · rw [if_pos hk, if_pos (hall.2 hk)]
    · rw [if_neg hk, if_neg fun h => hk (hall.1 h)]
  · simp only [Vars.meet]
    rw [if_pos]
    rw [List.all_eq_true]
    exact fun E hE => decide_eq_true (h3 E (List.mem_append.1 hE) u hu hn)

/-- What the generated encoder asks of its writers is what the specification says. -/
theorem genDecl_asked (A : Api) (d : Decl) : asked A (genDecl d).2 atStart = wants A d := by
  have h0 : atStart.vars .direct = some .own := rfl
  unfold genDecl wants
  cases d.body with
  | leaf cond ty =>
    obtain ⟨S', h⟩ := genField_piece (A := A) .direct 0 ⟨d.name, cond, d.xfs, none⟩ ty 1 atStart trivial
    simp only [asked, askedOp, afterOp, List.nil_append]
    rw [h.asked, h0]
    rfl
  | repr ty =>
    obtain ⟨S', h⟩ := around_piece (A := A) d.xfs .direct 1 atStart trivial (genXforms .direct 1 d.xfs).1 (.one (.repr (genXforms .direct 1 d.xfs).2.2.1 0 ty))
      [(.write, behindAll (some .own) d.xfs)] (behindAll (some .own) d.xfs)
      (fun S1 e1 => ⟨S1, Nat.le_refl _, by simp [asked, askedOp, Prog.one, e1, h0], rfl, rfl, e1, fun _ _ _ => rfl, fun _ _ => rfl⟩)
    exact h.asked
  | struct len items =>
    have hq := fun k => (genRefs_quiet (A := A) 0 items.leaves k)
    have hq2 := fun k => (genCalculated_quiet (A := A) items.leaves k)
    have hbox := box_piece (A := A) (S := atStart) (u := .direct) (c1 := 1) (name := d.name) (xs := d.xfs) (len := len) (cond := false)
      (c4 := (genCalculated items.leaves (genRefs 0 items.leaves (genOpen (genXforms .direct 1 d.xfs).2.2.1 d.name len { GState.init with c := (genXforms .direct 1 d.xfs).1 }).1.c).1).1)
      (p4 := (genRefs 0 items.leaves (genOpen (genXforms .direct 1 d.xfs).2.2.1 d.name len { GState.init with c := (genXforms .direct 1 d.xfs).1 }).1.c).2 ++ (genCalculated items.leaves (genRefs 0 items.leaves (genOpen (genXforms .direct 1 d.xfs).2.2.1 d.name len { GState.init with c := (genXforms .direct 1 d.xfs).1 }).1.c).1).2)
      init_plan trivial ((hq _).2.append (hq2 _).2) (Nat.le_trans (hq _).1 (hq2 _).1)
      (fun t g S h1 h2 => genItems_piece items false t g [] .init S h1 h2 (fun _ h => by cases h))
    obtain ⟨⟨S', h⟩, -⟩ := hbox
    have := h.asked
    rw [← Prog.append_assoc' _ _ (genCalculated items.leaves _).2] at this
    exact this
  | tagged len arms =>
    have hx := genXforms_old d.xfs .direct 1 trivial
    simp only
    generalize hgx : genXforms .direct 1 d.xfs = gx at hx ⊢
    obtain ⟨c1, po, t', pc⟩ := gx
    simp only at hx ⊢
    have hoo := genOpen_old t' d.name len { GState.init with c := c1 } hx.2
    have hpo : PlanRel (genOpen t' d.name len { GState.init with c := c1 }).1 .init := by
      obtain ⟨c', -, e⟩ := genOpen_spec t' d.name len { GState.init with c := c1 }
      rw [e]
      exact init_plan.setC _
    have hbl := fun S => block_piece (A := A) d.name (genOpen t' d.name len { GState.init with c := c1 }).2.2 arms _ .init S hpo hoo
    obtain ⟨S', h⟩ := around_piece (A := A) d.xfs .direct 1 atStart trivial
      (genClose t' d.name len (genOpen t' d.name len { GState.init with c := c1 }).2.2
        (genArms d.name (genOpen t' d.name len { GState.init with c := c1 }).2.2 arms (genOpen t' d.name len { GState.init with c := c1 }).1).1).1.c
      ((genOpen t' d.name len { GState.init with c := c1 }).2.1 ++
        .block (genArms d.name (genOpen t' d.name len { GState.init with c := c1 }).2.2 arms (genOpen t' d.name len { GState.init with c := c1 }).1).2 .nil ++
        (genClose t' d.name len (genOpen t' d.name len { GState.init with c := c1 }).2.2
          (genArms d.name (genOpen t' d.name len { GState.init with c := c1 }).2.2 arms (genOpen t' d.name len { GState.init with c := c1 }).1).1).2)
      ((wantsArms A arms .init (boxed (behindAll (some .own) d.xfs) len)).1 ++ wantsClose (arms.foldl (fun p a => planArm a p) .init) d.name len
        (behindAll (some .own) d.xfs)
        (if (wantsArms A arms .init (boxed (behindAll (some .own) d.xfs) len)).2 then boxed (behindAll (some .own) d.xfs) len else none))
      (if len.isSome then behindAll (some .own) d.xfs else
        if (wantsArms A arms .init (boxed (behindAll (some .own) d.xfs) len)).2 then boxed (behindAll (some .own) d.xfs) len else none)
      (by
        rw [hgx, h0]
        intro S1 e1
        simp only at e1 ⊢
        rw [← e1]
        exact boxed_piece (A := A) (g := { GState.init with c := c1 }) hx.2 (hbl S1).2.pending (fun S2 e2 => by
          obtain ⟨S3, h3⟩ := (hbl S2).1
          rw [e2] at h3
          exact ⟨S3, h3⟩))
    rw [hgx] at h
    have := h.asked
    simp only [Prog.append_assoc', h0] at this ⊢
    exact this

end Verif.Enc
