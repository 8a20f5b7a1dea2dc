import Verif.DecodeVM
/-!
# The types of readers in generated decoders

`compiler/decoder.rs` makes new readers out of old ones: `take` for a container with a length (156-163), what a transform makes of its source (164-172), a
trait object for a transform with a condition (173-213), a `Cursor` for an unbounded array (405-419). What a reader can do depends on its
type: `decode_sync<R: Read + BufRead>` (`compiler/mod.rs` 258), `fill_buf` (389) and `read_until` (`prelude/utf8.rs` 51) need a `BufRead`, and a
type parameter must be `Sized`. A constructor of a transform such as `GzDecoder::new(reader)` (`prelude/gzip.rs` 20) takes the variable `reader` away, since its
parameter is of a type to be inferred, for which rustc does not reborrow; methods and `decode_sync(reader: &mut R)` only borrow it.
-/
namespace Verif.Dec
open Verif

/-- The type of a reader variable, always behind `&mut`. -/
inductive Rd
  /-- `R`, the parameter of the function -/
  | own
  /-- `std::io::Take<&mut R>` -/
  | take (r : Rd)
  /-- what the transform makes of `&mut R`, as `flate2::read::GzDecoder<&mut R>` -/
  | xf (name : String) (r : Rd)
  /-- `dyn Read` -/
  | dyn
  /-- `std::io::Cursor<Vec<u8>>` -/
  | cursor
  deriving DecidableEq, Repr

/-- What is asked of a reader. -/
inductive Ask
  /-- `read_exact`, `read_to_end`, `take` -/
  | read
  /-- `Name::decode_sync(reader, ..)` -/
  | call (name : String)
  /-- `reader.fill_buf()` -/
  | look
  /-- the code of a foreign type with so many arguments -/
  | foreign (name : String) (args : Nat)
  /-- the constructor of a transform -/
  | wrap (name : String)
  deriving DecidableEq, Repr

/-- What rustc knows about the code of a transform: whether what it makes is a `BufRead`, whether it needs one, whether it needs a `&mut R` with `R:
Sized`, whether it takes the variable away. -/
structure XformApi where
  buf : Bool
  needsBuf : Bool
  needsSized : Bool
  moves : Bool

/-- What rustc knows about the code of foreign types and transforms. -/
structure Api where
  xf : String → XformApi
  /-- the code of the foreign type, with so many arguments, needs a `BufRead` -/
  foreignBuf : String → Nat → Bool

/-- `R: BufRead`. `Take<&mut R>` is one if `R` is, `Cursor<Vec<u8>>` is one, `dyn Read` is not. -/
def Rd.buf (A : Api) : Rd → Bool
  | .own => true
  | .take r => r.buf A
  | .xf n _ => (A.xf n).buf
  | .dyn => false
  | .cursor => true

/-- `R: Sized` -/
def Rd.sized : Rd → Bool
  | .dyn => false
  | _ => true

/-- rustc lets a reader variable of the type be used so. All are `Read`; a call needs `R: Read + BufRead` (`compiler/mod.rs` 258), and a type parameter is
`Sized`. -/
def able (A : Api) (r : Rd) : Ask → Bool
  | .read => true
  | .call _ => r.buf A && r.sized
  | .look => r.buf A
  | .foreign n k => !A.foreignBuf n k || r.buf A
  | .wrap x => (!(A.xf x).needsBuf || r.buf A) && (!(A.xf x).needsSized || r.sized)

/-- The reader variables of a function: the type, `none` if there is no such variable (any more). -/
abbrev Vars := Target → Option Rd

/-- What an instruction asks (`compiler/decoder.rs` 156-172, 216-330, 503-509). -/
def askedOp (ρ : Vars) : Op → List (Ask × Option Rd)
  | .constrict src _ _ => [(.read, ρ src)]
  | .wrap src _ xf _ => [(.wrap xf, ρ src)]
  | .foreign src _ n args => [(.foreign n args.length, ρ src)]
  | .ref src _ n _ => [(.call n, ρ src)]
  | .repr _ _ src => [(.read, ρ src)]
  | .prim src _ _ => [(.read, ρ src)]
  | .primArray src _ _ _ => [(.read, ρ src)]
  | .reprArray src _ _ _ => [(.read, ρ src)]
  | .skip src _ => [(.read, ρ src)]
  | _ => []

/-- What the constructor of a transform leaves of the variable. -/
def Api.left (A : Api) (xf : String) (r : Option Rd) : Option Rd := if (A.xf xf).moves then none else r

/-- The reader variables after an instruction (`compiler/decoder.rs` 156-172). -/
def afterOp (A : Api) (ρ : Vars) : Op → Vars
  | .constrict src new _ => upd ρ (.stream new) ((ρ src).map .take)
  | .wrap src new xf _ => upd (upd ρ src (A.left xf (ρ src))) (.stream new) ((ρ src).map (.xf xf))
  | _ => ρ

/-- At the end of a block its variables end; what it took away from outside stays away. -/
def leave (ρ σ : Vars) : Vars := fun t => if (ρ t).isSome then σ t else none

/-- The block ends in `return`. -/
def returns : Prog → Bool
  | .nil => false
  | .op (.ret _) .nil => true
  | .op (.error _) .nil => true
  | .op _ rest => returns rest
  | .loop _ _ _ _ _ rest => returns rest
  | .cond _ _ _ rest => returns rest
  | .condPred _ _ rest => returns rest
  | .condWrap _ _ _ _ _ _ rest => returns rest

/-- The reader variables at the end of a block. The bodies of generated loops take nothing away (`genLeaf_after`). -/
def after (A : Api) : Prog → Vars → Vars
  | .nil, ρ => ρ
  | .op i rest, ρ => after A rest (afterOp A ρ i)
  | .loop _ _ _ _ inner rest, ρ => after A rest (leave ρ (after A inner ρ))
  | .cond _ _ inner rest, ρ => after A rest (leave ρ (after A inner ρ))
  | .condPred _ inner rest, ρ => after A rest (if returns inner then ρ else leave ρ (after A inner ρ))
  | .condWrap _ prelude src new xf _ rest, ρ =>
    after A rest (upd (upd (leave ρ (after A prelude ρ)) src (A.left xf (ρ src))) (.stream new) (some .dyn))

/-- What emitted code asks of its readers. The loop over an unbounded array reads everything and declares its reader anew, as a cursor
(`compiler/decoder.rs` 405-419). -/
def asked (A : Api) : Prog → Vars → List (Ask × Option Rd)
  | .nil, _ => []
  | .op i rest, ρ => askedOp ρ i ++ asked A rest (afterOp A ρ i)
  | .loop src len term _ inner rest, ρ =>
    (match len, term with
      | some _, _ => asked A inner ρ
      | none, some _ => (.look, ρ src) :: asked A inner ρ
      | none, none => (.read, ρ src) :: asked A inner (upd ρ src (some .cursor))) ++ asked A rest (leave ρ (after A inner ρ))
  | .cond _ _ inner rest, ρ => asked A inner ρ ++ asked A rest (leave ρ (after A inner ρ))
  | .condPred _ inner rest, ρ => asked A inner ρ ++ asked A rest (if returns inner then ρ else leave ρ (after A inner ρ))
  | .condWrap _ prelude src new xf _ rest, ρ =>
    asked A prelude ρ ++ (.wrap xf, ρ src) ::
      asked A rest (upd (upd (leave ρ (after A prelude ρ)) src (A.left xf (ρ src))) (.stream new) (some .dyn))

/-- At the start there is `reader: &mut R`. -/
def atStart : Vars := fun t => if t = .direct then some .own else none

/-! ## The same, said about the specification -/

/-- What the decoding of a type asks of its reader. -/
def wantsLeaf (r : Option Rd) : LTy → List (Ask × Option Rd)
  | .prim _ => [(.read, r)]
  | .ref n foreign _ args => [(if foreign then .foreign n args.length else .call n, r)]
  | .array el len =>
    match len with
    | .term _ => (.look, r) :: wantsLeaf r el
    | .fixed _ => match el.resolved with | .other => wantsLeaf r el | _ => [(.read, r)]
    | .unbounded => (.read, r) :: match el.resolved with | .other => wantsLeaf (some .cursor) el | _ => []

/-- The reader that a transform makes. -/
def behindOne (x : XformUse) (r : Option Rd) : Option Rd := if x.cond.isSome then some .dyn else r.map (.xf x.name)

/-- The reader behind transforms, the first of the list outermost. -/
def behindAll : Option Rd → List XformUse → Option Rd
  | r, [] => r
  | r, x :: xs => behindAll (behindOne x r) xs

def wantsXforms : Option Rd → List XformUse → List (Ask × Option Rd)
  | _, [] => []
  | r, x :: xs => (.wrap x.name, r) :: wantsXforms (behindOne x r) xs

/-- What transforms leave of their source: the outermost takes it. -/
def leftBy (A : Api) (r : Option Rd) : List XformUse → Option Rd
  | [] => r
  | x :: _ => A.left x.name r

def limited (r : Option Rd) (len : Option Expr) : Option Rd := if len.isSome then r.map .take else r

def wantsLimit (r : Option Rd) (len : Option Expr) : List (Ask × Option Rd) := if len.isSome then [(.read, r)] else []

/-- What a sequence of items leaves of its reader: a field with transforms takes it away, in containers without a length and transforms too. -/
def leftItems (A : Api) : Option Rd → Fields → Option Rd
  | r, .nil => r
  | r, .pad _ _ rest => leftItems A r rest
  | r, .leaf a _ rest => leftItems A (leftBy A r a.xfs.reverse) rest
  | r, .cont a len items rest =>
    leftItems A (if a.xfs = [] ∧ len = none then leftItems A r items else leftBy A r a.xfs.reverse) rest

def wantsItems (A : Api) : Option Rd → Fields → List (Ask × Option Rd)
  | _, .nil => []
  | r, .pad _ _ rest => (.read, r) :: wantsItems A r rest
  | r, .leaf a ty rest =>
    wantsXforms r a.xfs.reverse ++ wantsLeaf (behindAll r a.xfs.reverse) ty ++ wantsItems A (leftBy A r a.xfs.reverse) rest
  | r, .cont a len items rest =>
    wantsXforms r a.xfs.reverse ++ wantsLimit (behindAll r a.xfs.reverse) len ++
      wantsItems A (limited (behindAll r a.xfs.reverse) len) items ++
      wantsItems A (if a.xfs = [] ∧ len = none then leftItems A r items else leftBy A r a.xfs.reverse) rest

def wantsArmBody (A : Api) (r : Option Rd) : ArmBody → List (Ask × Option Rd)
  | .leaf ty => wantsLeaf r ty
  | .cont len items => wantsLimit r len ++ wantsItems A (limited r len) items

/-- Alternatives behind one without a condition are not looked at. -/
def wantsArms (A : Api) (r : Option Rd) : List Arm → List (Ask × Option Rd)
  | [] => []
  | arm :: arms =>
    wantsXforms r arm.attr.xfs.reverse ++ wantsArmBody A (behindAll r arm.attr.xfs.reverse) arm.body ++
      if arm.attr.cond.isSome then wantsArms A r arms else []

/-- What the decoder of a type asks of its readers. -/
def wants (A : Api) (d : Decl) : List (Ask × Option Rd) :=
  wantsXforms (some .own) d.xfs.reverse ++
    let r := behindAll (some .own) d.xfs.reverse
    match d.body with
    | .leaf _ ty => wantsLeaf r ty
    | .repr _ => [(.read, r)]
    | .struct len items => wantsLimit r len ++ wantsItems A (limited r len) items
    | .tagged len arms => wantsLimit r len ++ wantsArms A (limited r len) arms

/-- rustc accepts how the decoder of a type uses its readers. -/
def readersOk (A : Api) (d : Decl) : Bool :=
  (wants A d).all fun q => match q.2 with | some r => able A r q.1 | none => false

/-! ## The emitted code asks what the specification says -/

/-- The reader variable is older than register `c`. -/
def Old (c : Nat) : Target → Prop
  | .direct => True
  | .stream r => r < c

theorem Old.mono {c c' : Nat} {t : Target} (h : Old c t) (hc : c ≤ c') : Old c' t := by
  cases t with
  | direct => trivial
  | stream r => exact Nat.lt_of_lt_of_le h hc

theorem asked_append (A : Api) (p q : Prog) (ρ : Vars) : asked A (p ++ q) ρ = asked A p ρ ++ asked A q (after A p ρ) := by
  show asked A (p.append q) ρ = _
  induction p generalizing ρ with
  | nil => rfl
  | op i rest ih => simp only [Prog.append, asked, after, ih, List.append_assoc]
  | loop src len term out inner rest _ ih => simp only [Prog.append, asked, after, ih, List.append_assoc]
  | cond regs c inner rest _ ih => simp only [Prog.append, asked, after, ih, List.append_assoc]
  | condPred c inner rest _ ih => simp only [Prog.append, asked, after, ih, List.append_assoc]
  | condWrap c pre src new xf args rest _ ih => simp only [Prog.append, asked, after, ih, List.append_assoc, List.cons_append]

theorem after_append (A : Api) (p q : Prog) (ρ : Vars) : after A (p ++ q) ρ = after A q (after A p ρ) := by
  show after A (p.append q) ρ = _
  induction p generalizing ρ with
  | nil => rfl
  | op i rest ih => simp only [Prog.append, after, ih]
  | loop src len term out inner rest _ ih => simp only [Prog.append, after, ih]
  | cond regs c inner rest _ ih => simp only [Prog.append, after, ih]
  | condPred c inner rest _ ih => simp only [Prog.append, after, ih]
  | condWrap c pre src new xf args rest _ ih => simp only [Prog.append, after, ih]

theorem leave_self (ρ : Vars) : leave ρ ρ = ρ := by
  funext t
  unfold leave
  cases h : ρ t <;> rfl

theorem leave_upd_self (ρ : Vars) (t : Target) (v : Option Rd) (h : ρ t = none) : leave ρ (upd ρ t v) = ρ := by
  funext u
  unfold leave
  by_cases hu : u = t
  · subst hu; simp [h]
  · rw [upd_ne _ _ hu]; cases ρ u <;> rfl

/-- What is said of a piece of code that works on the reader `src`: the counter grows, it asks `l`, leaves `e` of `src`, and the other reader variables
older than it stay as they are. -/
structure Piece (A : Api) (ρ : Vars) (src : Target) (c c' : Nat) (p : Prog) (l : List (Ask × Option Rd)) (e : Option Rd) : Prop where
  le : c ≤ c'
  asked : asked A p ρ = l
  left : after A p ρ src = e
  old : ∀ t, Old c t → t ≠ src → after A p ρ t = ρ t

theorem Piece.append {A ρ src c c1 c2 p q l m e e'} (h : Piece A ρ src c c1 p l e) (h2 : Piece A (after A p ρ) src c1 c2 q m e') :
    Piece A ρ src c c2 (p ++ q) (l ++ m) e' :=
  ⟨Nat.le_trans h.le h2.le, by rw [asked_append, h.asked, h2.asked], by rw [after_append, h2.left],
    fun t ht hn => by rw [after_append, h2.old t (ht.mono h.le) hn, h.old t ht hn]⟩

theorem genArgs_piece (A : Api) (m : RegMap) (ρ : Vars) : ∀ (es : List Expr) (c : Nat),
    c ≤ (genArgs m c es).1 ∧ asked A (genArgs m c es).2.1 ρ = [] ∧ after A (genArgs m c es).2.1 ρ = ρ ∧ (genArgs m c es).2.2.length = es.length
  | [], c => ⟨Nat.le_refl _, rfl, rfl, rfl⟩
  | e :: es, c => by
    obtain ⟨h0, h1, h2, h3⟩ := genArgs_piece A m ρ es (c + 1)
    simp only [genArgs]
    exact ⟨Nat.le_trans (Nat.le_succ _) h0, h1, h2, by simp [h3]⟩

/-- A type without transforms takes no reader away. -/
theorem genLeaf_after (A : Api) (m : RegMap) (src : Target) : ∀ (ty : LTy) (c : Nat) (ρ : Vars), after A (genLeaf m src ty c).2.1 ρ = ρ
  | .prim p, c, ρ => rfl
  | .ref n foreign res args, c, ρ => by
    obtain ⟨-, -, h2, -⟩ := genArgs_piece A m ρ args (c + 1)
    unfold genLeaf
    cases foreign <;> simp only [if_true, Bool.false_eq_true, if_false] <;> rw [after_append, h2] <;> rfl
  | .array el len, c, ρ => by
    have hl : ∀ k (o : Op), (∀ ρ, afterOp A ρ o = ρ) → leave ρ (after A ((genLeaf m src el k).2.1 ++ .one o) ρ) = ρ := fun k o ho => by
      rw [after_append, genLeaf_after A m src el k ρ]
      simp only [Prog.one, after, ho, leave_self]
    cases len with
    | term e =>
      simp only [genLeaf, after, afterOp]
      exact hl _ _ fun _ => rfl
    | fixed e =>
      simp only [genLeaf]
      cases el.resolved with
      | prim p => rfl
      | repr t => rfl
      | other =>
        simp only [after, afterOp]
        exact hl _ _ fun _ => rfl
    | unbounded =>
      simp only [genLeaf]
      cases el.resolved with
      | prim p => rfl
      | repr t => rfl
      | other =>
        simp only [after]
        exact hl _ _ fun _ => rfl

theorem genLeaf_piece (A : Api) (m : RegMap) (src : Target) : ∀ (ty : LTy) (c : Nat) (ρ : Vars),
    c ≤ (genLeaf m src ty c).1 ∧ asked A (genLeaf m src ty c).2.1 ρ = wantsLeaf (ρ src) ty
  | .prim p, c, ρ => ⟨Nat.le_succ _, rfl⟩
  | .ref n foreign res args, c, ρ => by
    obtain ⟨h0, h1, h2, h3⟩ := genArgs_piece A m ρ args (c + 1)
    unfold genLeaf
    cases foreign with
    | true =>
      simp only [if_true]
      refine ⟨Nat.le_trans (Nat.le_succ _) h0, ?_⟩
      rw [asked_append, h1, h2]
      simp [asked, askedOp, Prog.one, wantsLeaf, h3]
    | false =>
      simp only [Bool.false_eq_true, if_false]
      refine ⟨Nat.le_trans (Nat.le_succ _) h0, ?_⟩
      rw [asked_append, h1, h2]
      simp [asked, askedOp, Prog.one, wantsLeaf]
  | .array el len, c, ρ => by
    cases len with
    | term e =>
      obtain ⟨h0, h1⟩ := genLeaf_piece A m src el (c + 3) ρ
      simp only [genLeaf, wantsLeaf]
      refine ⟨Nat.le_trans (Nat.le_add_right _ _) h0, ?_⟩
      simp only [asked, askedOp, afterOp, asked_append, Prog.one, List.nil_append, List.append_nil, h1]
    | fixed e =>
      simp only [genLeaf, wantsLeaf]
      cases el.resolved with
      | prim p => exact ⟨Nat.le_add_right _ _, rfl⟩
      | repr t => exact ⟨Nat.le_add_right _ _, rfl⟩
      | other =>
        obtain ⟨h0, h1⟩ := genLeaf_piece A m src el (c + 3) ρ
        refine ⟨Nat.le_trans (Nat.le_add_right _ _) h0, ?_⟩
        simp only [asked, askedOp, afterOp, asked_append, Prog.one, List.nil_append, List.append_nil, h1]
    | unbounded =>
      simp only [genLeaf, wantsLeaf]
      cases el.resolved with
      | prim p => exact ⟨Nat.le_add_right _ _, rfl⟩
      | repr t => exact ⟨Nat.le_add_right _ _, rfl⟩
      | other =>
        obtain ⟨h0, h1⟩ := genLeaf_piece A m src el (c + 2) (upd ρ src (some .cursor))
        rw [upd_same] at h1
        refine ⟨Nat.le_trans (Nat.le_add_right _ _) h0, ?_⟩
        simp only [asked, askedOp, asked_append, Prog.one, List.append_nil, h1]

/-- Transforms make a new reader variable, unless there are none. -/
structure XPiece (A : Api) (ρ : Vars) (src : Target) (c c' : Nat) (p : Prog) (src' : Target) (l : List (Ask × Option Rd)) (e b : Option Rd) : Prop
    extends Piece A ρ src c c' p l e where
  new : after A p ρ src' = b
  oldNew : Old c' src'
  fresh : (src' = src ∧ c' = c ∧ p = .nil) ∨ ¬ Old c src'

theorem genXforms_piece (A : Api) (m : RegMap) : ∀ (xs : List XformUse) (src : Target) (c : Nat) (ρ : Vars), Old c src →
    XPiece A ρ src c (genXforms m src c xs).1 (genXforms m src c xs).2.1 (genXforms m src c xs).2.2 (wantsXforms (ρ src) xs)
      (leftBy A (ρ src) xs) (behindAll (ρ src) xs)
  | [], src, c, ρ, ho => ⟨⟨Nat.le_refl _, rfl, rfl, fun _ _ _ => rfl⟩, rfl, ho, .inl ⟨rfl, rfl, rfl⟩⟩
  | x :: xs, src, c, ρ, ho => by
    have key : ∀ c1, c ≤ c1 → ∀ v, v = behindOne x (ρ src) →
        XPiece A (upd (upd ρ src (A.left x.name (ρ src))) (.stream c1) v) (.stream c1) (c1 + 1)
          (genXforms m (.stream c1) (c1 + 1) xs).1 (genXforms m (.stream c1) (c1 + 1) xs).2.1 (genXforms m (.stream c1) (c1 + 1) xs).2.2
          (wantsXforms v xs) (leftBy A v xs) (behindAll v xs) ∧
        (∀ t, Old c t → t ≠ src →
          after A (genXforms m (.stream c1) (c1 + 1) xs).2.1 (upd (upd ρ src (A.left x.name (ρ src))) (.stream c1) v) t = ρ t) ∧
        after A (genXforms m (.stream c1) (c1 + 1) xs).2.1 (upd (upd ρ src (A.left x.name (ρ src))) (.stream c1) v) src =
          A.left x.name (ρ src) ∧
        ¬ Old c (genXforms m (.stream c1) (c1 + 1) xs).2.2 := by
      intro c1 hc v hv
      have h := genXforms_piece A m xs (.stream c1) (c1 + 1) (upd (upd ρ src (A.left x.name (ρ src))) (.stream c1) v) (Nat.lt_succ_self _)
      rw [upd_same] at h
      have hne : ∀ t, Old c t → t ≠ .stream c1 := fun t ht e => by
        subst e
        simp only [Old] at ht
        omega
      refine ⟨h, fun t ht hn => ?_, ?_, ?_⟩
      · rw [h.old t (ht.mono (by omega)) (hne t ht), upd_ne _ _ (hne t ht), upd_ne _ _ hn]
      · rw [h.old src (ho.mono (by omega)) (hne src ho), upd_ne _ _ (hne src ho), upd_same]
      · rcases h.fresh with ⟨e, -⟩ | hn
        · rw [e]; simp only [Old]; omega
        · exact fun hc' => hn (hc'.mono (by omega))
    unfold genXforms
    cases hx : x.cond with
    | some e =>
      obtain ⟨h0, h1, h2, -⟩ := genArgs_piece A m ρ x.args (c + 1)
      obtain ⟨g, g1, g2, g3⟩ := key (genArgs m (c + 1) x.args).1 (by omega) (some .dyn) (by simp [behindOne, hx])
      have hb : behindOne x (ρ src) = some .dyn := by simp [behindOne, hx]
      have hle := g.le
      simp only [wantsXforms, behindAll, leftBy, hb]
      refine ⟨⟨by omega, ?_, ?_, fun t ht hn => ?_⟩, ?_, g.oldNew, .inr g3⟩
      · simp only [asked, askedOp, afterOp, h1, h2, leave_self, List.nil_append, g.asked]
      · simp only [after, afterOp, h2, leave_self]; exact g2
      · simp only [after, afterOp, h2, leave_self]; exact g1 t ht hn
      · simp only [after, afterOp, h2, leave_self]; exact g.new
    | none =>
      obtain ⟨h0, h1, h2, -⟩ := genArgs_piece A m ρ x.args c
      have hb : behindOne x (ρ src) = (ρ src).map (.xf x.name) := by simp [behindOne, hx]
      obtain ⟨g, g1, g2, g3⟩ := key (genArgs m c x.args).1 h0 _ hb.symm
      have hle := g.le
      simp only [wantsXforms, behindAll, leftBy, hb]
      refine ⟨⟨by omega, ?_, ?_, fun t ht hn => ?_⟩, ?_, g.oldNew, .inr g3⟩
      · rw [asked_append, h1, h2]
        simp only [asked, askedOp, afterOp, List.nil_append, List.cons_append, g.asked]
      · rw [after_append, h2]; simp only [after, afterOp]; exact g2
      · rw [after_append, h2]; simp only [after, afterOp]; exact g1 t ht hn
      · rw [after_append, h2]; simp only [after, afterOp]; exact g.new

theorem genCond_piece (A : Api) (m : RegMap) (ρ : Vars) (cond : Option Expr) (c : Nat) :
    c ≤ (genCond m cond c).1 ∧ asked A (genCond m cond c).2.1 ρ = [] ∧ after A (genCond m cond c).2.1 ρ = ρ := by
  cases cond with
  | none => exact ⟨Nat.le_refl _, rfl, rfl⟩
  | some e => exact ⟨Nat.le_succ _, rfl, rfl⟩

theorem genConstrict_piece (A : Api) (m : RegMap) (src : Target) (len : Option Expr) (c : Nat) (ρ : Vars) (ho : Old c src) :
    XPiece A ρ src c (genConstrict m src len c).1 (genConstrict m src len c).2.1 (genConstrict m src len c).2.2 (wantsLimit (ρ src) len)
      (ρ src) (limited (ρ src) len) := by
  cases len with
  | none => exact ⟨⟨Nat.le_refl _, rfl, rfl, fun _ _ _ => rfl⟩, rfl, ho, .inl ⟨rfl, rfl, rfl⟩⟩
  | some e =>
    have hne : ∀ t, Old c t → t ≠ .stream (c + 1) := fun t ht e => by
      subst e
      simp only [Old] at ht
      omega
    simp only [genConstrict]
    refine ⟨⟨by omega, rfl, ?_, fun t ht _ => ?_⟩, ?_, ?_, .inr ?_⟩
    · simp only [after, afterOp, Prog.one]; exact upd_ne _ _ (hne src ho)
    · simp only [after, afterOp, Prog.one]; exact upd_ne _ _ (hne t ht)
    · simp only [after, afterOp, Prog.one, upd_same]; rfl
    · simp [Old]
    · simp [Old]

/-- Code for a new reader that was made out of another one. -/
theorem XPiece.then {A ρ src c c1 c2 p src' q l m e b b'} (h : XPiece A ρ src c c1 p src' l e b) (ho : Old c src)
    (h2 : Piece A (after A p ρ) src' c1 c2 q m b') : Piece A ρ src c c2 (p ++ q) (l ++ m) (if src' = src then b' else e) := by
  have hf : src' ≠ src → ¬ Old c src' := fun hn => by
    rcases h.fresh with ⟨e, -, -⟩ | hf
    · exact absurd e hn
    · exact hf
  refine ⟨Nat.le_trans h.le h2.le, by rw [asked_append, h.asked, h2.asked], ?_, fun t ht hn => ?_⟩
  · rw [after_append]
    by_cases hs : src' = src
    · rw [if_pos hs, ← hs, h2.left]
    · rw [if_neg hs, h2.old src (ho.mono h.le) (Ne.symm hs), h.left]
  · rw [after_append]
    by_cases hs : src' = src
    · subst hs
      rw [h2.old t (ht.mono h.le) hn, h.old t ht hn]
    · rw [h2.old t (ht.mono h.le) (fun e => hf hs (e ▸ ht)), h.old t ht hn]

theorem XPiece.trans {A ρ src c c1 c2 p src' q src'' l m e b e' b'} (h : XPiece A ρ src c c1 p src' l e b) (ho : Old c src)
    (h2 : XPiece A (after A p ρ) src' c1 c2 q src'' m e' b') :
    XPiece A ρ src c c2 (p ++ q) src'' (l ++ m) (if src' = src then e' else e) b' := by
  refine ⟨h.then ho h2.toPiece, by rw [after_append]; exact h2.new, h2.oldNew, ?_⟩
  rcases h2.fresh with ⟨e1, e2, e3⟩ | hf
  · rcases h.fresh with ⟨f1, f2, f3⟩ | hf
    · exact .inl ⟨e1.trans f1, e2.trans f2, by rw [e3, f3]; rfl⟩
    · exact .inr (e1 ▸ hf)
  · exact .inr fun hc => hf (hc.mono h.le)

/-- A condition around a block: the variables of the block end, what it took stays away. -/
theorem wrapCond_piece {A ρ src c c' p l e} (h : Piece A ρ src c c' p l e) (he : ρ src = none → e = none) (cr : Option Nat) (em : List Nat) :
    Piece A ρ src c c' (wrapCond cr em p) l e := by
  cases cr with
  | none => exact h
  | some r =>
    refine ⟨h.le, by simp only [wrapCond, asked, List.append_nil]; exact h.asked, ?_, fun t ht hn => ?_⟩
    · simp only [wrapCond, after, leave]
      split
      · exact h.left
      · rename_i hs
        exact (he (by simpa using hs)).symm
    · simp only [wrapCond, after, leave]
      split
      · exact h.old t ht hn
      · rename_i hs
        exact (by simpa using hs : ρ t = none).symm

theorem leftBy_none (A : Api) : ∀ xs, leftBy A none xs = none
  | [] => rfl
  | _ :: _ => by simp [leftBy, Api.left]

theorem leftItems_none (A : Api) : ∀ fs, leftItems A none fs = none
  | .nil => rfl
  | .pad _ _ rest => leftItems_none A rest
  | .leaf a _ rest => by simp only [leftItems, leftBy_none, leftItems_none A rest]
  | .cont a len items rest => by
    simp only [leftItems, leftBy_none, leftItems_none A items, ite_self, leftItems_none A rest]

theorem XPiece.same {A ρ src c c' p src' l e b} (h : XPiece A ρ src c c' p src' l e b) (ho : Old c src) (hs : src' = src) : e = b := by
  rcases h.fresh with ⟨-, -, rfl⟩ | hf
  · have h1 := h.left
    have h2 := h.new
    rw [hs] at h2
    exact h1.symm.trans h2
  · exact absurd (hs ▸ ho) hf

theorem genXforms_target (m : RegMap) : ∀ (xs : List XformUse) (src : Target) (c : Nat),
    (xs = [] ∧ (genXforms m src c xs).2.2 = src) ∨ (xs ≠ [] ∧ ¬ Old c (genXforms m src c xs).2.2)
  | [], src, c => .inl ⟨rfl, rfl⟩
  | x :: xs, src, c => by
    have key : ∀ c1, c ≤ c1 → ¬ Old c (genXforms m (.stream c1) (c1 + 1) xs).2.2 := fun c1 hc => by
      rcases genXforms_target m xs (.stream c1) (c1 + 1) with ⟨-, h⟩ | ⟨-, h⟩
      · rw [h]; simp only [Old]; omega
      · exact fun h2 => h (h2.mono (by omega))
    refine .inr ⟨by simp, ?_⟩
    unfold genXforms
    cases x.cond with
    | some e => exact key _ (Nat.le_trans (Nat.le_succ _) (genArgs_piece ⟨fun _ => ⟨false, false, false, false⟩, fun _ _ => false⟩ m atStart x.args (c + 1)).1)
    | none => exact key _ (genArgs_piece ⟨fun _ => ⟨false, false, false, false⟩, fun _ _ => false⟩ m atStart x.args c).1

theorem genConstrict_target (m : RegMap) (src : Target) (len : Option Expr) (c : Nat) :
    (len = none ∧ (genConstrict m src len c).2.2 = src) ∨ (len ≠ none ∧ ¬ Old c (genConstrict m src len c).2.2) := by
  cases len with
  | none => exact .inl ⟨rfl, rfl⟩
  | some e => exact .inr ⟨by simp, by simp [genConstrict, Old]⟩

/-- Transforms and then a length. -/
theorem reader_piece (A : Api) (m : RegMap) (xs : List XformUse) (len : Option Expr) (src : Target) (c : Nat) (ρ : Vars) (ho : Old c src) :
    XPiece A ρ src c (genConstrict m (genXforms m src c xs).2.2 len (genXforms m src c xs).1).1
      ((genXforms m src c xs).2.1 ++ (genConstrict m (genXforms m src c xs).2.2 len (genXforms m src c xs).1).2.1)
      (genConstrict m (genXforms m src c xs).2.2 len (genXforms m src c xs).1).2.2
      (wantsXforms (ρ src) xs ++ wantsLimit (behindAll (ρ src) xs) len) (leftBy A (ρ src) xs) (limited (behindAll (ρ src) xs) len) ∧
    ((genConstrict m (genXforms m src c xs).2.2 len (genXforms m src c xs).1).2.2 = src ↔ xs = [] ∧ len = none) := by
  have hx := genXforms_piece A m xs src c ρ ho
  have hc := genConstrict_piece A m (genXforms m src c xs).2.2 len (genXforms m src c xs).1 (after A (genXforms m src c xs).2.1 ρ) hx.oldNew
  rw [hx.new] at hc
  have h := hx.trans ho hc
  have he : (if (genXforms m src c xs).2.2 = src then behindAll (ρ src) xs else leftBy A (ρ src) xs) = leftBy A (ρ src) xs := by
    split
    · rename_i hs; exact (hx.same ho hs).symm
    · rfl
  rw [he] at h
  refine ⟨h, ?_, ?_⟩
  · intro hs
    rcases genConstrict_target m (genXforms m src c xs).2.2 len (genXforms m src c xs).1 with ⟨h1, h2⟩ | ⟨-, h2⟩
    · rcases genXforms_target m xs src c with ⟨h3, -⟩ | ⟨-, h4⟩
      · exact ⟨h3, h1⟩
      · rw [h2] at hs
        rw [hs] at h4
        exact absurd ho h4
    · rw [hs] at h2
      exact absurd (ho.mono hx.le) h2
  · rintro ⟨rfl, rfl⟩
    rfl

theorem Piece.items {A ρ src c c1 p l e} (h : Piece A ρ src c c1 p l e) (ho : Old c src) (rest : Fields) (m : RegMap)
    (ih : ∀ σ, Old c1 src → Piece A σ src c1 (genItems src rest m c1).1 (genItems src rest m c1).2.2.1 (wantsItems A (σ src) rest)
      (leftItems A (σ src) rest)) :
    Piece A ρ src c (genItems src rest m c1).1 (p ++ (genItems src rest m c1).2.2.1) (l ++ wantsItems A e rest) (leftItems A e rest) := by
  have h2 := ih (after A p ρ) (ho.mono h.le)
  rw [h.left] at h2
  exact h.append h2

theorem XPiece.items {A ρ src c c1 p src' l e b} (h : XPiece A ρ src c c1 p src' l e b) (ho : Old c src) (rest : Fields) (m : RegMap)
    (ih : ∀ σ, Old c1 src' → Piece A σ src' c1 (genItems src' rest m c1).1 (genItems src' rest m c1).2.2.1 (wantsItems A (σ src') rest)
      (leftItems A (σ src') rest)) :
    Piece A ρ src c (genItems src' rest m c1).1 (p ++ (genItems src' rest m c1).2.2.1) (l ++ wantsItems A b rest)
      (if src' = src then leftItems A b rest else e) := by
  have h2 := ih (after A p ρ) h.oldNew
  rw [h.new] at h2
  exact h.then ho h2

theorem genItems_piece (A : Api) : ∀ (fs : Fields) (src : Target) (m : RegMap) (c : Nat) (ρ : Vars), Old c src →
    Piece A ρ src c (genItems src fs m c).1 (genItems src fs m c).2.2.1 (wantsItems A (ρ src) fs) (leftItems A (ρ src) fs)
  | .nil, src, m, c, ρ, _ => ⟨Nat.le_refl _, rfl, rfl, fun _ _ _ => rfl⟩
  | .pad n e rest, src, m, c, ρ, ho => by
    have h := genItems_piece A rest src m (c + 1) ρ (ho.mono (Nat.le_succ _))
    simp only [genItems, wantsItems, leftItems]
    refine ⟨Nat.le_trans (Nat.le_succ _) h.le, ?_, h.left, fun t ht hn => h.old t (ht.mono (Nat.le_succ _)) hn⟩
    simp only [asked, askedOp, afterOp, List.nil_append, List.cons_append, h.asked]
  | .leaf a ty rest, src, m, c, ρ, ho => by
    obtain ⟨h1, e1, a1⟩ := genCond_piece A m ρ a.cond c
    have hx := genXforms_piece A m a.xfs.reverse src (genCond m a.cond c).1 ρ (ho.mono h1)
    obtain ⟨h3, e3⟩ := genLeaf_piece A m (genXforms m src (genCond m a.cond c).1 a.xfs.reverse).2.2 ty
      (genXforms m src (genCond m a.cond c).1 a.xfs.reverse).1 (after A (genXforms m src (genCond m a.cond c).1 a.xfs.reverse).2.1 ρ)
    rw [hx.new] at e3
    have a3 := genLeaf_after A m (genXforms m src (genCond m a.cond c).1 a.xfs.reverse).2.2 ty
      (genXforms m src (genCond m a.cond c).1 a.xfs.reverse).1 (after A (genXforms m src (genCond m a.cond c).1 a.xfs.reverse).2.1 ρ)
    have h23 := hx.then (ho.mono h1) ⟨h3, e3, by rw [a3, hx.new], fun t _ _ => by rw [a3]⟩
    have he : (if (genXforms m src (genCond m a.cond c).1 a.xfs.reverse).2.2 = src then behindAll (ρ src) a.xfs.reverse
        else leftBy A (ρ src) a.xfs.reverse) = leftBy A (ρ src) a.xfs.reverse := by
      split
      · rename_i hs; exact (hx.same (ho.mono h1) hs).symm
      · rfl
    rw [he] at h23
    have hw := wrapCond_piece h23 (fun h => by rw [h, leftBy_none]) (genCond m a.cond c).2.2
      [(genLeaf m (genXforms m src (genCond m a.cond c).1 a.xfs.reverse).2.2 ty (genXforms m src (genCond m a.cond c).1 a.xfs.reverse).1).2.2]
    have h12 : Piece A ρ src c _ ((genCond m a.cond c).2.1 ++ _) ([] ++ _) _ :=
      Piece.append (e := ρ src) ⟨h1, e1, by rw [a1], fun t _ _ => by rw [a1]⟩ (by rw [a1]; exact hw)
    have := h12.items ho rest (upd m a.name (some (genLeaf m (genXforms m src (genCond m a.cond c).1 a.xfs.reverse).2.2 ty
      (genXforms m src (genCond m a.cond c).1 a.xfs.reverse).1).2.2)) (fun σ h => genItems_piece A rest src _ _ σ h)
    simpa only [genItems, wantsItems, leftItems, List.nil_append] using this
  | .cont a len items rest, src, m, c, ρ, ho => by
    obtain ⟨h1, e1, a1⟩ := genCond_piece A m ρ a.cond c
    obtain ⟨hx, hs⟩ := reader_piece A m a.xfs.reverse len src (genCond m a.cond c).1 ρ (ho.mono h1)
    have h23 := hx.items (ho.mono h1) items m (fun σ h => genItems_piece A items _ m _ σ h)
    have he : (if (genConstrict m (genXforms m src (genCond m a.cond c).1 a.xfs.reverse).2.2 len
          (genXforms m src (genCond m a.cond c).1 a.xfs.reverse).1).2.2 = src then leftItems A (limited (behindAll (ρ src) a.xfs.reverse) len) items
        else leftBy A (ρ src) a.xfs.reverse) =
        if a.xfs = [] ∧ len = none then leftItems A (ρ src) items else leftBy A (ρ src) a.xfs.reverse := by
      by_cases hc : a.xfs = [] ∧ len = none
      · rw [if_pos hc, if_pos (hs.2 ⟨by rw [hc.1]; rfl, hc.2⟩), hc.1, hc.2]
        rfl
      · rw [if_neg hc, if_neg fun h => hc ⟨List.reverse_eq_nil_iff.1 (hs.1 h).1, (hs.1 h).2⟩]
    rw [he] at h23
    have hw := wrapCond_piece h23 (fun h => by rw [h, leftBy_none, leftItems_none, ite_self]) (genCond m a.cond c).2.2 (genItems (genConstrict m (genXforms m src (genCond m a.cond c).1 a.xfs.reverse).2.2 len
      (genXforms m src (genCond m a.cond c).1 a.xfs.reverse).1).2.2 items m (genConstrict m (genXforms m src (genCond m a.cond c).1 a.xfs.reverse).2.2 len
      (genXforms m src (genCond m a.cond c).1 a.xfs.reverse).1).1).2.2.2
    have h12 : Piece A ρ src c _ ((genCond m a.cond c).2.1 ++ _) ([] ++ _) _ :=
      Piece.append (e := ρ src) ⟨h1, e1, by rw [a1], fun t _ _ => by rw [a1]⟩ (by rw [a1]; exact hw)
    have := h12.items ho rest (genItems (genConstrict m (genXforms m src (genCond m a.cond c).1 a.xfs.reverse).2.2 len
      (genXforms m src (genCond m a.cond c).1 a.xfs.reverse).1).2.2 items m (genConstrict m (genXforms m src (genCond m a.cond c).1 a.xfs.reverse).2.2 len
      (genXforms m src (genCond m a.cond c).1 a.xfs.reverse).1).1).2.1 (fun σ h => genItems_piece A rest src _ _ σ h)
    simpa only [genItems, wantsItems, leftItems, List.nil_append] using this

theorem genArm_piece (A : Api) (n : String) (src : Target) (arm : Arm) (m : RegMap) (c : Nat) (ρ : Vars) (ho : Old c src) :
    c ≤ (genArm n src arm m c).1 ∧ asked A (genArm n src arm m c).2.2.1 ρ = wantsArmBody A (ρ src) arm.body := by
  unfold genArm
  cases arm.body with
  | leaf ty => exact genLeaf_piece A m src ty c ρ
  | cont len items =>
    have hx := genConstrict_piece A m src len c ρ ho
    have h := hx.items ho items m (fun σ h => genItems_piece A items _ m _ σ h)
    exact ⟨h.le, h.asked⟩

theorem returns_append (p : Prog) (r : Nat) : returns (p ++ .one (.ret r)) = true := by
  show returns (p.append _) = true
  induction p with
  | nil => rfl
  | op i rest ih =>
    cases rest <;> cases i <;> first | rfl | exact ih
  | loop src len term out inner rest _ ih => exact ih
  | cond regs c inner rest _ ih => exact ih
  | condPred c inner rest _ ih => exact ih
  | condWrap c pre src new xf args rest _ ih => exact ih

theorem genArms_asked (A : Api) (n : String) (src : Target) : ∀ (arms : List Arm) (m : RegMap) (c : Nat) (ρ : Vars),
    Old c src → asked A (genArms n src arms m c).2.1 ρ = wantsArms A (ρ src) arms
  | [], _, _, _, _ => rfl
  | arm :: arms, m, c, ρ, ho => by
    obtain ⟨h1, e1, a1⟩ := genCond_piece A m ρ arm.attr.cond c
    have hx := genXforms_piece A m arm.attr.xfs.reverse src (genCond m arm.attr.cond c).1 ρ (ho.mono h1)
    obtain ⟨h3, e3⟩ := genArm_piece A n (genXforms m src (genCond m arm.attr.cond c).1 arm.attr.xfs.reverse).2.2 arm m
      (genXforms m src (genCond m arm.attr.cond c).1 arm.attr.xfs.reverse).1 (after A (genXforms m src (genCond m arm.attr.cond c).1 arm.attr.xfs.reverse).2.1 ρ)
      hx.oldNew
    rw [hx.new] at e3
    have hb : ∀ o, askedOp (after A ((genXforms m src (genCond m arm.attr.cond c).1 arm.attr.xfs.reverse).2.1 ++
        (genArm n (genXforms m src (genCond m arm.attr.cond c).1 arm.attr.xfs.reverse).2.2 arm m
          (genXforms m src (genCond m arm.attr.cond c).1 arm.attr.xfs.reverse).1).2.2.1) ρ) o = [] →
        asked A ((genXforms m src (genCond m arm.attr.cond c).1 arm.attr.xfs.reverse).2.1 ++
        (genArm n (genXforms m src (genCond m arm.attr.cond c).1 arm.attr.xfs.reverse).2.2 arm m
          (genXforms m src (genCond m arm.attr.cond c).1 arm.attr.xfs.reverse).1).2.2.1 ++ .one o) ρ =
        wantsXforms (ρ src) arm.attr.xfs.reverse ++ wantsArmBody A (behindAll (ρ src) arm.attr.xfs.reverse) arm.body := by
      intro o ho
      rw [asked_append, asked_append, hx.asked, e3]
      simp only [asked, Prog.one, ho, List.append_nil]
    have hle : c ≤ (genArm n (genXforms m src (genCond m arm.attr.cond c).1 arm.attr.xfs.reverse).2.2 arm m
          (genXforms m src (genCond m arm.attr.cond c).1 arm.attr.xfs.reverse).1).1 + 1 := by have := hx.le; omega
    have ih := genArms_asked A n src arms (genArm n (genXforms m src (genCond m arm.attr.cond c).1 arm.attr.xfs.reverse).2.2 arm m
          (genXforms m src (genCond m arm.attr.cond c).1 arm.attr.xfs.reverse).1).2.1 ((genArm n (genXforms m src (genCond m arm.attr.cond c).1 arm.attr.xfs.reverse).2.2 arm m
          (genXforms m src (genCond m arm.attr.cond c).1 arm.attr.xfs.reverse).1).1 + 1) ρ (ho.mono hle)
    cases hc : arm.attr.cond with
    | none =>
      rw [hc] at hb
      simp only [genArms, wantsArms, hc, genCond, Option.isSome_none, Bool.false_eq_true, if_false, List.append_nil]
      rw [asked_append]
      exact hb _ rfl
    | some e =>
      rw [hc] at hb ih
      simp only [genArms, wantsArms, hc, Option.isSome_some, if_true]
      simp only [genCond] at hb ih ⊢
      rw [asked_append]
      simp only [asked, askedOp, Prog.one, after, afterOp, List.nil_append]
      rw [asked_append]
      rw [show ∀ q : Prog, returns (q ++ .op (.ret _) .nil) = true from fun q => returns_append q _]
      simp only [asked, askedOp, List.append_nil, if_true]
      exact congr (congrArg _ (hb _ rfl)) ih

/-- What the generated decoder asks of its readers is what the specification says. -/
theorem genDecl_asked (A : Api) (d : Decl) : asked A (genDecl d) atStart = wants A d := by
  have h0 : atStart .direct = some .own := rfl
  have end2 : ∀ (i : Op) (n : Nat) ρ l, askedOp ρ i = l → asked A (.op i (.one (.ret n))) ρ = l := fun i n ρ l h => by
    show askedOp ρ i ++ (askedOp (afterOp A ρ i) (.ret n) ++ []) = l
    rw [h]
    exact List.append_nil _
  unfold genDecl wants
  cases d.body with
  | leaf cond ty =>
    obtain ⟨h1, e1, a1⟩ := genCond_piece A (fun _ => none) atStart cond 0
    have hx := genXforms_piece A (fun _ => none) d.xfs.reverse .direct (genCond (fun _ => none) cond 0).1 atStart trivial
    obtain ⟨h3, e3⟩ := genLeaf_piece A (fun _ => none) (genXforms (fun _ => none) .direct (genCond (fun _ => none) cond 0).1 d.xfs.reverse).2.2 ty
      (genXforms (fun _ => none) .direct (genCond (fun _ => none) cond 0).1 d.xfs.reverse).1
      (after A (genXforms (fun _ => none) .direct (genCond (fun _ => none) cond 0).1 d.xfs.reverse).2.1 atStart)
    rw [hx.new] at e3
    have hw : ∀ cr em p, asked A (wrapCond cr em p) atStart = asked A p atStart := fun cr em p => by
      cases cr with
      | none => rfl
      | some r => simp only [wrapCond, asked, List.append_nil]
    simp only
    rw [asked_append, asked_append, e1, a1, hw, asked_append, hx.asked, e3, end2 _ _ _ _ rfl, h0]
    simp [askedOp]
  | repr t =>
    have hx := genXforms_piece A (fun _ => none) d.xfs.reverse .direct 0 atStart trivial
    simp only
    rw [asked_append, hx.asked, end2 _ _ _ _ rfl, h0]
    simp only [askedOp, hx.new, h0]
  | struct len items =>
    obtain ⟨hx, -⟩ := reader_piece A (fun _ => none) d.xfs.reverse len .direct 0 atStart trivial
    have h := (hx.items trivial items (fun _ => none) (fun σ h => genItems_piece A items _ _ _ σ h)).asked
    simp only
    rw [asked_append, h, end2 _ _ _ _ rfl, h0]
    simp [askedOp]
  | tagged len arms =>
    obtain ⟨hx, -⟩ := reader_piece A (fun _ => none) d.xfs.reverse len .direct 0 atStart trivial
    have h4 := fun σ => genArms_asked A d.name _ arms (fun _ => none) _ σ hx.oldNew
    simp only
    rw [asked_append, asked_append, hx.asked, h4, hx.new, h0]
    cases (genArms d.name _ arms (fun _ => none) _).2.2 <;> simp [asked, askedOp, Prog.one]

end Verif.Dec
