import Verif.Bounds
import Verif.DecodeSafe
/-!
# Decoders that survive any input

`survives` is a check of a schema. `specDecode_survives`: a decoder of a schema that passes it ends on every
input, in a value or in an `Err` it returns: no panic, no endless loop, no unbounded recursion.

This is an analysis of schemas that the theorems of `Props/Survive` use as a hypothesis, not code of `/repo`.
-/
namespace Verif.Dec
open Verif

/-- What the check is told about a schema; all of it is verified by the check, except `foreignEats`. -/
structure Plan where
  /-- References never form a cycle: all of them go to a lower rank. -/
  flat : Bool
  /-- References under a transform go to a lower stage. -/
  stage : String → Nat
  /-- References before anything has been read go to a lower rank of the same stage. -/
  rank : String → Nat
  top : Nat
  /-- Decoding the declared type reads a byte or more. -/
  eats : String → Bool
  /-- Decoding the foreign type reads a byte or more. -/
  foreignEats : String → Bool

/-- How much of its input a decoder has read when it gets to a reference: anything; something; the reader
is not its own but a transform's. -/
inductive Pos
  | start | ate | trans
  deriving DecidableEq, Repr

def Pos.next (p : Pos) (eats : Bool) : Pos :=
  match p, eats with
  | .start, true => .ate
  | p, _ => p

def Pos.under (p : Pos) (xs : List XformUse) : Pos := if xs = [] then p else .trans

/-- The decoder of `n` may refer to `m`. -/
def refOk (P : Plan) (n : String) (pos : Pos) (m : String) : Bool :=
  if P.flat then decide (P.rank m < P.rank n)
  else
    match pos with
    | .trans => decide (P.stage m < P.stage n)
    | .ate => decide (P.stage m ≤ P.stage n)
    | .start => decide (P.stage m < P.stage n ∨ P.stage m = P.stage n ∧ P.rank m < P.rank n)

/-- The expression has a type and cannot panic. -/
def exprFine (sch : Schema) (oc : Bool) (Γ : TCtx) (e : Expr) : Bool :=
  (eTy sch oc Γ e).isSome && (exprSpan sch oc Γ e).isSome

/-- An argument: numbers within the range of their type. -/
def argFine (sch : Schema) (oc : Bool) (Γ : TCtx) (e : Expr) : Bool :=
  match eTy sch oc Γ e, exprSpan sch oc Γ e with
  | some (.int k), some s => s.fits k
  | some _, some _ => true
  | _, _ => false

def argsFine (sch : Schema) (oc : Bool) (Γ : TCtx) (es : List Expr) (ts : List RTy) : Bool :=
  argsOk sch oc Γ es ts && es.all (argFine sch oc Γ)

def condFine (sch : Schema) (oc : Bool) (Γ : TCtx) : Option Expr → Bool
  | none => true
  | some e => decide (eTy sch oc Γ e = some .bool) && exprFine sch oc Γ e

def lenFine (sch : Schema) (oc : Bool) (Γ : TCtx) : Option Expr → Bool
  | none => true
  | some e => numberOk sch oc Γ e && exprFine sch oc Γ e

/-- A count of items of `size` bytes: not negative, and less than `2 ^ 63` bytes in all. -/
def countFine (sch : Schema) (oc : Bool) (Γ : TCtx) (size : Nat) (e : Expr) : Bool :=
  numberOk sch oc Γ e &&
  match exprSpan sch oc Γ e with
  | some ⟨lo, some hi⟩ => decide (0 ≤ lo) && decide (hi * size < 2 ^ 63)
  | _ => false

/-- The count is one or more. -/
def countPos (sch : Schema) (oc : Bool) (Γ : TCtx) (e : Expr) : Bool :=
  match exprSpan sch oc Γ e with
  | some ⟨lo, _⟩ => decide (0 < lo)
  | _ => false

/-- The size of the items an array is read in. -/
def itemSize : Resolved → Nat
  | .prim p => p.size
  | .repr t => t.rep.scalar.size
  | .other => 1

/-- A terminator of at most one byte. -/
def shortText : Expr → Bool
  | .str s => decide (s.length ≤ 1)
  | _ => false

/-- Decoding a value of the type reads a byte or more. -/
def leafEats (P : Plan) (sch : Schema) (oc : Bool) (Γ : TCtx) : LTy → Bool
  | .prim _ => true
  | .ref n foreign _ _ => if foreign then P.foreignEats n else P.eats n
  | .array el (.fixed e) => (decide (el.resolved ≠ .other) || leafEats P sch oc Γ el) && countPos sch oc Γ e
  | .array _ _ => false

def leafFine (P : Plan) (F : Sig) (sch : Schema) (oc : Bool) (n : String) (Γ : TCtx) (pos : Pos) : LTy → Bool
  | .prim _ => true
  | .ref m foreign _ args =>
    if foreign then argsFine sch oc Γ args (F.foreignArgs m)
    else argsFine sch oc Γ args (F.params m) &&
      decide (((sch.find m).map (·.params.length)) = some (F.params m).length) && refOk P n pos m
  | .array el len =>
    leafFine P F sch oc n Γ pos el &&
    match len with
    | .fixed e => countFine sch oc Γ (itemSize el.resolved) e && notBool el
    | .unbounded => notBool el && (decide (el.resolved ≠ .other) || leafEats P sch oc Γ el)
    | .term e => shortText e && leafEats P sch oc Γ el

def xformFine (F : Sig) (sch : Schema) (oc : Bool) (Γ : TCtx) (x : XformUse) : Bool :=
  condFine sch oc Γ x.cond && argsFine sch oc Γ x.args (F.xformArgs x.name)

/-- Decoding the fields reads a byte or more. -/
def itemsEat (P : Plan) (F : Sig) (sch : Schema) (oc : Bool) : TCtx → Fields → Bool
  | _, .nil => false
  | Γ, .pad _ e rest => countPos sch oc Γ e || itemsEat P F sch oc Γ rest
  | Γ, .leaf a ty rest =>
    (decide (a.cond = none) && decide (a.xfs = []) && leafEats P sch oc Γ ty) ||
    itemsEat P F sch oc (Γ.bindAll [(a.name, (ty.rust F).optional a.cond.isSome)]) rest
  | Γ, .cont a _ items rest =>
    (decide (a.cond = none) && decide (a.xfs = []) && itemsEat P F sch oc Γ items) ||
    itemsEat P F sch oc (Γ.bindAll (rustFields F a.cond.isSome items)) rest

def itemsFine (P : Plan) (F : Sig) (sch : Schema) (oc : Bool) (n : String) : TCtx → Pos → Fields → Bool
  | _, _, .nil => true
  | Γ, pos, .pad _ e rest =>
    countFine sch oc Γ 1 e && itemsFine P F sch oc n Γ (pos.next (countPos sch oc Γ e)) rest
  | Γ, pos, .leaf a ty rest =>
    condFine sch oc Γ a.cond && a.xfs.all (xformFine F sch oc Γ) &&
    leafFine P F sch oc n Γ (pos.under a.xfs) ty &&
    itemsFine P F sch oc n (Γ.bindAll [(a.name, (ty.rust F).optional a.cond.isSome)])
      (pos.next (decide (a.cond = none) && decide (a.xfs = []) && leafEats P sch oc Γ ty)) rest
  | Γ, pos, .cont a len items rest =>
    condFine sch oc Γ a.cond && a.xfs.all (xformFine F sch oc Γ) && lenFine sch oc Γ len &&
    itemsFine P F sch oc n Γ (pos.under a.xfs) items &&
    itemsFine P F sch oc n (Γ.bindAll (rustFields F a.cond.isSome items))
      (pos.next (decide (a.cond = none) && decide (a.xfs = []) && itemsEat P F sch oc Γ items)) rest

def armFine (P : Plan) (F : Sig) (sch : Schema) (oc : Bool) (n : String) (Γ : TCtx) (pos : Pos) (arm : Arm) : Bool :=
  condFine sch oc Γ arm.attr.cond && arm.attr.xfs.all (xformFine F sch oc Γ) &&
  match arm.body with
  | .leaf ty => leafFine P F sch oc n Γ (pos.under arm.attr.xfs) ty
  | .cont len items => lenFine sch oc Γ len && itemsFine P F sch oc n Γ (pos.under arm.attr.xfs) items

def armEats (P : Plan) (F : Sig) (sch : Schema) (oc : Bool) (Γ : TCtx) (arm : Arm) : Bool :=
  decide (arm.attr.xfs = []) &&
  match arm.body with
  | .leaf ty => leafEats P sch oc Γ ty
  | .cont _ items => itemsEat P F sch oc Γ items

def declEats (P : Plan) (F : Sig) (sch : Schema) (oc : Bool) (d : Decl) : Bool :=
  decide (d.xfs = []) &&
  match d.body with
  | .leaf cond ty => decide (cond = none) && leafEats P sch oc (d.ctx F) ty
  | .repr _ => true
  | .struct _ items => itemsEat P F sch oc (d.ctx F) items
  | .tagged _ arms => arms.all (armEats P F sch oc (d.ctx F))

def declFine (P : Plan) (F : Sig) (sch : Schema) (oc : Bool) (d : Decl) : Bool :=
  d.xfs.all (xformFine F sch oc (d.ctx F)) && decide (P.rank d.name ≤ P.top) &&
  (!P.eats d.name || declEats P F sch oc d) &&
  match d.body with
  | .leaf cond ty => condFine sch oc (d.ctx F) cond && leafFine P F sch oc d.name (d.ctx F) (Pos.start.under d.xfs) ty
  | .repr _ => true
  | .struct len items =>
    lenFine sch oc (d.ctx F) len && itemsFine P F sch oc d.name (d.ctx F) (Pos.start.under d.xfs) items
  | .tagged len arms =>
    lenFine sch oc (d.ctx F) len && arms.all (armFine P F sch oc d.name (d.ctx F) (Pos.start.under d.xfs))

/-- The generated decoders survive any input. -/
def survives (P : Plan) (F : Sig) (sch : Schema) (oc : Bool) : Bool :=
  alignedSchema sch && sch.all (declFine P F sch oc)

/-! ## Soundness -/

/-- A value with the property, or an `Err` handed to the caller. -/
def Settled {α} (P : α → Prop) : Res α → Prop
  | .ok a => P a
  | .error (.err _) => True
  | .error _ => False

/-- From some number on the outcome no longer changes, and it is settled; `M` bounds that number. -/
def Settles {α} (M : Option Nat) (P : α → Prop) (x : Nat → Res α) : Prop :=
  ∃ N r, (∀ m, M = some m → N ≤ m) ∧ Settled P r ∧ ∀ f, N ≤ f → x f = r

theorem Settled.bind {α β} {P : α → Prop} {Q : β → Prop} {x : Res α} {k : α → Res β} (hx : Settled P x)
    (hk : ∀ a, P a → Settled Q (k a)) : Settled Q (x >>= k) := by
  cases x with
  | ok a => exact hk a hx
  | error f =>
    cases f with
    | err m => trivial
    | _ => exact hx.elim

theorem Settled.mono {α} {P Q : α → Prop} {x : Res α} (hx : Settled P x) (h : ∀ a, P a → Q a) : Settled Q x := by
  cases x with
  | ok a => exact h a hx
  | error f =>
    cases f with
    | err m => trivial
    | _ => exact hx.elim

theorem Settles.const {α} {M : Option Nat} {P : α → Prop} {r : Res α} (h : Settled P r) : Settles M P fun _ => r :=
  ⟨0, r, fun _ _ => Nat.zero_le _, h, fun _ _ => rfl⟩

theorem Settles.bind {α β} {M : Option Nat} {P : α → Prop} {Q : β → Prop} {x : Nat → Res α} {k : Nat → α → Res β}
    (hx : Settles M P x) (hk : ∀ a, P a → Settles M Q fun f => k f a) : Settles M Q fun f => x f >>= k f := by
  obtain ⟨N, r, hN, hr, hx⟩ := hx
  cases r with
  | ok a =>
    obtain ⟨N', r', hN', hr', hk⟩ := hk a hr
    refine ⟨max N N', r', fun m hm => Nat.max_le.2 ⟨hN m hm, hN' m hm⟩, hr', fun f hf => ?_⟩
    have h1 := hx f (Nat.le_trans (Nat.le_max_left _ _) hf)
    have h2 := hk f (Nat.le_trans (Nat.le_max_right _ _) hf)
    simp only [h1]
    exact h2
  | error e =>
    refine ⟨N, .error e, hN, ?_, fun f hf => by simp only [hx f hf]; rfl⟩
    cases e with
    | err m => trivial
    | _ => exact hr.elim

theorem Settles.mono {α} {M : Option Nat} {P Q : α → Prop} {x : Nat → Res α} (hx : Settles M P x)
    (h : ∀ a, P a → Q a) : Settles M Q x := by
  obtain ⟨N, r, hN, hr, hx⟩ := hx
  exact ⟨N, r, hN, hr.mono h, hx⟩

theorem Settles.gives {α} {M : Option Nat} {P : α × Bytes → Prop} {Q : α → Prop} {x : Nat → Res (α × Bytes)}
    (hx : Settles M P x) (hg : ∀ f, Gives Q (x f)) : Settles M (fun y => P y ∧ Q y.1) x := by
  obtain ⟨N, r, hN, hr, hx⟩ := hx
  refine ⟨N, r, hN, ?_, hx⟩
  have := hg N
  rw [hx N (Nat.le_refl _)] at this
  cases r with
  | ok y => exact ⟨hr, this y.1 y.2 rfl⟩
  | error f =>
    cases f with
    | err m => trivial
    | _ => exact hr.elim

theorem _root_.Verif.Yields.settled {α} {P : α → Prop} {x : Res α} (h : Yields P x) : Settled P x := by
  obtain ⟨a, rfl, h⟩ := h
  exact h

/-- The rest is not longer than the input, and shorter if something is read. -/
def Shrinks {α} (eats : Bool) (bs : Bytes) (y : α × Bytes) : Prop :=
  y.2.length ≤ bs.length ∧ (eats = true → y.2.length < bs.length)

/-- Where the decoder called on `l` bytes is. -/
def At (l : Nat) : Pos → Bytes → Prop
  | .start, bs => bs.length ≤ l
  | .ate, bs => bs.length < l
  | .trans, _ => True

theorem At.shrink {l : Nat} {pos : Pos} {bs bs' : Bytes} (h : At l pos bs) (hle : bs'.length ≤ bs.length) : At l pos bs' := by
  cases pos with
  | start => exact Nat.le_trans hle h
  | ate => exact Nat.lt_of_le_of_lt hle h
  | trans => trivial

theorem At.next {α} {l : Nat} {pos : Pos} {bs : Bytes} {e : Bool} {y : α × Bytes} (h : At l pos bs)
    (hy : Shrinks e bs y) : At l (pos.next e) y.2 := by
  cases pos with
  | start =>
    cases e with
    | true => exact Nat.lt_of_lt_of_le (hy.2 rfl) h
    | false => exact Nat.le_trans hy.1 h
  | ate => exact Nat.lt_of_le_of_lt hy.1 h
  | trans => trivial

/-- Arguments of the declared types, numbers within their range. -/
inductive ArgsRanged (F : Sig) (sch : Schema) : List RTy → List Val → Prop
  | nil : ArgsRanged F sch [] []
  | cons {t v ts vs} : Belongs F sch true t v → ArgsRanged F sch ts vs → ArgsRanged F sch (t :: ts) (v :: vs)

theorem ArgsRanged.length_eq {F : Sig} {sch : Schema} {ts : List RTy} {vs : List Val}
    (h : ArgsRanged F sch ts vs) : ts.length = vs.length := by
  induction h with
  | nil => rfl
  | cons _ _ ih => simp [ih]

/-- The outside with other declared types. -/
def _root_.Verif.Dec.Ext.at (X : Ext) (C : Nat → String → List Val → Bytes → Res (Val × Bytes)) (f : Nat) : Ext :=
  { X with call := C f }

/-- What the decoder of `n`, called on `l` bytes, can count on. -/
structure World (P : Plan) (F : Sig) (sch : Schema) (X : Ext) (C : Nat → String → List Val → Bytes → Res (Val × Bytes))
    (M : Option Nat) (n : String) (l : Nat) : Prop where
  typed : ∀ f, ExtTyped F sch true (X.at C f)
  call : ∀ m d pos vs bs, sch.find m = some d → d.params.length = (F.params m).length →
    ArgsRanged F sch (F.params m) vs → refOk P n pos m = true → At l pos bs →
    Settles M (Shrinks (P.eats m) bs) fun f => C f m vs bs
  foreign : ∀ m vs bs, ArgsRanged F sch (F.foreignArgs m) vs → Settled (Shrinks (P.foreignEats m) bs) (X.foreign m vs bs)
  xform : ∀ m vs bs, ArgsRanged F sch (F.xformArgs m) vs → Settled (Shrinks false bs) (X.xform m vs bs)

variable {P : Plan} {F : Sig} {sch : Schema} {X : Ext} {C : Nat → String → List Val → Bytes → Res (Val × Bytes)}
  {M : Option Nat} {n : String} {l : Nat} {Γ : TCtx} {env : Env}

/-- The variables in scope. -/
def EnvRanged (F : Sig) (sch : Schema) (Γ : TCtx) (X : Ext) (env : Env) : Prop := LookRanged F sch Γ ⟨env, X.input⟩

theorem fine_yields (he : EnvRanged F sch Γ X env) {e : Expr} {t : RTy} (ht : eTy sch X.oc Γ e = some t)
    (h : exprFine sch X.oc Γ e = true) : Yields (fun v => ∃ s, Good F sch t s v) (ev X env e) := by
  simp only [exprFine, Bool.and_eq_true, Option.isSome_iff_exists] at h
  obtain ⟨_, s, hs⟩ := h
  obtain ⟨v, hv, hg⟩ := span_sound he e t s ht hs
  exact ⟨v, hv, s, hg⟩

theorem arg_yields (he : EnvRanged F sch Γ X env) {e : Expr} {t : RTy} (ht : eTy sch X.oc Γ e = some t)
    (h : argFine sch X.oc Γ e = true) : Yields (Belongs F sch true t) (ev X env e) := by
  unfold argFine at h
  rw [ht] at h
  split at h
  · rename_i k s hk hs
    cases hk
    obtain ⟨v, hv, hg⟩ := span_sound he e _ s ht hs
    obtain ⟨m, rfl, hm⟩ := hg.int_inv
    exact ⟨_, hv, .int fun _ => fits_has h hm⟩
  · rename_i t' s hn hk hs
    cases hk
    obtain ⟨v, hv, hg⟩ := span_sound he e _ s ht hs
    exact ⟨v, hv, hg.to_any fun k hk => hn k hk⟩
  · cases h

theorem args_yield (he : EnvRanged F sch Γ X env) : ∀ {es : List Expr} {ts : List RTy},
    argsFine sch X.oc Γ es ts = true → Yields (ArgsRanged F sch ts) (es.mapM (ev X env))
  | [], ts, h => by
    simp only [argsFine, argsOk, Bool.and_eq_true, decide_eq_true_eq] at h
    have : ts = [] := by simpa using h.1.symm
    subst this
    exact ⟨[], rfl, .nil⟩
  | e :: es, ts, h => by
    simp only [argsFine, argsOk, Bool.and_eq_true, decide_eq_true_eq] at h
    cases ts with
    | nil => simp at h
    | cons t ts =>
      simp only [List.map_cons, List.cons.injEq, List.all_cons, Bool.and_eq_true] at h
      rw [List.mapM_cons]
      refine (arg_yields he h.1.1 h.2.1).bind fun v hv => ?_
      refine (args_yield he (es := es) (ts := ts) (by simp [argsFine, argsOk, h.1.2, h.2.2])).bind fun vs hvs => ?_
      exact ⟨_, rfl, .cons hv hvs⟩

theorem ev_settles {Q : Val → Prop} {e : Expr} (h : Yields Q (ev X env e)) :
    Settles M Q fun f => ev (X.at C f) env e := Settles.const h.settled

theorem evs_settle {Q : List Val → Prop} {es : List Expr} (h : Yields Q (es.mapM (ev X env))) :
    Settles M Q fun f => es.mapM (ev (X.at C f) env) := Settles.const h.settled

theorem cond_settles {β} (he : EnvRanged F sch Γ X env) {e : Expr} (h : condFine sch X.oc Γ (some e) = true)
    {Q : β → Prop} {k : Nat → Bool → Res β} (hk : ∀ b, Settles M Q fun f => k f b) :
    Settles M Q fun f => ev (X.at C f) env e >>= fun c => c.toBool >>= k f := by
  simp only [condFine, Bool.and_eq_true, decide_eq_true_eq] at h
  obtain ⟨v, hv, s, hg⟩ := fine_yields he h.1 h.2
  obtain ⟨b, rfl⟩ := hg.bool_inv
  refine Settles.bind (P := fun v => v = .bool b) (ev_settles ⟨_, hv, rfl⟩) fun v hv => ?_
  subst hv
  exact hk b

theorem number_settles {β} (he : EnvRanged F sch Γ X env) {e : Expr} (hn : numberOk sch X.oc Γ e = true)
    {s : NumRange} (hs : exprSpan sch X.oc Γ e = some s)
    {Q : β → Prop} {k : Nat → Val → Res β} (hk : ∀ t m, s.has m → Settles M Q fun f => k f (.int ⟨t, m⟩)) :
    Settles M Q fun f => ev (X.at C f) env e >>= k f := by
  unfold numberOk at hn
  split at hn
  · rename_i t ht
    obtain ⟨v, hv, hg⟩ := span_sound he e _ s ht hs
    obtain ⟨m, rfl, hm⟩ := hg.int_inv
    refine Settles.bind (P := fun v => v = .int ⟨t, m⟩) (ev_settles ⟨_, hv, rfl⟩) fun v hv => ?_
    subst hv
    exact hk t m hm
  · cases hn

theorem readExact_settled (k : Nat) (bs : Bytes) :
    Settled (fun y => Shrinks (decide (0 < k)) bs y ∧ y.1.length = k) (readExact k bs) := by
  unfold readExact
  split
  · trivial
  · rename_i h
    simp only [Nat.not_lt] at h
    refine ⟨⟨by simp, fun h0 => ?_⟩, by simp; omega⟩
    have := of_decide_eq_true h0
    simp
    omega

theorem prim_size_pos' (p : Prim) : 0 < p.size := by
  cases p with
  | scalar s => exact Scalar.size_pos s.scalar
  | _ => decide

theorem decPrim_settled (p : Prim) (bs : Bytes) : Settled (Shrinks true bs) (decPrim p bs) := by
  refine (readExact_settled _ _).bind fun y hy => ?_
  rw [decide_eq_true (prim_size_pos' p)] at hy
  exact hy.1

theorem ofRepr_settled (t : ReprTy) (x : Int) : Settled (fun _ => True) (ofRepr t x) := by
  unfold ofRepr
  split <;> split <;> trivial

theorem decRepr_settled (t : ReprTy) (bs : Bytes) : Settled (Shrinks true bs) (decRepr t bs) := by
  refine (readExact_settled _ _).bind fun y hy => (ofRepr_settled _ _).bind fun _ _ => ?_
  rw [decide_eq_true (Scalar.size_pos _)] at hy
  exact hy.1

/-- What an array reads. -/
def countEats : Option Nat → Bool
  | some k => decide (0 < k)
  | none => false

theorem readItems_settled {oc : Bool} {size : Nat} {count : Option Nat} (hc : ∀ k, count = some k → k * size < 2 ^ 63)
    (hs : 0 < size) (bs : Bytes) :
    Settled (Shrinks (countEats count) bs) (readItems oc size count bs) := by
  cases count with
  | none => exact ⟨by simp, fun h => by cases h⟩
  | some k =>
    rw [readItems_small oc (hc k rfl)]
    refine (readExact_settled _ _).mono fun y hy => ⟨hy.1.1, fun h => hy.1.2 ?_⟩
    simp only [countEats, decide_eq_true_eq] at h ⊢
    exact Nat.mul_pos h hs

theorem mapM_settled {α β} {f : α → Res β} (hf : ∀ a, Settled (fun _ => True) (f a)) : ∀ (xs : List α),
    Settled (fun _ => True) (xs.mapM f)
  | [] => trivial
  | a :: xs => by
    rw [List.mapM_cons]
    exact (hf a).bind fun _ _ => (mapM_settled hf xs).bind fun _ _ => trivial

theorem decPrimArray_settled {oc : Bool} {p : Prim} (hp : p ≠ .bool) {count : Option Nat}
    (hc : ∀ k, count = some k → k * p.size < 2 ^ 63) (bs : Bytes) :
    Settled (Shrinks (countEats count) bs) (decPrimArray oc p count bs) := by
  unfold decPrimArray
  rw [if_neg hp]
  exact (readItems_settled hc (prim_size_pos' p) bs).bind fun _ hy => hy

theorem decReprArray_settled {oc : Bool} {t : ReprTy} {count : Option Nat}
    (hc : ∀ k, count = some k → k * t.rep.scalar.size < 2 ^ 63) (bs : Bytes) :
    Settled (Shrinks (countEats count) bs) (decReprArray oc t count bs) :=
  (readItems_settled hc (Scalar.size_pos _) bs).bind fun y hy =>
    (mapM_settled (fun _ => ofRepr_settled _ _) _).bind fun _ _ => hy

theorem decN_settles {g : Nat → Bytes → Res (Val × Bytes)} {e : Bool} {pos : Pos}
    (hg : ∀ bs, At l pos bs → Settles M (Shrinks e bs) fun f => g f bs) :
    ∀ (k : Nat) (bs : Bytes), At l pos bs → Settles M (Shrinks (e && decide (0 < k)) bs) fun f => decN (g f) k bs
  | 0, bs, _ => Settles.const ⟨Nat.le_refl _, fun h => by simp at h⟩
  | k + 1, bs, ha => by
    simp only [decN]
    refine (hg bs ha).bind fun y hy => ?_
    refine (decN_settles hg k y.2 (ha.shrink hy.1)).bind fun z hz => Settles.const ?_
    refine ⟨Nat.le_trans hz.1 hy.1, fun h => ?_⟩
    simp only [Bool.and_eq_true] at h
    exact Nat.lt_of_le_of_lt hz.1 (hy.2 h.1)

theorem decAll_settles {g : Nat → Bytes → Res (Val × Bytes)} {pos : Pos}
    (hg : ∀ bs, At l pos bs → Settles M (Shrinks true bs) fun f => g f bs) :
    ∀ (k : Nat) (bs : Bytes), bs.length ≤ k → At l pos bs → Settles M (fun _ => True) fun f => decAll (g f) k bs := by
  intro k
  induction k with
  | zero =>
    intro bs hk _
    have : bs = [] := List.length_eq_zero_iff.1 (Nat.le_zero.1 hk)
    subst this
    unfold decAll
    exact Settles.const trivial
  | succ k ih =>
    intro bs hk ha
    unfold decAll
    by_cases hb : bs = []
    · simp only [hb, if_true]
      exact Settles.const trivial
    · simp only [hb, if_false]
      refine (hg bs ha).bind fun y hy => ?_
      have hlt := hy.2 rfl
      simp only [hlt, if_true]
      exact (ih y.2 (by omega) (ha.shrink hy.1)).bind fun _ _ => Settles.const trivial

theorem decUntil_settles {g : Nat → Bytes → Res (Val × Bytes)} {pos : Pos} {t : Bytes} (ht : t.length ≤ 1)
    (hg : ∀ bs, At l pos bs → Settles M (Shrinks true bs) fun f => g f bs) :
    ∀ (k : Nat) (bs : Bytes), bs.length ≤ k → At l pos bs →
      Settles M (Shrinks false bs) fun f => decUntil (g f) t k bs := by
  intro k
  induction k with
  | zero =>
    intro bs hk _
    have : bs = [] := List.length_eq_zero_iff.1 (Nat.le_zero.1 hk)
    subst this
    unfold decUntil
    exact Settles.const ⟨Nat.le_refl _, fun h => by cases h⟩
  | succ k ih =>
    intro bs hk ha
    unfold decUntil
    by_cases hb : bs = []
    · simp only [hb, if_true]
      exact Settles.const ⟨Nat.le_refl _, fun h => by cases h⟩
    · have hl : ¬ bs.length < t.length := by
        have : 0 < bs.length := List.length_pos_iff.2 hb
        omega
      simp only [hb, hl, if_false]
      by_cases hm : bs.take t.length = t
      · simp only [hm, if_true]
        exact Settles.const ⟨by simp, fun h => by cases h⟩
      · simp only [hm, if_false]
        refine (hg bs ha).bind fun y hy => ?_
        have hlt := hy.2 rfl
        simp only [hlt, if_true]
        refine (ih y.2 (by omega) (ha.shrink hy.1)).bind fun z hz => Settles.const ?_
        exact ⟨Nat.le_trans hz.1 hy.1, fun h => by cases h⟩

theorem toBytes_bytes (s : List UInt8) : (Val.bytes s).toBytes = some s := by
  simp only [Val.bytes, Val.toBytes]
  induction s with
  | nil => rfl
  | cons b s ih =>
    rw [List.map_cons, List.mapM_cons, ih]
    have : Val.byteOf (.int ⟨.u8, b.toNat⟩) = some b := by simp [Val.byteOf]
    rw [this]
    rfl

theorem countFine_inv {size : Nat} {e : Expr} (h : countFine sch X.oc Γ size e = true) :
    numberOk sch X.oc Γ e = true ∧ ∃ lo hi, exprSpan sch X.oc Γ e = some ⟨lo, some hi⟩ ∧ 0 ≤ lo ∧ hi * size < 2 ^ 63 := by
  simp only [countFine, Bool.and_eq_true] at h
  obtain ⟨h1, h2⟩ := h
  split at h2
  · rename_i lo hi hs
    simp only [Bool.and_eq_true, decide_eq_true_eq] at h2
    exact ⟨h1, lo, hi, hs, h2.1, h2.2⟩
  · cases h2

theorem asUsize_int {t : Scalar} {m : Int} (h0 : 0 ≤ m) (h1 : m < 2 ^ 63) : asUsize (.int ⟨t, m⟩) = .ok m.toNat := by
  have : Scalar.u64.wrap m = m := Scalar.wrap_eq_self _ _ ⟨h0, by show m ≤ 2 ^ 64 - 1; omega⟩
  simp only [asUsize, Val.toInt]
  show Except.ok (Scalar.u64.wrap m).toNat = _
  rw [this]

theorem loopCount_int {t : Scalar} {m : Int} (h0 : 0 ≤ m) (h1 : m < 2 ^ 63) : loopCount (.int ⟨t, m⟩) = .ok m.toNat := by
  simp only [loopCount, Val.toInt]
  show (if m < 0 ∨ 2 ^ 63 ≤ m then Except.error Fault.panic else Except.ok m.toNat) = _
  rw [if_neg (by omega)]

theorem count_small {size : Nat} {m hi : Int} (h0 : 0 ≤ m) (hm : m ≤ hi) (hs : 0 < size) (hh : hi * size < 2 ^ 63) :
    m < 2 ^ 63 ∧ m.toNat * size < 2 ^ 63 := by
  obtain ⟨k, rfl⟩ := Int.eq_ofNat_of_zero_le h0
  obtain ⟨h, rfl⟩ := Int.eq_ofNat_of_zero_le (Int.le_trans h0 hm)
  have h1 : k ≤ h := by omega
  have h2 : h * size < 2 ^ 63 := by exact_mod_cast hh
  have h3 : k * size ≤ h * size := Nat.mul_le_mul_right _ h1
  have h4 : k * 1 ≤ k * size := Nat.mul_le_mul_left _ hs
  simp only [Int.toNat_natCast]
  omega

theorem leaf_settles (hW : World P F sch X C M n l) (he : EnvRanged F sch Γ X env) {pos : Pos} :
    ∀ (ty : LTy), leafFine P F sch X.oc n Γ pos ty = true → ∀ bs, At l pos bs →
      Settles M (Shrinks (leafEats P sch X.oc Γ ty) bs) fun f => decLeaf (X.at C f) env ty bs
  | .prim p, _, bs, _ => by
    simp only [decLeaf, leafEats]
    exact Settles.const (decPrim_settled p bs)
  | .ref m foreign rs args, h, bs, ha => by
    simp only [decLeaf]
    cases foreign with
    | true =>
      simp only [leafFine, if_true] at h
      simp only [leafEats, if_true]
      exact (evs_settle (args_yield he h)).bind fun vs hvs => Settles.const (hW.foreign m vs bs hvs)
    | false =>
      simp only [leafFine, Bool.false_eq_true, if_false, Bool.and_eq_true, decide_eq_true_eq] at h
      simp only [leafEats, Bool.false_eq_true, if_false]
      cases hf : sch.find m with
      | none => simp [hf] at h
      | some d =>
        simp only [hf, Option.map_some, Option.some.injEq] at h
        exact (evs_settle (args_yield he h.1.1)).bind fun vs hvs =>
          hW.call m d pos vs bs hf h.1.2 hvs h.2 ha
  | .array el len, h, bs, ha => by
    have hel : leafFine P F sch X.oc n Γ pos el = true := by
      simp only [leafFine, Bool.and_eq_true] at h; exact h.1
    have ih := leaf_settles hW he el hel
    cases len with
    | term e =>
      simp only [leafFine, Bool.and_eq_true] at h
      simp only [decLeaf, leafEats]
      cases e with
      | str s =>
        simp only [shortText, decide_eq_true_eq] at h
        refine Settles.bind (P := fun v => v = Val.bytes s) (Settles.const rfl) fun v hv => ?_
        subst hv
        simp only [toBytes_bytes, optRes]
        rw [h.2.2] at ih
        exact (decUntil_settles h.2.1 ih _ bs (Nat.le_refl _) ha).bind fun z hz => Settles.const hz
      | _ => simp [shortText] at h
    | fixed e =>
      simp only [leafFine, Bool.and_eq_true] at h
      obtain ⟨_, hc, hb⟩ := h
      obtain ⟨hn, lo, hi, hs, h0, hh⟩ := countFine_inv hc
      simp only [decLeaf, leafEats, countPos, hs]
      refine number_settles he hn hs fun t m hm => ?_
      have hm0 : 0 ≤ m := Int.le_trans h0 hm.1
      have hmh : m ≤ hi := hm.2 hi rfl
      have hpos : ∀ b : Bool, (b && decide (0 < lo)) = true → 0 < m.toNat ∧ b = true := by
        intro b hb
        simp only [Bool.and_eq_true, decide_eq_true_eq] at hb
        have := hm.1
        simp only at this
        exact ⟨by omega, hb.1⟩
      cases hr : el.resolved with
      | prim p =>
        rw [hr] at hh
        have hsm := count_small hm0 hmh (prim_size_pos' p) hh
        simp only [asUsize_int hm0 hsm.1, ok_bind]
        refine Settles.const ((decPrimArray_settled (notBool_prim hb hr) (fun k hk => ?_) bs).mono fun y hy =>
          ⟨hy.1, fun h => hy.2 (by simp [countEats, (hpos _ h).1])⟩)
        cases hk
        exact hsm.2
      | repr t =>
        rw [hr] at hh
        have hsm := count_small hm0 hmh (Scalar.size_pos _) hh
        simp only [asUsize_int hm0 hsm.1, ok_bind]
        refine Settles.const ((decReprArray_settled (fun k hk => ?_) bs).mono fun y hy =>
          ⟨hy.1, fun h => hy.2 (by simp [countEats, (hpos _ h).1])⟩)
        cases hk
        exact hsm.2
      | other =>
        rw [hr] at hh
        have hsm := count_small hm0 hmh (by decide : 0 < 1) hh
        simp only [loopCount_int hm0 hsm.1, ok_bind]
        refine (decN_settles ih m.toNat bs ha).bind fun z hz => Settles.const ⟨hz.1, fun h => hz.2 ?_⟩
        have := hpos _ h
        simp only [ne_eq, not_true_eq_false, decide_false, Bool.false_or] at this
        simp [this.1, this.2]
    | unbounded =>
      simp only [leafFine, Bool.and_eq_true] at h
      simp only [decLeaf, leafEats]
      cases hr : el.resolved with
      | prim p =>
        exact Settles.const (decPrimArray_settled (count := none) (notBool_prim h.2.1 hr) (fun k hk => by cases hk) bs)
      | repr t => exact Settles.const (decReprArray_settled (oc := X.oc) (t := t) (count := none) (fun k hk => by cases hk) bs)
      | other =>
        have he : leafEats P sch X.oc Γ el = true := by simpa [hr] using h.2.2
        rw [he] at ih
        exact (decAll_settles ih _ bs (Nat.le_refl _) ha).bind fun z _ =>
          Settles.const ⟨Nat.zero_le _, fun h => by cases h⟩

theorem xforms_settle {α} (hW : World P F sch X C M n l) (he : EnvRanged F sch Γ X env)
    {k : Nat → Bytes → Res (α × Bytes)} (hk : ∀ bs, Settles M (Shrinks false bs) fun f => k f bs) :
    ∀ (xs : List XformUse), xs.all (xformFine F sch X.oc Γ) = true → ∀ bs,
      Settles M (Shrinks false bs) fun f => decXforms (X.at C f) env xs bs (k f)
  | [], _, bs => by simp only [decXforms]; exact hk bs
  | x :: xs, h, bs => by
    simp only [List.all_cons, Bool.and_eq_true, xformFine] at h
    have ih := xforms_settle hW he hk xs h.2
    have one : Settles M (Shrinks false bs) fun f => (do
        let vs ← x.args.mapM (ev (X.at C f) env)
        let (dec, rest) ← (X.at C f).xform x.name vs bs
        let (a, _) ← decXforms (X.at C f) env xs dec (k f)
        (.ok (a, rest) : Res (α × Bytes))) := by
      refine (evs_settle (args_yield he h.1.2)).bind fun vs hvs => ?_
      refine Settles.bind (Settles.const (hW.xform x.name vs bs hvs)) fun y hy => ?_
      exact (ih y.1).bind fun z _ => Settles.const hy
    simp only [decXforms]
    cases hc : x.cond with
    | none => exact one
    | some e =>
      rw [hc] at h
      refine cond_settles he h.1.1 fun b => ?_
      cases b
      · exact ih bs
      · exact one

theorem under_settles {α} (hW : World P F sch X C M n l) (he : EnvRanged F sch Γ X env) {pos : Pos} {e : Bool}
    {xs : List XformUse} (hx : xs.all (xformFine F sch X.oc Γ) = true)
    {k : Nat → Bytes → Res (α × Bytes)} (hk : ∀ bs, At l (pos.under xs) bs → Settles M (Shrinks e bs) fun f => k f bs)
    {bs : Bytes} (ha : At l pos bs) :
    Settles M (Shrinks (decide (xs = []) && e) bs) fun f => decXforms (X.at C f) env xs.reverse bs (k f) := by
  by_cases hxs : xs = []
  · subst hxs
    simp only [List.reverse_nil, decXforms, decide_true, Bool.true_and]
    exact hk bs ha
  · simp only [hxs, decide_false, Bool.false_and]
    refine xforms_settle hW he (fun b => ?_) _ (all_reverse hx) bs
    refine (hk b ?_).mono fun y hy => ⟨hy.1, fun h => by cases h⟩
    simp only [Pos.under, if_neg hxs]
    trivial

theorem limited_settles {α} (he : EnvRanged F sch Γ X env) {len : Option Expr} (hl : lenFine sch X.oc Γ len = true)
    {pos : Pos} {e : Bool} {k : Nat → Bytes → Res (α × Bytes)}
    (hk : ∀ bs, At l pos bs → Settles M (Shrinks e bs) fun f => k f bs) {bs : Bytes} (ha : At l pos bs) :
    Settles M (Shrinks e bs) fun f => decLimited (X.at C f) env len bs (k f) := by
  unfold decLimited
  cases len with
  | none => exact hk bs ha
  | some ex =>
    simp only [lenFine, exprFine, Bool.and_eq_true, Option.isSome_iff_exists] at hl
    obtain ⟨hn, _, s, hs⟩ := hl
    refine number_settles he hn hs fun t m _ => ?_
    simp only [asUsize, Val.toInt, ok_bind]
    generalize (Scalar.u64.wrap m).toNat = j
    have hle : (bs.take j).length ≤ bs.length := by simp; omega
    refine (hk (bs.take j) (ha.shrink hle)).bind fun y hy => Settles.const ?_
    have hsum : (bs.take j).length + (bs.drop j).length = bs.length := by simp; omega
    refine ⟨?_, fun h => ?_⟩
    · have := hy.1
      simp only [List.length_append]
      omega
    · have := hy.2 h
      simp only [List.length_append]
      omega

theorem condition_settles (he : EnvRanged F sch Γ X env) {cond : Option Expr} (hc : condFine sch X.oc Γ cond = true)
    {names : List String} {e : Bool} {k : Nat → Bytes → Res (List (String × Val) × Bytes)} {bs : Bytes}
    (hk : Settles M (Shrinks e bs) fun f => k f bs) :
    Settles M (Shrinks (decide (cond = none) && e) bs) fun f => decCond (X.at C f) env cond names bs (k f) := by
  unfold decCond
  cases cond with
  | none => simpa using hk
  | some ex =>
    simp only [reduceCtorEq, decide_false, Bool.false_and]
    refine cond_settles he hc fun b => ?_
    cases b
    · exact Settles.const ⟨Nat.le_refl _, fun h => by cases h⟩
    · exact hk.bind fun y hy => Settles.const ⟨hy.1, fun h => by cases h⟩

theorem EnvRanged.bind (he : EnvRanged F sch Γ X env) {ts : List (String × RTy)} {vs : List (String × Val)}
    (h : HasFields F sch true ts vs) : EnvRanged F sch (Γ.bindAll ts) X (env.bindAll vs) := by
  induction ts generalizing vs Γ env with
  | nil => cases h; exact he
  | cons p ts ih =>
    cases h with
    | cons hv ht =>
      rename_i n t v vs
      refine ih (Γ := Γ.bindAll [(n, t)]) (env := env.bindAll [(n, v)]) ⟨?_, he.2⟩ ht
      intro m u hm
      simp only [TCtx.bindAll, List.foldl, Env.bindAll, upd] at hm ⊢
      split
      · rename_i hmn
        rw [if_pos hmn] at hm
        cases hm
        exact ⟨v, rfl, hv⟩
      · rename_i hmn
        rw [if_neg hmn] at hm
        exact he.1 m u hm

theorem leafRun_settles (hW : World P F sch X C M n l) (he : EnvRanged F sch Γ X env) {pos : Pos} {xs : List XformUse}
    {ty : LTy} {name : String} (hx : xs.all (xformFine F sch X.oc Γ) = true)
    (hty : leafFine P F sch X.oc n Γ (pos.under xs) ty = true) {bs : Bytes} (ha : At l pos bs) :
    Settles M (Shrinks (decide (xs = []) && leafEats P sch X.oc Γ ty) bs) fun f =>
      (decXforms (X.at C f) env xs.reverse bs fun b' => do
        let (v, r) ← decLeaf (X.at C f) env ty b'
        .ok ([(name, v)], r)) := by
  refine under_settles hW he hx (fun b hb => ?_) ha
  exact (leaf_settles hW he ty hty b hb).bind fun _ hy => Settles.const hy

theorem shrinks_or {α β} {e e' : Bool} {bs : Bytes} {y : α × Bytes} {z : β × Bytes} (hy : Shrinks e bs y)
    (hz : Shrinks e' y.2 z) : Shrinks (e || e') bs z := by
  refine ⟨Nat.le_trans hz.1 hy.1, fun h => ?_⟩
  rcases Bool.or_eq_true _ _ ▸ h with h | h
  · exact Nat.lt_of_le_of_lt hz.1 (hy.2 h)
  · exact Nat.lt_of_lt_of_le (hz.2 h) hy.1

theorem items_settle (hs : alignedSchema sch = true) (hW : World P F sch X C M n l) :
    ∀ (fs : Fields) (Γ : TCtx) (pos : Pos) (env : Env), alignedItems sch fs = true → EnvRanged F sch Γ X env →
      itemsFine P F sch X.oc n Γ pos fs = true → ∀ bs, At l pos bs →
      Settles M (Shrinks (itemsEat P F sch X.oc Γ fs) bs) fun f => decItems (X.at C f) fs env bs
  | .nil, _, _, _, _, _, _, bs, _ => Settles.const ⟨Nat.le_refl _, fun h => by cases h⟩
  | .pad _ e rest, Γ, pos, env, hal, he, h, bs, ha => by
    simp only [itemsFine, Bool.and_eq_true] at h
    simp only [decItems, itemsEat]
    obtain ⟨hn, lo, hi, hsp, h0, hh⟩ := countFine_inv h.1
    refine number_settles he hn hsp fun t m hm => ?_
    have hm0 : 0 ≤ m := Int.le_trans h0 hm.1
    have hsm := count_small hm0 (hm.2 hi rfl) (by decide : 0 < 1) hh
    simp only [asUsize_int hm0 hsm.1, ok_bind]
    have hskip : Settled (Shrinks (countPos sch X.oc Γ e) bs) (skipBytes m.toNat bs) := by
      unfold skipBytes allocBytes
      rw [if_neg (by omega)]
      refine (readExact_settled m.toNat bs).bind fun y hy => ⟨hy.1.1, fun h => hy.1.2 ?_⟩
      simp only [countPos, hsp, decide_eq_true_eq] at h
      have := hm.1
      simp only at this
      simp only [decide_eq_true_eq]
      omega
    refine Settles.bind (Settles.const hskip) fun y hy => ?_
    refine (items_settle hs hW rest Γ _ env hal he h.2 y.2 (ha.next hy)).mono fun z hz => shrinks_or hy hz
  | .leaf a ty rest, Γ, pos, env, hal, he, h, bs, ha => by
    simp only [itemsFine, Bool.and_eq_true] at h
    simp only [alignedItems, Bool.and_eq_true] at hal
    obtain ⟨⟨⟨h1, h2⟩, h3⟩, h4⟩ := h
    simp only [decItems, itemsEat]
    have hset := condition_settles (C := C) (names := [a.name]) (k := fun f b =>
      decXforms (X.at C f) env a.xfs.reverse b fun b' => do
        let (v, r) ← decLeaf (X.at C f) env ty b'
        .ok ([(a.name, v)], r)) he h1 (leafRun_settles (name := a.name) hW he h2 h3 ha)
    have hty : ∀ f, Gives _ _ := fun f => decCond_typed (X := X.at C f) (env := env) (cond := a.cond)
      (ts := [(a.name, ty.rust F)])
      (fun b => leafRun_typed hs (hW.typed f) (env := env) (xs := a.xfs.reverse) hal.1 b) bs
    refine (hset.gives hty).bind fun y hy => ?_
    have hy' : HasFields F sch true [(a.name, (ty.rust F).optional a.cond.isSome)] y.1 := by
      have := hy.2
      simp only [RTy.optional]
      cases hc : a.cond <;> simpa [opts, hc] using this
    have hsh : Shrinks (decide (a.cond = none) && decide (a.xfs = []) && leafEats P sch X.oc Γ ty) bs y := by
      rw [Bool.and_assoc]; exact hy.1
    exact (items_settle hs hW rest _ _ _ hal.2 (he.bind hy') h4 y.2 (ha.next hsh)).bind fun z hz =>
      Settles.const (shrinks_or hsh hz)
  | .cont a len items rest, Γ, pos, env, hal, he, h, bs, ha => by
    simp only [itemsFine, Bool.and_eq_true] at h
    simp only [alignedItems, Bool.and_eq_true, Bool.or_eq_true] at hal
    obtain ⟨⟨⟨⟨h1, h2⟩, h3⟩, h4⟩, h5⟩ := h
    simp only [decItems, itemsEat]
    have ih := items_settle hs hW items Γ (pos.under a.xfs) env hal.1.2 he h4
    have hset := condition_settles (C := C) (names := items.names) (k := fun f b =>
      decXforms (X.at C f) env a.xfs.reverse b fun b' =>
        decLimited (X.at C f) env len b' (decItems (X.at C f) items env)) he h1
      (under_settles hW he h2 (fun b hb => limited_settles (C := C) he h3 ih hb) ha)
    have hty : ∀ f, Gives _ _ := fun f => decCond_typed (X := X.at C f) (env := env) (cond := a.cond)
      (ts := rustFields F false items)
      (fun b => decXforms_gives (X := X.at C f) (env := env) (fun b' => decLimited_gives (X := X.at C f) (env := env)
        (len := len) (fun b'' => decItems_typed hs (hW.typed f) items hal.1.2 env b'') b') a.xfs.reverse b) bs
    rw [rustFields_names] at hty
    refine (hset.gives hty).bind fun y hy => ?_
    have hy' : HasFields F sch true (rustFields F a.cond.isSome items) y.1 := by
      have hy2 := hy.2
      cases hc : a.cond with
      | none => simpa [hc] using hy2
      | some e =>
        have hu : unconditional items = true := by
          rcases hal.1.1 with h | h
          · simp [hc] at h
          · exact h
        simpa [hc, rustFields_opts hu] using hy2
    have hsh : Shrinks (decide (a.cond = none) && decide (a.xfs = []) && itemsEat P F sch X.oc Γ items) bs y := by
      rw [Bool.and_assoc]; exact hy.1
    exact (items_settle hs hW rest _ _ _ hal.2 (he.bind hy') h5 y.2 (ha.next hsh)).bind fun z hz =>
      Settles.const (shrinks_or hsh hz)

theorem arm_settles (hs : alignedSchema sch = true) (hW : World P F sch X C M n l) {name : String} {pos : Pos} {arm : Arm}
    (hal : alignedArm sch arm = true) (he : EnvRanged F sch Γ X Env.empty)
    (h : armFine P F sch X.oc n Γ pos arm = true) {bs : Bytes} (ha : At l pos bs) :
    Settles M (Shrinks (armEats P F sch X.oc Γ arm) bs) fun f => decArm (X.at C f) name arm bs := by
  simp only [armFine, Bool.and_eq_true] at h
  unfold decArm armEats
  cases hb : arm.body with
  | leaf ty =>
    simp only [hb] at h
    refine under_settles hW he h.1.2 (fun b hb => ?_) ha
    exact (leaf_settles hW he ty h.2 b hb).bind fun _ hy => Settles.const hy
  | cont len items =>
    simp only [hb, Bool.and_eq_true] at h
    simp only [alignedArm, hb] at hal
    refine under_settles hW he h.1.2 (fun b hb => ?_) ha
    exact (limited_settles (C := C) he h.2.1
      (items_settle hs hW items Γ _ _ hal he h.2.2) hb).bind fun _ hy => Settles.const hy

theorem arms_settle (hs : alignedSchema sch = true) (hW : World P F sch X C M n l) {name : String} {pos : Pos}
    (he : EnvRanged F sch Γ X Env.empty) {bs : Bytes} (ha : At l pos bs) : ∀ (arms : List Arm),
    arms.all (alignedArm sch) = true → arms.all (armFine P F sch X.oc n Γ pos) = true →
    Settles M (Shrinks (arms.all (armEats P F sch X.oc Γ)) bs) fun f => decArms (X.at C f) name arms bs
  | [], _, _ => by simp only [decArms]; exact Settles.const trivial
  | arm :: arms, hal, h => by
    simp only [List.all_cons, Bool.and_eq_true] at hal h
    have ih := (arms_settle hs hW (name := name) he ha arms hal.2 h.2).mono
      (Q := Shrinks ((arm :: arms).all (armEats P F sch X.oc Γ)) bs) fun y hy =>
        ⟨hy.1, fun h => hy.2 (by simp only [List.all_cons, Bool.and_eq_true] at h; exact h.2)⟩
    have one := (arm_settles hs hW (name := name) hal.1 he h.1 ha).mono
      (Q := Shrinks ((arm :: arms).all (armEats P F sch X.oc Γ)) bs) fun y hy =>
        ⟨hy.1, fun h => hy.2 (by simp only [List.all_cons, Bool.and_eq_true] at h; exact h.1)⟩
    simp only [decArms]
    have hcond := h.1
    simp only [armFine, Bool.and_eq_true] at hcond
    cases hc : arm.attr.cond with
    | none => exact one
    | some e =>
      rw [hc] at hcond
      refine cond_settles he hcond.1.1 fun b => ?_
      cases b
      · exact ih
      · exact one

theorem decl_settles (hs : alignedSchema sch = true) {d : Decl} (hW : World P F sch X C M d.name l) (hd : d ∈ sch)
    (he : EnvRanged F sch (d.ctx F) X Env.empty) (h : declFine P F sch X.oc d = true) {bs : Bytes} (hl : bs.length ≤ l) :
    Settles M (Shrinks (P.eats d.name) bs) fun f => decDecl (X.at C f) d bs := by
  have hal := List.all_eq_true.1 hs d hd
  have ha : At l .start bs := hl
  simp only [declFine, Bool.and_eq_true] at h
  obtain ⟨⟨⟨hx, _⟩, heats⟩, h⟩ := h
  have weaken : Settles M (Shrinks (declEats P F sch X.oc d) bs) (fun f => decDecl (X.at C f) d bs) →
      Settles M (Shrinks (P.eats d.name) bs) fun f => decDecl (X.at C f) d bs := fun h => h.mono fun y hy =>
    ⟨hy.1, fun hp => hy.2 (by simpa [hp] using heats)⟩
  refine weaken ?_
  unfold decDecl declEats
  cases hb : d.body with
  | leaf cond ty =>
    simp only [hb, Bool.and_eq_true] at h
    have hty : alignedTy sch ty = true := by simpa [alignedDecl, hb] using hal
    have hset := condition_settles (C := C) (names := [d.name]) (k := fun f b =>
      decXforms (X.at C f) Env.empty d.xfs.reverse b fun b' => do
        let (v, r) ← decLeaf (X.at C f) Env.empty ty b'
        .ok ([(d.name, v)], r)) he h.1 (leafRun_settles (name := d.name) hW he hx h.2 ha)
    have hg : ∀ f, Gives _ _ := fun f => decCond_typed (X := X.at C f) (env := Env.empty) (cond := cond)
      (ts := [(d.name, ty.rust F)])
      (fun b => leafRun_typed hs (hW.typed f) (env := Env.empty) (xs := d.xfs.reverse) hty b) bs
    refine (hset.gives hg).bind fun y hy => ?_
    have hy' : HasFields F sch true [(d.name, (ty.rust F).optional cond.isSome)] y.1 := by
      have := hy.2
      simp only [RTy.optional]
      cases cond <;> simpa [opts] using this
    obtain ⟨vs, r⟩ := y
    simp only at hy'
    cases hy' with
    | cons hv hn =>
      cases hn
      refine Settles.const ⟨hy.1.1, fun hh => hy.1.2 ?_⟩
      simp only [Bool.and_eq_true] at hh ⊢
      exact ⟨hh.2.1, hh.1, hh.2.2⟩
  | repr t =>
    refine under_settles (pos := .start) hW he hx (fun b _ => ?_) ha
    exact Settles.const (decRepr_settled t b)
  | struct len items =>
    simp only [hb, Bool.and_eq_true] at h
    refine under_settles hW he hx (fun b hb' => ?_) ha
    exact (limited_settles (C := C) he h.1
      (items_settle hs hW items _ _ _ (by simpa [alignedDecl, hb] using hal) he h.2) hb').bind fun _ hy => Settles.const hy
  | tagged len arms =>
    simp only [hb, Bool.and_eq_true] at h
    exact under_settles hW he hx (fun b hb' => limited_settles (C := C) he h.1
      (fun b' hb'' => arms_settle hs hW he hb'' arms (by simpa [alignedDecl, hb] using hal) h.2) hb') ha

theorem bindArgs_ranged {ts : List RTy} {vs : List Val} (h : ArgsRanged F sch ts vs) : ∀ {ps : List String}
    {n : String} {t : RTy}, bindTys ps ts n = some t → ∃ v, bindArgs ps vs n = some v ∧ Belongs F sch true t v := by
  induction h with
  | nil => intro ps n t hn; cases ps <;> cases hn
  | cons hv _ ih =>
    intro ps n t hn
    cases ps with
    | nil => cases hn
    | cons p ps =>
      simp only [bindTys, bindArgs, upd] at hn ⊢
      split
      · rename_i hc
        rw [if_pos hc] at hn
        cases hn
        exact ⟨_, rfl, hv⟩
      · rename_i hc
        rw [if_neg hc] at hn
        exact ih hn

/-- Foreign types and transforms behave on arguments of the declared types: they give a value of the type they
are declared with, or return an `Err`, and they read forwards. -/
structure LibSteady (P : Plan) (F : Sig) (sch : Schema) (L : Lib) : Prop where
  typed : LibTyped F sch true L
  foreign : ∀ m vs bs, ArgsRanged F sch (F.foreignArgs m) vs → Settled (Shrinks (P.foreignEats m) bs) (L.foreign m vs bs)
  xform : ∀ m vs bs, ArgsRanged F sch (F.xformArgs m) vs → Settled (Shrinks false bs) (L.xform m vs bs)

/-- How deep the decoder of `n` nests on `len` bytes, where that can be told in advance. -/
def Plan.depth (P : Plan) (n : String) (len : Nat) : Option Nat :=
  if P.flat then some (P.rank n + 1)
  else if P.stage n = 0 then some (len * (P.top + 1) + P.rank n + 1)
  else none

/-- What a reference makes smaller. -/
def Plan.before (P : Plan) (a b : String × Nat) : Prop :=
  if P.flat then P.rank a.1 < P.rank b.1
  else P.stage a.1 < P.stage b.1 ∨
    P.stage a.1 = P.stage b.1 ∧ (a.2 < b.2 ∨ a.2 = b.2 ∧ P.rank a.1 < P.rank b.1)

theorem Plan.before_wf (P : Plan) : WellFounded P.before := by
  cases hf : P.flat with
  | true =>
    refine Subrelation.wf (r := InvImage (· < ·) fun a : String × Nat => P.rank a.1) ?_ (InvImage.wf _ Nat.lt_wfRel.wf)
    intro a b h
    simpa [Plan.before, hf, InvImage] using h
  | false =>
    refine Subrelation.wf
      (r := InvImage (Prod.Lex (· < ·) (Prod.Lex (· < ·) (· < ·))) fun a : String × Nat => (P.stage a.1, a.2, P.rank a.1)) ?_
      (InvImage.wf _ (Prod.lex Nat.lt_wfRel (Prod.lex Nat.lt_wfRel Nat.lt_wfRel)).wf)
    intro a b h
    simp only [Plan.before, hf, Bool.false_eq_true, if_false] at h
    simp only [InvImage, Prod.lex_def]
    exact h

/-- A reference the check allows makes something smaller. -/
theorem refOk_before {n m : String} {pos : Pos} {l : Nat} {bs : Bytes} (h : refOk P n pos m = true) (ha : At l pos bs)
    : P.before (m, bs.length) (n, l) := by
  unfold refOk at h
  unfold Plan.before
  cases hf : P.flat with
  | true => simpa [hf] using h
  | false =>
    simp only [hf, Bool.false_eq_true, if_false] at h ⊢
    cases pos with
    | trans => exact .inl (of_decide_eq_true h)
    | ate =>
      have hs := of_decide_eq_true h
      have hl : bs.length < l := ha
      omega
    | start =>
      have hs := of_decide_eq_true h
      have hl : bs.length ≤ l := ha
      omega

/-- References nest less deep than the decoder they are in. -/
theorem depth_ref {n m : String} {pos : Pos} {l k : Nat} {bs : Bytes} (h : refOk P n pos m = true) (ha : At l pos bs)
    (hm : P.rank m ≤ P.top) (hk : P.depth n l = some (k + 1)) : ∃ j, P.depth m bs.length = some j ∧ j ≤ k := by
  unfold refOk at h
  unfold Plan.depth at hk ⊢
  cases hf : P.flat with
  | true =>
    simp only [hf, if_true, Option.some.injEq, decide_eq_true_eq] at h hk ⊢
    exact ⟨_, rfl, by omega⟩
  | false =>
    simp only [hf, Bool.false_eq_true, if_false] at h hk ⊢
    split at hk
    · rename_i h0
      simp only [Option.some.injEq] at hk
      cases pos with
      | trans => have := of_decide_eq_true h; omega
      | ate =>
        have hs := of_decide_eq_true h
        have hl : bs.length < l := ha
        rw [if_pos (by omega)]
        refine ⟨_, rfl, ?_⟩
        have : (bs.length + 1) * (P.top + 1) ≤ l * (P.top + 1) := Nat.mul_le_mul_right _ hl
        rw [Nat.succ_mul] at this
        omega
      | start =>
        have hs := of_decide_eq_true h
        have hl : bs.length ≤ l := ha
        rw [if_pos (by omega)]
        refine ⟨_, rfl, ?_⟩
        have : bs.length * (P.top + 1) ≤ l * (P.top + 1) := Nat.mul_le_mul_right _ hl
        omega
    · cases hk

theorem depth_pos {n : String} {l j : Nat} (h : P.depth n l = some j) : ∃ k, j = k + 1 := by
  unfold Plan.depth at h
  split at h
  · exact ⟨_, (Option.some.inj h).symm⟩
  · split at h
    · exact ⟨_, (Option.some.inj h).symm⟩
    · cases h

theorem specDecode_survives {L : Lib} (h : survives P F sch L.oc = true) (hL : LibSteady P F sch L) :
    ∀ (c : String × Nat) (d : Decl) (vs : List Val) (bs : Bytes), bs.length = c.2 → sch.find c.1 = some d →
      d.params.length = (F.params c.1).length → ArgsRanged F sch (F.params c.1) vs →
      Settles (P.depth c.1 c.2) (Shrinks (P.eats c.1) bs) fun f => specDecode sch L f c.1 vs bs := by
  intro c
  induction c using P.before_wf.induction with
  | _ c ih =>
  intro d vs bs hlen hf hp hv
  obtain ⟨n, len⟩ := c
  simp only at hlen hf hp hv ⊢
  have hh := h
  simp only [survives, Bool.and_eq_true] at hh
  have hname : d.name = n := by simpa using List.find?_some hf
  have hmem : d ∈ sch := by exact List.mem_of_find?_eq_some hf
  have hplen : d.params.length = vs.length := by rw [hp]; exact hv.length_eq
  have hrank : ∀ m e, sch.find m = some e → P.rank m ≤ P.top := by
    intro m e he
    have hn : e.name = m := by simpa using List.find?_some he
    have := List.all_eq_true.1 hh.2 e (by exact List.mem_of_find?_eq_some he)
    simp only [declFine, Bool.and_eq_true, decide_eq_true_eq] at this
    rw [← hn]
    exact this.1.1.2
  have hW : World P F sch ⟨L.oc, bindArgs d.params vs, fun _ _ _ => .error .diverge, L.foreign, L.xform⟩
      (fun f => specDecode sch L f) ((P.depth n len).map Nat.pred) d.name len := by
    refine ⟨fun f => ⟨specDecode_typed hh.1 hL.typed f, fun n vs bs v rest h => hL.typed n vs bs v rest h⟩,
      ?_, hL.foreign, hL.xform⟩
    intro m e pos ws b hfm hpm hws hok ha
    rw [hname] at hok
    obtain ⟨N, r, hN, hr, hx⟩ := ih (m, b.length) (refOk_before hok ha) e ws b rfl hfm hpm hws
    refine ⟨N, r, fun k hk => ?_, hr, hx⟩
    obtain ⟨k', hk', rfl⟩ := Option.map_eq_some_iff.1 hk
    obtain ⟨k'', rfl⟩ := depth_pos hk'
    obtain ⟨j, hj, hjk⟩ := depth_ref hok ha (hrank m e hfm) hk'
    exact Nat.le_trans (hN j hj) hjk
  have hfine := List.all_eq_true.1 hh.2 d hmem
  have key := decl_settles hh.1 hW hmem (bs := bs) ⟨?_, ?_⟩ hfine (Nat.le_of_eq hlen)
  · obtain ⟨N, r, hN, hr, hx⟩ := key
    rw [hname] at hr
    refine ⟨N + 1, r, fun k hk => ?_, hr, fun f hf' => ?_⟩
    · obtain ⟨k', rfl⟩ := depth_pos hk
      have := hN k' (by rw [hk]; rfl)
      omega
    · cases f with
      | zero => omega
      | succ f =>
        have := hx f (by omega)
        rw [← this]
        unfold specDecode callDecl
        simp only [hf]
        rw [if_neg (by simpa using hplen)]
        rfl
  · intro m t hm; cases hm
  · intro m t hm
    simp only [Decl.ctx] at hm
    rw [hname] at hm
    exact bindArgs_ranged hv hm

end Verif.Dec
