import Verif.Sinks
import Verif.Props.EndToEnd
/-!
# C72: writers are asked only for what they can do; C73: encoders are compiled for at most two writer types
-/
namespace Verif.Props
open Verif Verif.Enc

/-- Spec: the use of a writer variable is one that rustc accepts: the variable is there, neither moved nor lent, and its type can do it. -/
def Accepted (A : Api) (q : Ask × Option Wr) : Prop := ∃ w, q.2 = some w ∧ able A w q.1 = true

/-- **C72.** Whether rustc accepts how the emitted encoder uses its writers can be seen from the specification. -/
theorem writers_ok_iff (A : Api) (d : Decl) : (∀ q ∈ asked A (genDecl d).2 atStart, Accepted A q) ↔ writersOk A d = true := by
  rw [genDecl_asked]
  unfold writersOk
  rw [List.all_eq_true]
  refine forall_congr' fun q => imp_congr_right fun _ => ?_
  obtain ⟨a, r⟩ := q
  cases r with
  | none => simp [Accepted]
  | some r => simp [Accepted]

/-! ### Types that are accepted -/

/-- Spec: where the bytes of a part of a type go: to the parameter `writer`, to a buffer, or into a transform. -/
inductive WPlace
  | writer
  | buffer
  | stream
  deriving DecidableEq

/-- Spec: the encoder of the type does not need a `&mut W`: it calls no other encoder, nor the code of a foreign type that would need it. -/
def Callless (A : Api) : LTy → Prop
  | .prim _ => True
  | .ref n foreign _ args => foreign = true ∧ A.foreignRef n args.length = false
  | .array el _ => Callless A el

/-- Spec: transforms that are fine at a place: none; or one, if it only borrows the writer, or the writer is a buffer. -/
def GentleUse (A : Api) (pl : WPlace) : List XformUse → Prop
  | [] => True
  | [x] => pl = .buffer ∨ (pl = .writer ∧ (A.xf x.name).moves = false)
  | _ => False

/-- Spec: the place behind transforms. -/
def WPlace.behind (pl : WPlace) : List XformUse → WPlace
  | [] => pl
  | _ :: _ => .stream

/-- Spec: the place in a container. -/
def WPlace.inside (pl : WPlace) (len : Option Expr) : WPlace := if len.isSome then .buffer else pl

/-- Spec: a field is fine at a place. -/
def GentleField (A : Api) (pl : WPlace) (xs : List XformUse) (ty : LTy) : Prop := GentleUse A pl xs ∧ (pl.behind xs = .stream → Callless A ty)

/-- Spec: every field and container has at most one transform, which borrows its writer or writes to a buffer, and behind which there are no references and no
further transforms outside of containers with a length. -/
def GentleItems (A : Api) (pl : WPlace) : Fields → Prop
  | .nil => True
  | .pad _ _ rest => GentleItems A pl rest
  | .leaf a ty rest => GentleField A pl a.xfs ty ∧ GentleItems A pl rest
  | .cont a len items rest => GentleUse A pl a.xfs ∧ GentleItems A ((pl.behind a.xfs).inside len) items ∧ GentleItems A pl rest

def GentleDecl (A : Api) (d : Decl) : Prop :=
  GentleUse A .writer d.xfs ∧
  match d.body with
  | .leaf _ ty => WPlace.writer.behind d.xfs = .stream → Callless A ty
  | .repr _ => True
  | .struct len items => GentleItems A ((WPlace.writer.behind d.xfs).inside len) items
  | .tagged len arms => ∀ arm ∈ arms, match arm.body with
    | .leaf ty => GentleField A ((WPlace.writer.behind d.xfs).inside len) arm.attr.xfs ty
    | .cont _ items => GentleItems A ((WPlace.writer.behind d.xfs).inside len) items

/-- A writer that is there, of the kind of the place. -/
def WAt (pl : WPlace) (w : Option Wr) : Prop :=
  match pl with
  | .writer => w = some .own ∨ w = some .vec
  | .buffer => w = some .vec
  | .stream => ∃ v, w = some v

variable {A : Api}

theorem WAt.there {pl : WPlace} {w : Option Wr} (h : WAt pl w) : ∃ v, w = some v := by
  cases pl with
  | writer => rcases h with h | h <;> exact ⟨_, h⟩
  | buffer => exact ⟨_, h⟩
  | stream => exact h

theorem WAt.ref {pl : WPlace} {w : Option Wr} (h : WAt pl w) (hp : pl ≠ .stream) : ∃ v, w = some v ∧ v.ref = true ∧ v.castable = true := by
  cases pl with
  | writer => rcases h with h | h <;> exact ⟨_, h, rfl, rfl⟩
  | buffer => exact ⟨_, h, rfl, rfl⟩
  | stream => exact absurd rfl hp

theorem WAt.write {pl : WPlace} {w : Option Wr} (h : WAt pl w) : Accepted A (.write, w) := by
  obtain ⟨v, rfl⟩ := h.there
  exact ⟨v, rfl, rfl⟩

theorem wantsLeaf_gentle : ∀ (ty : LTy) {pl : WPlace} {w : Option Wr}, WAt pl w → (pl = .stream → Callless A ty) → ∀ q ∈ wantsLeaf w ty, Accepted A q
  | .prim p, pl, w, h, _, q, hq => by
    simp only [wantsLeaf, List.mem_singleton] at hq
    exact hq ▸ h.write
  | .ref n f res args, pl, w, h, hc, q, hq => by
    simp only [wantsLeaf, List.mem_singleton] at hq
    subst hq
    by_cases hp : pl = .stream
    · obtain ⟨h1, h2⟩ := hc hp
      obtain ⟨v, rfl⟩ := h.there
      exact ⟨v, rfl, by simp [h1, h2, able]⟩
    · obtain ⟨v, rfl, h1, -⟩ := h.ref hp
      refine ⟨v, rfl, ?_⟩
      cases f <;> simp [able, h1]
  | .array el len, pl, w, h, hc, q, hq => by
    have ih := wantsLeaf_gentle el h (fun hp => hc hp)
    cases len with
    | term e =>
      simp only [wantsLeaf, List.mem_append, List.mem_singleton] at hq
      rcases hq with hq | rfl
      · exact ih q hq
      · exact h.write
    | fixed e =>
      simp only [wantsLeaf] at hq
      split at hq
      · exact ih q hq
      · rw [List.mem_singleton] at hq
        exact hq ▸ h.write
    | unbounded =>
      simp only [wantsLeaf] at hq
      split at hq
      · exact ih q hq
      · rw [List.mem_singleton] at hq
        exact hq ▸ h.write

theorem behindAll_at {pl : WPlace} {w : Option Wr} (h : WAt pl w) : ∀ xs, WAt (pl.behind xs) (behindAll w xs)
  | [] => h
  | x :: xs => by
    show ∃ v, behindAll w (x :: xs) = some v
    have : ∀ (xs : List XformUse) (v : Wr), ∃ v', behindAll (some v) xs = some v' := by
      intro xs
      induction xs with
      | nil => exact fun v => ⟨v, rfl⟩
      | cons y ys ih =>
        intro v
        simp only [behindAll, behindOne]
        split
        · exact ih _
        · exact ih _
    obtain ⟨v, rfl⟩ := h.there
    simp only [behindAll, behindOne]
    split
    · exact this _ _
    · exact this _ _

theorem around_gentle {pl : WPlace} {w : Option Wr} (h : WAt pl w) {xs : List XformUse} (hx : GentleUse A pl xs) {body : Asks} (hb : ∀ q ∈ body, Accepted A q) {e : Option Wr}
    (he : e = behindAll w xs) : (∀ q ∈ wantsAround A xs w body e, Accepted A q) ∧ leftAround A xs w e = w := by
  match xs, hx with
  | [], _ => exact ⟨hb, he⟩
  | [x], hx =>
    have hp : pl ≠ .stream := by rcases hx with rfl | ⟨rfl, -⟩ <;> decide
    obtain ⟨v, rfl, hr, hc⟩ := h.ref hp
    constructor
    · intro q hq
      simp only [wantsAround, wantsOpen, List.mem_append, List.mem_cons] at hq
      rcases hq with ((rfl | hq) | hq) | hq
      · exact ⟨v, rfl, by simp [able, hr]⟩
      · split at hq
        · rw [List.mem_singleton] at hq
          exact hq ▸ ⟨v, rfl, hc⟩
        · cases hq
      · exact hb q hq
      · rcases hq with rfl | hq
        · obtain ⟨u, hu⟩ := (behindAll_at h [x]).there
          exact ⟨u, by rw [he]; exact hu, rfl⟩
        · cases hq
    · simp only [leftAround, Api.left, Option.bind_some]
      rw [if_pos]
      rcases hx with rfl | ⟨-, hm⟩
      · cases h
        simp [Api.returns]
      · simp [Api.returns, hm]

theorem field_gentle {pl : WPlace} {w : Option Wr} (h : WAt pl w) {a : FAttr} {ty : LTy} (hf : GentleField A pl a.xfs ty) :
    (∀ q ∈ wantsField A w a ty, Accepted A q) ∧ leftField A w a = w :=
  around_gentle h hf.1 (wantsLeaf_gentle ty (behindAll_at h _) hf.2) rfl

theorem GentleUse.buffer {pl : WPlace} {xs : List XformUse} (h : GentleUse A pl xs) : GentleUse A .buffer xs :=
  match xs, h with
  | [], _ => trivial
  | [_], _ => .inl rfl

theorem GentleField.buffer {pl : WPlace} {xs : List XformUse} {ty : LTy} (h : GentleField A pl xs ty) : GentleField A .buffer xs ty := by
  refine ⟨h.1.buffer, fun hs => h.2 ?_⟩
  cases xs with
  | nil => cases hs
  | cons x xs => rfl

theorem GentleItems.buffer : ∀ {fs : Fields} {pl : WPlace}, GentleItems A pl fs → GentleItems A .buffer fs
  | .nil, _, _ => trivial
  | .pad _ _ rest, pl, h => GentleItems.buffer (fs := rest) (pl := pl) h
  | .leaf a ty rest, pl, h => by
    simp only [GentleItems] at h ⊢
    exact ⟨h.1.buffer, GentleItems.buffer h.2⟩
  | .cont a len items rest, pl, h => by
    simp only [GentleItems] at h ⊢
    refine ⟨h.1.buffer, ?_, GentleItems.buffer h.2.2⟩
    revert h
    cases a.xfs with
    | cons x xs => exact fun h => h.2.1
    | nil =>
      cases len with
      | none => exact fun h => GentleItems.buffer h.2.1
      | some e => exact fun h => h.2.1

/-- The waiting fields are fine. -/
def GentleWaiting (A : Api) (pl : WPlace) (ds : List (FAttr × LTy)) : Prop := ∀ d ∈ ds, GentleField A pl d.1.xfs d.2

theorem whereTo_at {pl : WPlace} {w : Option Wr} (h : WAt pl w) : ∀ ds, (ds = [] → WAt pl (whereTo w ds)) ∧ (ds ≠ [] → WAt .buffer (whereTo w ds))
  | [] => ⟨fun _ => h, fun h => absurd rfl h⟩
  | _ :: _ => ⟨fun h => (by cases h), fun _ => rfl⟩

theorem flush_gentle (p : Plan) {pl : WPlace} {w : Option Wr} (h : WAt pl w) : ∀ {ds : List (FAttr × LTy)}, GentleWaiting A pl ds →
    (∀ q ∈ (wantsFlush A p ds w).1, Accepted A q) ∧ (wantsFlush A p ds w).2.2 = w ∧ GentleWaiting A pl (wantsFlush A p ds w).2.1
  | [], hd => ⟨fun _ h => (by cases h), rfl, hd⟩
  | d :: ds, hd => by
    obtain ⟨h1, h2, h3⟩ := flush_gentle p h (ds := ds) fun e he => hd e (List.mem_cons_of_mem _ he)
    have g1 := hd d (List.mem_cons_self ..)
    have g2 := g1.buffer
    simp only [wantsFlush]
    split
    · rw [h2]
      have hf : (∀ q ∈ wantsField A (whereTo w (wantsFlush A p ds w).2.1) d.1 d.2, Accepted A q) ∧
          leftField A (whereTo w (wantsFlush A p ds w).2.1) d.1 = whereTo w (wantsFlush A p ds w).2.1 := by
        by_cases hn : (wantsFlush A p ds w).2.1 = []
        · exact field_gentle ((whereTo_at h _).1 hn) g1
        · exact field_gentle ((whereTo_at h _).2 hn) g2
      refine ⟨fun q hq => ?_, ?_, h3⟩
      · simp only [List.mem_append, List.mem_cons, List.not_mem_nil, or_false] at hq
        rcases hq with (hq | hq) | rfl | rfl
        · exact h1 q hq
        · exact hf.1 q hq
        · rw [hf.2]
          by_cases hn : (wantsFlush A p ds w).2.1 = []
          · exact ((whereTo_at h _).1 hn).write
          · exact ((whereTo_at h _).2 hn).write
        · exact ⟨.vec, rfl, rfl⟩
      · rw [hf.2]
        generalize (wantsFlush A p ds w).2.1 = rest
        cases rest <;> rfl
    · refine ⟨h1, h2, fun e he => ?_⟩
      rcases List.mem_cons.1 he with rfl | he
      · exact g1
      · exact h3 e he

theorem boxed_at {pl : WPlace} {w : Option Wr} (h : WAt pl w) (len : Option Expr) : WAt (pl.inside len) (boxed w len) := by
  cases len with
  | none => exact h
  | some e => exact (rfl : (some Wr.vec) = some .vec)

theorem close_gentle {pl : WPlace} {w : Option Wr} (h : WAt pl w) (p : Plan) (name : String) (len : Option Expr) :
    ∀ q ∈ wantsClose p name len w (boxed w len), Accepted A q := by
  intro q hq
  cases len with
  | none => cases hq
  | some e =>
    have hl : Accepted A (.look, boxed w (some e)) := ⟨.vec, rfl, rfl⟩
    simp only [wantsClose, Option.isSome_some, if_true, List.mem_append, List.mem_cons, List.not_mem_nil, or_false] at hq
    rcases hq with hq | rfl | rfl
    · split at hq
      · rw [List.mem_singleton] at hq
        exact hq ▸ hl
      · cases hq
    · exact h.write
    · exact hl

theorem items_gentle : ∀ (fs : Fields) (p : Plan) {pl : WPlace} {ds : List (FAttr × LTy)} {w : Option Wr}, WAt pl w → GentleItems A pl fs → GentleWaiting A pl ds →
    (∀ q ∈ (wantsItems A fs p ds w).1, Accepted A q) ∧ (wantsItems A fs p ds w).2 = w
  | .nil, p, pl, ds, w, h, _, _ => ⟨fun _ h => (by cases h), rfl⟩
  | .pad n e rest, p, pl, ds, w, h, hf, hd => by
    obtain ⟨h1, h2, h3⟩ := flush_gentle p h hd
    simp only [GentleItems] at hf
    simp only [wantsItems, h2]
    obtain ⟨h4, h5⟩ := items_gentle rest p h hf h3
    refine ⟨fun q hq => ?_, h5⟩
    simp only [List.mem_append, List.mem_cons] at hq
    rcases hq with (rfl | hq) | hq
    · by_cases hn : ds = []
      · exact ((whereTo_at h _).1 hn).write
      · exact ((whereTo_at h _).2 hn).write
    · exact h1 q hq
    · exact h4 q hq
  | .leaf a ty rest, p, pl, ds, w, h, hf, hd => by
    simp only [GentleItems] at hf
    obtain ⟨g1, hr⟩ := hf
    have g2 := g1.buffer
    simp only [wantsItems]
    split
    · have hF : ∀ ds, (∀ q ∈ wantsField A (whereTo w ds) a ty, Accepted A q) ∧ kept (leftField A w a) w ds = w := fun ds => by
        cases ds with
        | nil => exact field_gentle h g1
        | cons d ds => exact ⟨(field_gentle (pl := .buffer) (w := some .vec) rfl g2).1, rfl⟩
      rw [(hF ds).2]
      obtain ⟨h1, h2, h3⟩ := flush_gentle p h hd
      simp only [h2]
      obtain ⟨h4, h5⟩ := items_gentle rest p h hr h3
      refine ⟨fun q hq => ?_, h5⟩
      simp only [List.mem_append] at hq
      rcases hq with (hq | hq) | hq
      · exact (hF ds).1 q hq
      · exact h1 q hq
      · exact h4 q hq
    · refine items_gentle rest _ h hr fun d hd' => ?_
      rcases List.mem_append.1 hd' with hd' | hd'
      · exact hd d hd'
      · cases List.mem_singleton.1 hd'
        exact g1
  | .cont a len items rest, p, pl, ds, w, h, hf, hd => by
    simp only [GentleItems] at hf
    obtain ⟨g1, g2, hr⟩ := hf
    have key : ∀ (pl' : WPlace) (u : Option Wr), WAt pl' u → GentleUse A pl' a.xfs → GentleItems A ((pl'.behind a.xfs).inside len) items →
        (∀ q ∈ wantsAround A a.xfs u ((wantsItems A items p [] (boxed (behindAll u a.xfs) len)).1 ++ wantsClose (planItems items p) a.name len (behindAll u a.xfs)
            (wantsItems A items p [] (boxed (behindAll u a.xfs) len)).2)
            (if len.isSome then behindAll u a.xfs else (wantsItems A items p [] (boxed (behindAll u a.xfs) len)).2), Accepted A q) ∧
          leftAround A a.xfs u (if len.isSome then behindAll u a.xfs else (wantsItems A items p [] (boxed (behindAll u a.xfs) len)).2) = u := by
      intro pl' u hu k1 k2
      have hb := behindAll_at hu a.xfs
      obtain ⟨i1, i2⟩ := items_gentle items p (boxed_at hb len) k2 (ds := []) (fun _ h => by cases h)
      refine around_gentle hu k1 (fun q hq => ?_) ?_
      · rcases List.mem_append.1 hq with hq | hq
        · exact i1 q hq
        · rw [i2] at hq
          exact close_gentle hb _ _ _ q hq
      · rw [i2]
        cases len <;> rfl
    have hF : ∀ ds, (∀ q ∈ wantsAround A a.xfs (whereTo w ds) ((wantsItems A items p [] (boxed (behindAll (whereTo w ds) a.xfs) len)).1 ++
        wantsClose (planItems items p) a.name len (behindAll (whereTo w ds) a.xfs)
            (wantsItems A items p [] (boxed (behindAll (whereTo w ds) a.xfs) len)).2)
            (if len.isSome then behindAll (whereTo w ds) a.xfs else (wantsItems A items p [] (boxed (behindAll (whereTo w ds) a.xfs) len)).2), Accepted A q) ∧
        kept (leftAround A a.xfs w (if len.isSome then behindAll (whereTo w ds) a.xfs else (wantsItems A items p [] (boxed (behindAll (whereTo w ds) a.xfs) len)).2))
          w ds = w := fun ds => by
      cases ds with
      | nil => exact key pl w h g1 g2
      | cons d ds =>
        exact ⟨(key .buffer (some .vec) rfl g1.buffer (by
          have : GentleItems A .buffer (.cont a len items .nil) := GentleItems.buffer (pl := pl) (by simp only [GentleItems]; exact ⟨g1, g2, trivial⟩)
          simp only [GentleItems] at this
          exact this.2.1)).1, rfl⟩
    simp only [wantsItems]
    obtain ⟨h1, h2, h3⟩ := flush_gentle ((planItems items p).close a.name len) h hd
    rw [(hF ds).2]
    simp only [h2]
    obtain ⟨h4, h5⟩ := items_gentle rest ((planItems items p).close a.name len) h hr h3
    refine ⟨fun q hq => ?_, h5⟩
    simp only [List.mem_append] at hq
    rcases hq with (hq | hq) | hq
    · exact (hF ds).1 q (by simpa only [List.mem_append] using hq)
    · exact h1 q hq
    · exact h4 q hq

theorem arms_gentle : ∀ (arms : List Arm) (p : Plan) {pl : WPlace} {w : Option Wr}, WAt pl w →
    (∀ arm ∈ arms, match arm.body with
      | .leaf ty => GentleField A pl arm.attr.xfs ty
      | .cont _ items => GentleItems A pl items) →
    (∀ q ∈ (wantsArms A arms p w).1, Accepted A q) ∧ (wantsArms A arms p w).2 = true
  | [], p, pl, w, h, _ => ⟨fun _ h => (by cases h), rfl⟩
  | arm :: arms, p, pl, w, h, hf => by
    have ha : (∀ q ∈ (wantsArm A arm p w).1, Accepted A q) ∧ (wantsArm A arm p w).2 = w := by
      have := hf arm (List.mem_cons_self ..)
      revert this
      unfold wantsArm
      cases arm.body with
      | leaf ty => exact fun hg => field_gentle h hg
      | cont len items => exact fun hg => items_gentle items p h hg (fun _ h => by cases h)
    obtain ⟨h1, h2⟩ := arms_gentle arms (planArm arm p) h fun b hb => hf b (List.mem_cons_of_mem _ hb)
    simp only [wantsArms]
    split
    · refine ⟨fun q hq => ?_, by simp [ha.2, h2]⟩
      rcases List.mem_append.1 hq with hq | hq
      · exact ha.1 q hq
      · exact h1 q hq
    · exact ⟨ha.1, by simp [ha.2]⟩

/-- **C72.** If every field, container and type has at most one transform, which borrows its writer or writes to a buffer, and behind which there are no
references and no further transforms outside of containers with a length, then rustc accepts what the encoder does with its writers; in particular if there are
no transforms. Calculated fields that wait for lengths, containers with lengths and conditions are included. -/
theorem gentle_writers_ok (d : Decl) (h : GentleDecl A d) : ∀ q ∈ asked A (genDecl d).2 atStart, Accepted A q := by
  rw [genDecl_asked]
  have hw : WAt .writer (some .own) := .inl rfl
  have hb := behindAll_at hw d.xfs
  obtain ⟨h1, h2⟩ := h
  unfold wants
  revert h2
  cases d.body with
  | leaf c ty => exact fun h2 => (around_gentle hw h1 (wantsLeaf_gentle ty hb h2) rfl).1
  | repr t =>
    refine fun _ => (around_gentle hw h1 (fun q hq => ?_) rfl).1
    rw [List.mem_singleton] at hq
    exact hq ▸ hb.write
  | struct len items =>
    intro h2
    obtain ⟨i1, i2⟩ := items_gentle items .init (boxed_at hb len) h2 (ds := []) (fun _ h => by cases h)
    refine (around_gentle hw h1 (fun q hq => ?_) ?_).1
    · rcases List.mem_append.1 hq with hq | hq
      · exact i1 q hq
      · rw [i2] at hq
        exact close_gentle hb _ _ _ q hq
    · rw [i2]
      cases len <;> rfl
  | tagged len arms =>
    intro h2
    obtain ⟨i1, i2⟩ := arms_gentle arms .init (boxed_at hb len) h2
    simp only [i2, if_true]
    refine (around_gentle hw h1 (fun q hq => ?_) ?_).1
    · rcases List.mem_append.1 hq with hq | hq
      · exact i1 q hq
      · exact close_gentle hb _ _ _ q hq
    · cases len <;> rfl

/-! ### Types that are refused -/

/-- A use that rustc refuses. -/
def Refused (A : Api) (q : Ask × Option Wr) : Prop := ∀ w, q.2 = some w → able A w q.1 = false

theorem Refused.not {q : Ask × Option Wr} (h : Refused A q) : ¬ Accepted A q := fun ⟨w, h1, h2⟩ => by
  rw [h w h1] at h2
  cases h2

theorem refused_none (a : Ask) : Refused A (a, none) := fun _ h => by cases h

/-- What a transform makes is neither a buffer nor a reference to a type of known size. -/
theorem behindOne_not (x : XformUse) (w : Option Wr) : ∀ v, behindOne x w = some v → v ≠ .vec ∧ v.ref = false := by
  intro v hv
  simp only [behindOne] at hv
  split at hv
  · cases hv
    exact ⟨by simp, rfl⟩
  · cases w with
    | none => cases hv
    | some u =>
      cases hv
      exact ⟨by simp, rfl⟩

theorem behindAll_not : ∀ (xs : List XformUse) (x : XformUse) (w : Option Wr) (v : Wr), behindAll w (x :: xs) = some v → v ≠ .vec ∧ v.ref = false
  | [], x, w, v, h => behindOne_not x w v h
  | y :: ys, x, w, v, h => behindAll_not ys y (behindOne x w) v h

/-- Two or more transforms, one around another. -/
theorem around_stacked (x y : XformUse) (ys : List XformUse)
    (hy : (A.xf y.name).moves = true ∨ (A.xf y.name).needsRef = true ∨ (x.cond = none ∧ y.cond.isSome)) (w e : Option Wr) (body : Asks) :
    ∃ q ∈ wantsAround A (x :: y :: ys) w body e, Refused A q := by
  have hb := behindOne_not x w
  rcases hy with hm | hn | ⟨hx, hc⟩
  · refine ⟨(.write, A.left y.name (behindOne x w)), ?_, ?_⟩
    · simp only [wantsAround]
      exact List.mem_append_right _ (List.mem_singleton.2 rfl)
    · have : A.left y.name (behindOne x w) = none := by
        cases hv : behindOne x w with
        | none => rfl
        | some v => simp [Api.left, Api.returns, hm, (hb v hv).1]
      rw [this]
      exact refused_none _
  · refine ⟨(.wrap y.name, behindOne x w), ?_, fun v hv => ?_⟩
    · refine List.mem_append_left _ (List.mem_append_right _ ?_)
      simp only [wantsAround]
      refine List.mem_append_left _ (List.mem_append_left _ ?_)
      exact List.mem_cons_self ..
    · simp only at hv
      simp [able, hn, (hb v hv).2]
  · refine ⟨(.cast, behindOne x w), ?_, fun v hv => ?_⟩
    · refine List.mem_append_left _ (List.mem_append_right _ ?_)
      simp only [wantsAround]
      refine List.mem_append_left _ (List.mem_append_left _ ?_)
      simp [wantsOpen, hc]
    · simp only [behindOne, hx, Option.isSome_none, Bool.false_eq_true, if_false] at hv
      cases w with
      | none => cases hv
      | some u =>
        cases hv
        rfl

theorem mem_around {q : Ask × Option Wr} {body : Asks} (hq : q ∈ body) : ∀ (xs : List XformUse) (w e : Option Wr), q ∈ wantsAround A xs w body e
  | [], _, _ => hq
  | _ :: xs, _, e => List.mem_append_left _ (List.mem_append_right _ (mem_around hq xs _ e))

/-- Spec: `fs` is the rest of the items of a container, behind some of them, or of a container among them. -/
inductive Inside (fs : Fields) : Fields → Prop
  | here : Inside fs fs
  | pad {n e rest} : Inside fs rest → Inside fs (.pad n e rest)
  | leaf {a ty rest} : Inside fs rest → Inside fs (.leaf a ty rest)
  | cont {a len items rest} : Inside fs rest → Inside fs (.cont a len items rest)
  | inner {a len items rest} : Inside fs items → Inside fs (.cont a len items rest)

theorem Inside.wants {fs gs : Fields} (h : Inside fs gs) : ∀ p ds w, ∃ p' ds' w', ∀ q ∈ (wantsItems A fs p' ds' w').1, q ∈ (wantsItems A gs p ds w).1 := by
  induction h with
  | here => exact fun p ds w => ⟨p, ds, w, fun _ h => h⟩
  | pad _ ih =>
    intro p ds w
    obtain ⟨p', ds', w', h⟩ := ih p (wantsFlush A p ds w).2.1 (wantsFlush A p ds w).2.2
    exact ⟨p', ds', w', fun q hq => List.mem_append_right _ (h q hq)⟩
  | @leaf a ty rest _ ih =>
    intro p ds w
    simp only [wantsItems]
    split
    · obtain ⟨p', ds', w', h⟩ := ih p (wantsFlush A p ds (kept (leftField A w a) w ds)).2.1 (wantsFlush A p ds (kept (leftField A w a) w ds)).2.2
      exact ⟨p', ds', w', fun q hq => List.mem_append_right _ (h q hq)⟩
    · exact ih _ _ _
  | cont _ ih =>
    intro p ds w
    simp only [wantsItems]
    obtain ⟨p', ds', w', h⟩ := ih _ _ _
    exact ⟨p', ds', w', fun q hq => List.mem_append_right _ (h q hq)⟩
  | inner _ ih =>
    intro p ds w
    simp only [wantsItems]
    obtain ⟨p', ds', w', h⟩ := ih _ _ _
    exact ⟨p', ds', w', fun q hq => List.mem_append_left _ (List.mem_append_left _ (mem_around (List.mem_append_left _ (h q hq)) _ _ _))⟩

/-- Spec: a type that is a struct has the transforms `xs` at itself, at a container, or at a field that waits for no length. -/
inductive UsesXforms (d : Decl) : List XformUse → Prop
  | type : UsesXforms d d.xfs
  | field {len items a ty rest} : d.body = .struct len items → Inside (.leaf a ty rest) items → FAttr.blens a = [] → UsesXforms d a.xfs
  | container {len items a l is rest} : d.body = .struct len items → Inside (.cont a l is rest) items → UsesXforms d a.xfs

theorem struct_wants {d : Decl} {len : Option Expr} {items : Fields} (hd : d.body = .struct len items) {fs : Fields} (h : Inside fs items) :
    ∃ p ds w, ∀ q ∈ (wantsItems A fs p ds w).1, q ∈ wants A d := by
  obtain ⟨p, ds, w, hi⟩ := h.wants (A := A) .init [] (boxed (behindAll (some .own) d.xfs) len)
  refine ⟨p, ds, w, fun q hq => ?_⟩
  unfold wants
  rw [hd]
  exact mem_around (List.mem_append_left _ (hi q hq)) _ _ _

/-- **C72, the negative side.** Transforms cannot be stacked: if there are two of them at a field, container or type, and the second one takes its writer (as all of
the prelude do) or needs a reference, or has a condition and the first one has none, then rustc refuses the encoder: the stream of the first is a value that has been
moved into the second when it should be flushed, or is not the `&mut W` that is asked for, or not a reference that could be made a `&mut dyn Write`. -/
theorem stacked_transforms_refused (d : Decl) (x y : XformUse) (ys : List XformUse) (h : UsesXforms d (x :: y :: ys))
    (hy : (A.xf y.name).moves = true ∨ (A.xf y.name).needsRef = true ∨ (x.cond = none ∧ y.cond.isSome)) : ∃ q ∈ asked A (genDecl d).2 atStart, ¬ Accepted A q := by
  rw [genDecl_asked]
  suffices ∃ q ∈ wants A d, Refused A q from this.imp fun q h => ⟨h.1, h.2.not⟩
  generalize hxs : x :: y :: ys = xs at h
  cases h with
  | type =>
    unfold wants
    cases d.body <;> (rw [← hxs]; exact around_stacked x y ys hy _ _ _)
  | @field len items a ty rest hd hi hb =>
    obtain ⟨p, ds, w, hw⟩ := struct_wants (A := A) hd hi
    obtain ⟨q, hq, hr⟩ := around_stacked (A := A) x y ys hy (whereTo w ds) (behindAll (whereTo w ds) (x :: y :: ys))
      (wantsLeaf (behindAll (whereTo w ds) (x :: y :: ys)) ty)
    refine ⟨q, hw q ?_, hr⟩
    simp only [wantsItems, hb, List.isEmpty_nil, Bool.true_or, if_true]
    refine List.mem_append_left _ (List.mem_append_left _ ?_)
    unfold wantsField
    rw [← hxs]
    exact hq
  | @container len items a l is rest hd hi =>
    obtain ⟨p, ds, w, hw⟩ := struct_wants (A := A) hd hi
    have := around_stacked (A := A) x y ys hy (whereTo w ds)
      (if l.isSome then behindAll (whereTo w ds) a.xfs else (wantsItems A is p [] (boxed (behindAll (whereTo w ds) a.xfs) l)).2)
      ((wantsItems A is p [] (boxed (behindAll (whereTo w ds) a.xfs) l)).1 ++ wantsClose (planItems is p) a.name l (behindAll (whereTo w ds) a.xfs)
        (wantsItems A is p [] (boxed (behindAll (whereTo w ds) a.xfs) l)).2)
    rw [hxs] at this
    obtain ⟨q, hq, hr⟩ := this
    refine ⟨q, hw q ?_, hr⟩
    simp only [wantsItems]
    exact List.mem_append_left _ (List.mem_append_left _ hq)

/-- Spec: encoding the type means to call the encoder of another one of the specification. Arrays of primitives and enums, even by reference, are written by the
code itself, unless they end with a terminator. -/
def CallsType : LTy → Prop
  | .prim _ => False
  | .ref _ foreign _ _ => foreign = false
  | .array el len => CallsType el ∧ (el.resolved = .other ∨ ∃ e, len = .term e)

theorem wantsLeaf_calls : ∀ {ty : LTy}, CallsType ty → ∀ w, ∃ n, (Ask.call n, w) ∈ wantsLeaf w ty
  | .prim _, h, _ => h.elim
  | .ref n f r args, h, w => by
    simp only [CallsType] at h
    exact ⟨n, by simp [wantsLeaf, h]⟩
  | .array el len, h, w => by
    obtain ⟨h, ho⟩ := h
    obtain ⟨n, hn⟩ := wantsLeaf_calls (ty := el) h w
    refine ⟨n, ?_⟩
    cases len with
    | term e => exact List.mem_append_left _ hn
    | fixed e =>
      have : el.resolved = .other := ho.resolve_right (by simp)
      simpa only [wantsLeaf, this] using hn
    | unbounded =>
      have : el.resolved = .other := ho.resolve_right (by simp)
      simpa only [wantsLeaf, this] using hn

/-- **C72, the negative side.** A reference to a type right behind a transform is refused: the encoder of the type asks for a `&mut W`, and gets the stream itself, or a
reference to something of unknown size. -/
theorem reference_behind_transform_refused (d : Decl) (len : Option Expr) (items : Fields) (hd : d.body = .struct len items) (a : FAttr) (ty : LTy) (rest : Fields)
    (hi : Inside (.leaf a ty rest) items) (hb : FAttr.blens a = []) (hx : a.xfs ≠ []) (hc : CallsType ty) :
    ∃ q ∈ asked A (genDecl d).2 atStart, ¬ Accepted A q := by
  rw [genDecl_asked]
  obtain ⟨p, ds, w, hw⟩ := struct_wants (A := A) hd hi
  obtain ⟨n, hn⟩ := wantsLeaf_calls hc (behindAll (whereTo w ds) a.xfs)
  refine ⟨(.call n, behindAll (whereTo w ds) a.xfs), hw _ ?_, Refused.not fun v hv => ?_⟩
  · simp only [wantsItems, hb, List.isEmpty_nil, Bool.true_or, if_true]
    exact List.mem_append_left _ (List.mem_append_left _ (mem_around hn _ _ _))
  · revert hv hx
    cases a.xfs with
    | nil => exact fun hx => absurd rfl hx
    | cons x xs => exact fun _ hv => (behindAll_not xs x _ v hv).2

/-- The same for a type that is itself behind transforms. -/
theorem reference_type_behind_transform_refused (d : Decl) (c : Option Expr) (ty : LTy) (hd : d.body = .leaf c ty) (hx : d.xfs ≠ []) (hc : CallsType ty) :
    ∃ q ∈ asked A (genDecl d).2 atStart, ¬ Accepted A q := by
  rw [genDecl_asked]
  obtain ⟨n, hn⟩ := wantsLeaf_calls hc (behindAll (some .own) d.xfs)
  refine ⟨(.call n, behindAll (some .own) d.xfs), ?_, Refused.not fun v hv => ?_⟩
  · unfold wants
    rw [hd]
    exact mem_around hn _ _ _
  · revert hv hx
    cases d.xfs with
    | nil => exact fun hx => absurd rfl hx
    | cons x xs => exact fun _ hv => (behindAll_not xs x _ v hv).2

/-- Spec: like `Inside`, not looking into containers with a length, and passing no calculated field that waits for one. -/
inductive Along (fs : Fields) : Fields → Prop
  | here : Along fs fs
  | pad {n e rest} : Along fs rest → Along fs (.pad n e rest)
  | leaf {a ty rest} : FAttr.blens a = [] → Along fs rest → Along fs (.leaf a ty rest)
  | cont {a len items rest} : Along fs rest → Along fs (.cont a len items rest)
  | inner {a items rest} : Along fs items → Along fs (.cont a none items rest)

theorem behindAll_nonvec : ∀ (xs : List XformUse) {w : Option Wr}, w ≠ some .vec → behindAll w xs ≠ some .vec
  | [], _, h => h
  | x :: xs, w, _ => fun h => (behindAll_not xs x w _ h).1 rfl

theorem Along.wants {fs gs : Fields} (h : Along fs gs) : ∀ p w, w ≠ some .vec → ∃ p' w', w' ≠ some .vec ∧
    ∀ q ∈ (wantsItems A fs p' [] w').1, q ∈ (wantsItems A gs p [] w).1 := by
  have kn : ∀ {w e : Option Wr}, Keeps w e → w ≠ some .vec → e ≠ some .vec := by
    rintro w e (rfl | ⟨rfl, -⟩) h
    · exact h
    · simp
  induction h with
  | here => exact fun p w hw => ⟨p, w, hw, fun _ h => h⟩
  | pad _ ih =>
    intro p w hw
    obtain ⟨p', w', h1, h2⟩ := ih p w hw
    exact ⟨p', w', h1, fun q hq => List.mem_append_right _ (h2 q hq)⟩
  | @leaf a ty rest hb _ ih =>
    intro p w hw
    obtain ⟨p', w', h1, h2⟩ := ih p (leftField A w a) (kn (leftField_keeps A w a) hw)
    refine ⟨p', w', h1, fun q hq => ?_⟩
    simp only [wantsItems, hb, List.isEmpty_nil, Bool.true_or, if_true]
    exact List.mem_append_right _ (h2 q hq)
  | @cont a len items rest _ ih =>
    intro p w hw
    obtain ⟨p', w', h1, h2⟩ := ih ((planItems items p).close a.name len)
      (leftAround A a.xfs w (if len.isSome then behindAll w a.xfs else (wantsItems A items p [] (boxed (behindAll w a.xfs) len)).2))
      (kn (leftAround_keeps A _ _ _ (by
        cases len with
        | none => exact wantsItems_keeps A items p [] _
        | some e => exact Keeps.refl _)) hw)
    refine ⟨p', w', h1, fun q hq => ?_⟩
    simp only [wantsItems]
    exact List.mem_append_right _ (h2 q hq)
  | @inner a items rest _ ih =>
    intro p w hw
    obtain ⟨p', w', h1, h2⟩ := ih p (behindAll w a.xfs) (behindAll_nonvec _ hw)
    refine ⟨p', w', h1, fun q hq => ?_⟩
    simp only [wantsItems]
    exact List.mem_append_left _ (List.mem_append_left _ (mem_around (List.mem_append_left _ (h2 q hq)) _ _ _))

theorem wantsLeaf_lost : ∀ ty, ∃ a, (a, none) ∈ wantsLeaf none ty
  | .prim p => ⟨_, List.mem_singleton.2 rfl⟩
  | .ref n f res args => ⟨_, List.mem_singleton.2 rfl⟩
  | .array el len => by
    cases len with
    | term e => exact ⟨_, List.mem_append_right _ (List.mem_singleton.2 rfl)⟩
    | fixed e =>
      simp only [wantsLeaf]
      split
      · exact wantsLeaf_lost el
      · exact ⟨_, List.mem_singleton.2 rfl⟩
    | unbounded =>
      simp only [wantsLeaf]
      split
      · exact wantsLeaf_lost el
      · exact ⟨_, List.mem_singleton.2 rfl⟩

theorem wantsField_lost (a : FAttr) (ty : LTy) : ∃ k, (k, none) ∈ wantsField A none a ty := by
  unfold wantsField
  cases a.xfs with
  | nil => exact wantsLeaf_lost ty
  | cons x xs => exact ⟨_, List.mem_append_left _ (List.mem_append_left _ (List.mem_cons_self ..))⟩

/-- **C72, the negative side.** Outside of containers with a length, nothing can be written behind a field with a transform that takes its writer, as gzip and base64 do: if a
field or a padding follows, rustc refuses the encoder (use of a moved value). -/
theorem write_behind_moved_refused (d : Decl) (items : Fields) (hd : d.body = .struct none items) (a : FAttr) (ty : LTy) (x : XformUse) (xs : List XformUse)
    (hx : a.xfs = x :: xs) (hm : (A.xf x.name).moves = true) (hb : FAttr.blens a = []) (next : Fields)
    (hn : (∃ n e rest, next = .pad n e rest) ∨ ∃ b ty' rest, next = .leaf b ty' rest ∧ FAttr.blens b = []) (hi : Along (.leaf a ty next) items) :
    ∃ q ∈ asked A (genDecl d).2 atStart, q.2 = none := by
  rw [genDecl_asked]
  obtain ⟨p, w, hw, hs⟩ := hi.wants (A := A) .init (behindAll (some .own) d.xfs) (behindAll_nonvec _ (by simp))
  have hl : leftField A w a = none := by
    unfold leftField
    rw [hx]
    cases w with
    | none => rfl
    | some v =>
      have : v ≠ .vec := fun h => hw (by rw [h])
      simp [leftAround, Api.left, Api.returns, hm, this]
  have hnone : ∃ k, (k, none) ∈ (wantsItems A next p [] none).1 := by
    rcases hn with ⟨n, e, rest, rfl⟩ | ⟨b, ty', rest, rfl, hb'⟩
    · exact ⟨_, List.mem_cons_self ..⟩
    · obtain ⟨k, hk⟩ := wantsField_lost (A := A) b ty'
      refine ⟨k, ?_⟩
      simp only [wantsItems, hb', List.isEmpty_nil, Bool.true_or, if_true]
      exact List.mem_append_left _ (List.mem_append_left _ hk)
  obtain ⟨k, hk⟩ := hnone
  refine ⟨(k, none), ?_, rfl⟩
  unfold wants
  rw [hd]
  refine mem_around (List.mem_append_left _ (hs _ ?_)) _ _ _
  simp only [wantsItems, hb, List.isEmpty_nil, Bool.true_or, if_true]
  refine List.mem_append_right _ ?_
  simp only [kept, wantsFlush, hl]
  exact hk

/-! ### C73 -/

/-- The type that a writer has where the encoder's own is `w`. -/
def wrWithin (w : Wr) : Wr → Wr
  | .own => w
  | .vec => .vec
  | .xf n v => .xf n (wrWithin w v)
  | .dyn => .dyn

/-- Spec: rustc needs the copy of the encoder of type `m` for the writer type `w`, if the encoder of `n` is called with some writer (`own`). -/
inductive EncInst (A : Api) (sch : Schema) (n : String) : String → Wr → Prop
  | start : EncInst A sch n n .own
  | call {m w d k v} : EncInst A sch n m w → d ∈ sch → d.name = m → (Ask.call k, some v) ∈ asked A (genDecl d).2 atStart → EncInst A sch n k (wrWithin w v)

/-- **C73.** If rustc accepts how encoders use their writers, it needs each of them for at most two types of writers: the one that the program calls with, and `Vec<u8>`. Thus
there are finitely many copies, however types refer to one another. -/
theorem encoder_instances (A : Api) (sch : Schema) (h : ∀ d ∈ sch, ∀ q ∈ asked A (genDecl d).2 atStart, Accepted A q) (n m : String) (w : Wr)
    (hi : EncInst A sch n m w) : w = .own ∨ w = .vec := by
  induction hi with
  | start => exact .inl rfl
  | @call m w d k v _ hd _ hq ih =>
    obtain ⟨v', e, hr⟩ := h d hd _ hq
    cases e
    cases v with
    | own => exact ih
    | vec => exact .inr rfl
    | xf n v => cases hr
    | dyn => cases hr

/-- The names that are called are those of `l`, if it has the names of the specification's references. -/
theorem encoder_instances_finite (A : Api) (sch : Schema) (h : ∀ d ∈ sch, ∀ q ∈ asked A (genDecl d).2 atStart, Accepted A q) (n : String) :
    ∃ l : List (String × Wr), ∀ m w, EncInst A sch n m w → (m, w) ∈ l := by
  let called : Ask × Option Wr → List String := fun q => match q.1 with | .call k => [k] | _ => []
  refine ⟨(n :: sch.flatMap fun d => (asked A (genDecl d).2 atStart).flatMap called).flatMap fun m => [(m, .own), (m, .vec)], fun m w hi => ?_⟩
  refine List.mem_flatMap.2 ⟨m, ?_, ?_⟩
  · cases hi with
    | start => exact List.mem_cons_self ..
    | call _ hd _ hq =>
      exact List.mem_cons_of_mem _ (List.mem_flatMap.2 ⟨_, hd, List.mem_flatMap.2 ⟨_, hq, List.mem_singleton.2 rfl⟩⟩)
  · rcases encoder_instances A sch h n m w hi with rfl | rfl <;> simp

/-! ### Cases -/

/-- The transforms of the prelude: `flate2::write::GzEncoder::new(w: W, level)` (`prelude/gzip.rs` 37) and `base64::write::EncoderWriter::new(w: W, ..)` of base64 0.13
(`prelude/base64.rs` 36) take their target. The code of the foreign types of the prelude only calls `write_all`. The signatures in flate2 and base64 are from their
documentation. -/
def preludeSinks : Api := ⟨fun _ => ⟨true, false⟩, fun _ _ => false⟩

/-- Transforms like `test_transform` (`tests/mod.rs` 57-95), which has a field `inner: &'a mut W`: they borrow, and need a reference. -/
def borrowingSinks : Api := ⟨fun _ => ⟨false, true⟩, fun _ _ => false⟩

def sinksOk (A : Api) (src : String) : Option Bool := (specOf [] src).map fun sch => sch.all (writersOk A)

/-- The shape of the test `mcproto` of the repository, with a calculated length, and those of its tests of transforms, are fine. So are: two compressed fields in a container
with a length, a compressed field behind a field that waits for a length, and a recursive type with lengths. -/
theorem sinks_accepted :
    sinksOk preludeSinks "import_ffi gzip as transform; type p = container { n: u16 = blen(packet) :> u16, packet: container [n] { m: u8, inner: container { id: u32, data: u8[..] } -> gzip { m > 0u8 } } };" = some true ∧
    sinksOk preludeSinks "import_ffi base64 as transform; type tester = container { n: u32, is_present: bool, is_base64: bool, data: u8[n] {is_present} -> base64 {is_base64} }; type test = tester;" = some true ∧
    sinksOk borrowingSinks "import_ffi base64 as transform; type tester = container { n: u32, is_present: bool, is_base64: bool, data: u8[n] {is_present} -> base64 {is_base64}, k: u8 }; type test = tester;" = some true ∧
    sinksOk preludeSinks "import_ffi gzip as transform; type p = container { n: u8, m: u8, c: container [m] { data: u8[n] -> gzip, tail: u8[2] -> gzip } };" = some true ∧
    sinksOk preludeSinks "import_ffi gzip as transform; type p = container { n: u8 = blen(c) :> u8, d: u8[2] -> gzip, c: container [n] { data: u8[..] -> gzip } };" = some true ∧
    sinksOk preludeSinks "type t = container { n: u8 = blen(c) :> u8, c: container [n] { kids: t[..] } };" = some true := by decide +kernel

/-- Findings: accepted specifications whose encoders rustc refuses. A field behind a compressed one, even if that is conditional; a reference to a type behind a transform,
whichever; two transforms at a field, whichever. -/
theorem sink_findings :
    sinksOk preludeSinks "import_ffi gzip as transform; type p = container { n: u8, data: u8[n] -> gzip, tail: u8 };" = some false ∧
    sinksOk preludeSinks "import_ffi gzip as transform; type p = container { n: u8, m: u8, data: u8[n] { m > 0u8 } -> gzip, tail: u8 };" = some false ∧
    sinksOk preludeSinks "import_ffi gzip as transform; type h = container { a: u8 }; type p = container { h: h -> gzip };" = some false ∧
    sinksOk borrowingSinks "import_ffi gzip as transform; type h = container { a: u8 }; type p = container { h: h -> gzip };" = some false ∧
    sinksOk preludeSinks "import_ffi gzip as transform; import_ffi base64 as transform; type p = container { n: u8, c: container [n] { data: u8[..] -> gzip -> base64 } };" = some false ∧
    sinksOk borrowingSinks "import_ffi gzip as transform; import_ffi base64 as transform; type p = container { n: u8, c: container [n] { data: u8[..] -> gzip -> base64 } };" = some false := by
  decide +kernel

/-- `container { n: u8 = blen(c), d: u8[n] -> x, c: container [n] { h: other } -> x { f } }` -/
def sinkCase : Decl :=
  ⟨"t", [], [], .struct none (.leaf ⟨"n", none, [], some (.blen "c")⟩ (.prim (.scalar ⟨.u8, .big⟩))
    (.leaf ⟨"d", none, [⟨"x", none, []⟩], none⟩ (.array (.prim (.scalar ⟨.u8, .big⟩)) (.fixed (.fieldRef "n")))
    (.cont ⟨"c", none, [⟨"x", some (.bool true), []⟩], none⟩ (some (.fieldRef "n")) (.leaf ⟨"h", none, [], none⟩ (.ref "other" false .other []) .nil) .nil)))⟩

/-- `gentle_writers_ok` applies to it, if `x` borrows; the same type, with a reference at `d`, or with transforms that move, is refused by the negative theorems. -/
example : GentleDecl borrowingSinks sinkCase := by
  simp [GentleDecl, sinkCase, GentleItems, GentleField, GentleUse, WPlace.inside, WPlace.behind, Callless, borrowingSinks]

example : ∃ q ∈ asked preludeSinks (genDecl ⟨"t", [], [], .struct none (.leaf ⟨"d", none, [⟨"x", none, []⟩], none⟩ (.ref "o" false .other []) .nil)⟩).2 atStart, ¬ Accepted preludeSinks q :=
  reference_behind_transform_refused _ none _ rfl ⟨"d", none, [⟨"x", none, []⟩], none⟩ (.ref "o" false .other []) .nil .here rfl (by simp) rfl

example (ty : LTy) : ∃ q ∈ asked preludeSinks (genDecl ⟨"t", [], [], .struct none (.pad "p" (.bool true) (.leaf ⟨"d", none, [⟨"x", none, []⟩, ⟨"y", none, []⟩], none⟩ ty .nil))⟩).2 atStart,
    ¬ Accepted preludeSinks q :=
  stacked_transforms_refused _ ⟨"x", none, []⟩ ⟨"y", none, []⟩ [] (.field (a := ⟨"d", none, [⟨"x", none, []⟩, ⟨"y", none, []⟩], none⟩) rfl (.pad .here) rfl) (.inl rfl)

/-- Even transforms that only borrow their writers cannot be stacked, if the outer one has no condition and the inner one has. -/
example (ty : LTy) : ∃ q ∈ asked borrowingSinks (genDecl ⟨"t", [], [], .struct none (.leaf ⟨"d", none, [⟨"x", none, []⟩, ⟨"y", some (.bool true), []⟩], none⟩ ty .nil)⟩).2 atStart,
    ¬ Accepted borrowingSinks q :=
  stacked_transforms_refused _ ⟨"x", none, []⟩ ⟨"y", some (.bool true), []⟩ [] (.field (a := ⟨"d", none, [⟨"x", none, []⟩, ⟨"y", some (.bool true), []⟩], none⟩) rfl .here rfl)
    (.inr (.inr ⟨rfl, rfl⟩))

example (ty : LTy) : ∃ q ∈ asked preludeSinks (genDecl ⟨"t", [], [], .struct none (.leaf ⟨"d", none, [⟨"x", none, []⟩], none⟩ ty (.pad "p" (.bool true) .nil))⟩).2 atStart, q.2 = none :=
  write_behind_moved_refused _ _ rfl ⟨"d", none, [⟨"x", none, []⟩], none⟩ ty ⟨"x", none, []⟩ [] rfl rfl rfl _ (.inl ⟨_, _, _, rfl⟩) .here

/-- A tree with a length calls itself with its own writer, and with a buffer. -/
example : EncInst preludeSinks [⟨"t", [], [], .struct (some (.bool true)) (.leaf ⟨"k", none, [], none⟩ (.ref "t" false .other []) .nil)⟩] "t" "t" .vec :=
  .call (m := "t") (w := .own) (v := .vec) .start (List.mem_singleton.2 rfl) rfl (by rw [genDecl_asked]; decide)

end Verif.Props
