import Verif.Sem.ElabProgram
/-!
# The expressions of a converted module have the types their places ask for
-/
namespace Verif.Sem
open Verif

/-! ## Specification -/

/-- Where and when an expression is looked at. -/
structure View where
  env : Env
  /-- the names of the module -/
  p : Prog
  /-- fields that are not finished -/
  opn : List FId
  /-- the types that may not have been known -/
  pend : FId → Prop
  /-- the graph -/
  h : Heap

/-- The graph `h0` an expression was checked in shows what the graph has become: all fields that
were there have the type and parameters they have now, except for fields not visible where the
expression stands; if such an exception is a type of the module it is among those that may not have
been known, and was taken for `bool`. -/
def Seen (V : View) (sc : Scope) (h0 : Heap) : Prop :=
  ∀ (i : FId) (x : AField), h0[i]? = some x → ∃ y : AField, V.h[i]? = some y ∧ y.name = x.name ∧
    y.toplevel = x.toplevel ∧
    ((y.type = x.type ∧ y.arguments = x.arguments) ∨
     (x.type = .bool ∧ (∀ n, ¬ FieldVisible sc n i) ∧ (x.toplevel = true → V.pend i)))

/-- What the scope of an expression and the graph it was checked in must satisfy. -/
structure Moment (V : View) (q : Prog) (sc : Scope) (h0 : Heap) : Prop where
  names : Extends q V.p
  visible : ∀ n f, FieldVisible sc n f → f < V.h.length ∧ f ∉ V.opn
  seen : Seen V sc h0

/-- The expression is well typed and fits the expected type. -/
def Checked (V : View) (P : PType) (e : AExpr) : Prop :=
  ∃ q sc h0, Moment V q sc h0 ∧ Fits V.env h0 P e ∧ WellTyped V.env q sc h0 e

/-- The same for an expression that should have a certain type. -/
def CheckedAs (V : View) (t : AType) (e : AExpr) : Prop :=
  ∃ q sc h0 P, Moment V q sc h0 ∧ Expects h0 t P ∧ Fits V.env h0 P e ∧ WellTyped V.env q sc h0 e

/-- A value of an enum or bitfield: an expression that fits the underlying type, or made from the
previous value. -/
def TypedRep (V : View) (op : BinOp) (rep : EScalar) (c : AConst) : Prop :=
  c.type = .scalar rep ∧ (Checked V (.scalar (.some rep.scalar)) c.value ∨
    ∃ c0 v, c.value = .binary op (.constRef c0) (.int v rep.scalar) ∧ c0.type = .scalar rep)

/-- The expressions in a type: the length of a container is unsigned, that of an array a u64, its
terminator bytes, the values of enums and bitfields fit the underlying type, arguments fit the
parameters. -/
inductive TypedTy (V : View) : AType → Prop
  | container {tag len items isEnum} :
      (∀ e, len = some e → Checked V (.scalar (.defaults .u64)) e) →
      TypedTy V (.container tag len items isEnum)
  | enum {tag n rep items} : (∀ c, .value c ∈ items → TypedRep V .add rep c) →
      TypedTy V (.enum tag n rep items)
  | bitfield {tag n rep items} : (∀ c ∈ items, TypedRep V .shl rep c) →
      TypedTy V (.bitfield tag n rep items)
  | scalar {s} : TypedTy V (.scalar s)
  | f32 : TypedTy V .f32
  | f64 : TypedTy V .f64
  | bool : TypedTy V .bool
  | array {tag el len} : TypedTy V el →
      (∀ e, len = some e → Checked V (.scalar (.some .u64)) e) →
      TypedTy V (.array tag el false len)
  | terminated {tag el len} : TypedTy V el →
      (∀ e, len = some e → Checked V (.array (some (.scalar (.some .u8)))) e) →
      TypedTy V (.array tag el true len)
  | ref {f args q sc h0 x} : Moment V q sc h0 → h0[f]? = some x →
      args.length ≤ x.arguments.length →
      (x.arguments.countP fun a => a.default.isNone) ≤ args.length →
      WellTypedArgs V.env q sc h0 args (x.arguments.map fun a => some a.type) →
      TypedTy V (.ref f args)

/-- A transform is given arguments that fit its parameters, and a boolean condition. -/
def TypedXform (V : View) (x : AXform) : Prop :=
  (∃ params, IMap.get V.p.transforms x.name = some params ∧ required params ≤ x.args.length ∧
    x.args.length ≤ params.length ∧ ∃ q sc h0, Moment V q sc h0 ∧
      WellTypedArgs V.env q sc h0 x.args (params.map (·.type))) ∧
  ∀ e, x.condition = some e → Checked V (.type .bool) e

/-- Everything in a field has the type its place asks for (parameters apart). -/
structure TypedField (V : View) (x : AField) : Prop where
  type : TypedTy V x.type
  condition : ∀ e, x.condition = some e → Checked V (.type .bool) e
  transforms : ∀ t ∈ x.transforms, TypedXform V t
  calculated : ∀ e, x.calculated = some e → CheckedAs V x.type e

/-- The parameters of a type, each with a default value that fits it. -/
def TypedArgs (V : View) (as : List AArg) : Prop :=
  ∀ a ∈ as, TypedTy V a.type ∧ ∀ d, a.default = some d → CheckedAs V a.type d

/-- A constant has a value that fits its type. -/
def TypedConst (V : View) (c : AConst) : Prop := TypedTy V c.type ∧ CheckedAs V c.type c.value

/-- A field directly in a type. -/
def ItemOf : AType → FId → Prop
  | .container _ _ items _, f => ∃ n, (n, f) ∈ items
  | _, _ => False

/-- A field in a type, at any depth. -/
inductive Inside (h : Heap) : AType → FId → Prop
  | item {t f} : ItemOf t f → Inside h t f
  | deeper {t j x f} : ItemOf t j → h[j]? = some x → Inside h x.type f → Inside h t f

/-! ## Later graphs -/

/-- The graph has grown, and only open fields that were blank have changed their type or
parameters. -/
structure Step (opn : List FId) (h h' : Heap) : Prop where
  len : h.length ≤ h'.length
  cells : ∀ (i : FId) (x : AField), h[i]? = some x → ∃ y : AField, h'[i]? = some y ∧
    y.name = x.name ∧ y.toplevel = x.toplevel ∧
    ((y.type = x.type ∧ y.arguments = x.arguments) ∨ (x.type = .bool ∧ i ∈ opn))

theorem Step.refl (opn : List FId) (h : Heap) : Step opn h h :=
  ⟨Nat.le_refl _, fun _ x hx => ⟨x, hx, rfl, rfl, .inl ⟨rfl, rfl⟩⟩⟩

theorem Step.trans {o o' : List FId} {a b c : Heap} (h1 : Step o a b) (h2 : Step o' b c)
    (ho : ∀ i ∈ o', i ∈ o ∨ a.length ≤ i) : Step o a c := by
  refine ⟨Nat.le_trans h1.len h2.len, fun i x hx => ?_⟩
  obtain ⟨y, hy, y1, y2, y3⟩ := h1.cells i x hx
  obtain ⟨z, hz, z1, z2, z3⟩ := h2.cells i y hy
  refine ⟨z, hz, z1.trans y1, z2.trans y2, ?_⟩
  rcases y3 with ⟨t, a⟩ | ⟨t, m⟩
  · rcases z3 with ⟨t', a'⟩ | ⟨t', m'⟩
    · exact .inl ⟨t'.trans t, a'.trans a⟩
    · refine .inr ⟨t ▸ t', (ho i m').resolve_right fun h => ?_⟩
      exact Nat.not_lt.2 h (heap_lt hx)
  · exact .inr ⟨t, m⟩

theorem Step.weaken {o o' : List FId} {a b : Heap} (h : Step o a b) (ho : ∀ i ∈ o, i ∈ o') :
    Step o' a b :=
  ⟨h.len, fun i x hx => by
    obtain ⟨y, hy, y1, y2, y3⟩ := h.cells i x hx
    exact ⟨y, hy, y1, y2, y3.imp id fun ⟨t, m⟩ => ⟨t, ho i m⟩⟩⟩

theorem Step.of_grow {o : List FId} {s s' : St} (g : Grow s s') : Step o s.heap s'.heap :=
  ⟨g.1, fun i x hx => ⟨x, (g.2 i (heap_lt hx)).trans hx, rfl, rfl, .inl ⟨rfl, rfl⟩⟩⟩

theorem Step.alloc (o : List FId) (h : Heap) (x : AField) : Step o h (h ++ [x]) :=
  ⟨by simp, fun i y hy => ⟨y, (List.getElem?_append_left (heap_lt hy)).trans hy, rfl, rfl,
    .inl ⟨rfl, rfl⟩⟩⟩

theorem Step.modify {o : List FId} {h : Heap} {id : FId} {g : AField → AField}
    (hg : ∀ x, h[id]? = some x → (g x).name = x.name ∧ (g x).toplevel = x.toplevel ∧
      (((g x).type = x.type ∧ (g x).arguments = x.arguments) ∨ (x.type = .bool ∧ id ∈ o))) :
    Step o h (h.modify id g) := by
  refine ⟨by simp, fun i x hx => ?_⟩
  by_cases hi : i = id
  · subst hi
    exact ⟨g x, by rw [modify_self, hx]; rfl, hg x hx⟩
  · exact ⟨x, by rw [modify_other _ _ hi, hx], rfl, rfl, .inl ⟨rfl, rfl⟩⟩

/-- The view at a later time, when fewer fields are open: what has changed was open, and only types
that may be unknown were. -/
structure View.To (V W : View) : Prop where
  env : W.env = V.env
  p : W.p = V.p
  opn : ∀ i ∈ W.opn, i ∈ V.opn ∨ V.h.length ≤ i
  pend : ∀ i, V.pend i → W.pend i
  open_pend : ∀ (i : FId) (x : AField), i ∈ V.opn → V.h[i]? = some x → x.toplevel = true → W.pend i
  step : Step V.opn V.h W.h

theorem Moment.to {V W : View} (t : V.To W) {q : Prog} {sc : Scope} {h0 : Heap}
    (m : Moment V q sc h0) : Moment W q sc h0 where
  names := t.p.symm ▸ m.names
  visible n f hf := by
    obtain ⟨a, b⟩ := m.visible n f hf
    refine ⟨Nat.lt_of_lt_of_le a t.step.len, fun hm => ?_⟩
    rcases t.opn f hm with h | h
    · exact b h
    · exact Nat.not_lt.2 h a
  seen i x hx := by
    obtain ⟨y, hy, y1, y2, y3⟩ := m.seen i x hx
    obtain ⟨z, hz, z1, z2, z3⟩ := t.step.cells i y hy
    refine ⟨z, hz, z1.trans y1, z2.trans y2, ?_⟩
    rcases y3 with ⟨ty, ar⟩ | ⟨ty, nv, pd⟩
    · rcases z3 with ⟨ty', ar'⟩ | ⟨ty', mo⟩
      · exact .inl ⟨ty'.trans ty, ar'.trans ar⟩
      · refine .inr ⟨ty ▸ ty', fun n hv => (m.visible n i hv).2 mo, fun ht => ?_⟩
        exact t.open_pend i y mo hy (y2.trans ht)
    · exact .inr ⟨ty, nv, fun ht => t.pend i (pd ht)⟩

theorem Checked.to {V W : View} (t : V.To W) {P : PType} {e : AExpr} :
    Checked V P e → Checked W P e
  | ⟨q, sc, h0, m, f, w⟩ => ⟨q, sc, h0, m.to t, t.env.symm ▸ f, t.env.symm ▸ w⟩

theorem CheckedAs.to {V W : View} (t : V.To W) {ty : AType} {e : AExpr} :
    CheckedAs V ty e → CheckedAs W ty e
  | ⟨q, sc, h0, P, m, x, f, w⟩ => ⟨q, sc, h0, P, m.to t, x, t.env.symm ▸ f, t.env.symm ▸ w⟩

theorem TypedRep.to {V W : View} (t : V.To W) {op : BinOp} {rep : EScalar} {c : AConst} :
    TypedRep V op rep c → TypedRep W op rep c
  | ⟨a, b⟩ => ⟨a, b.imp (·.to t) id⟩

theorem TypedTy.to {V W : View} (l : V.To W) {t : AType} (ht : TypedTy V t) : TypedTy W t := by
  induction ht with
  | container a => exact .container fun e he => (a e he).to l
  | enum a => exact .enum fun e he => (a e he).to l
  | bitfield a => exact .bitfield fun e he => (a e he).to l
  | scalar => exact .scalar
  | f32 => exact .f32
  | f64 => exact .f64
  | bool => exact .bool
  | array _ b ih => exact .array ih fun e he => (b e he).to l
  | terminated _ b ih => exact .terminated ih fun e he => (b e he).to l
  | ref a c d e f => exact .ref (a.to l) c d e (l.env.symm ▸ f)

theorem TypedXform.to {V W : View} (l : V.To W) {x : AXform} : TypedXform V x → TypedXform W x
  | ⟨⟨ps, a, b, c, q, sc, h0, d, f⟩, g⟩ =>
    ⟨⟨ps, l.p.symm ▸ a, b, c, q, sc, h0, d.to l, l.env.symm ▸ f⟩, fun e he => (g e he).to l⟩

theorem TypedField.to {V W : View} (l : V.To W) {x : AField} (t : TypedField V x) :
    TypedField W x where
  type := t.type.to l
  condition e he := (t.condition e he).to l
  transforms x hx := (t.transforms x hx).to l
  calculated e he := (t.calculated e he).to l

theorem TypedArgs.to {V W : View} (l : V.To W) {as : List AArg} (t : TypedArgs V as) :
    TypedArgs W as := fun a ha => ⟨(t a ha).1.to l, fun d hd => ((t a ha).2 d hd).to l⟩

theorem TypedConst.to {V W : View} (l : V.To W) {c : AConst} : TypedConst V c → TypedConst W c
  | ⟨a, b⟩ => ⟨a.to l, b.to l⟩

/-- The fields of a type are among those made since there were `lo`. -/
def ItemsFrom (lo : Nat) (h : Heap) (t : AType) : Prop := ∀ f, ItemOf t f → lo ≤ f ∧ f < h.length

theorem ItemsFrom.mono {lo : Nat} {h h' : Heap} {t : AType} (l : h.length ≤ h'.length)
    (i : ItemsFrom lo h t) : ItemsFrom lo h' t := fun f hf =>
  ⟨(i f hf).1, Nat.lt_of_lt_of_le (i f hf).2 l⟩

/-- All fields from the `lo`-th on, and what is in them is among them. -/
def AllTyped (V : View) (lo : Nat) : Prop :=
  ∀ (i : FId) (x : AField), lo ≤ i → V.h[i]? = some x → TypedField V x ∧ ItemsFrom lo V.h x.type ∧
    x.arguments = []

/-- The same view with another graph. -/
abbrev View.at (V : View) (h : Heap) : View := { V with h }

/-- Open one more field. -/
abbrev View.opening (V : View) (f : FId) : View := { V with opn := f :: V.opn }

theorem View.to_at {V : View} {h' : Heap} (st : Step V.opn V.h h')
    (hp : ∀ (i : FId) (x : AField), i ∈ V.opn → V.h[i]? = some x → x.toplevel = true → V.pend i) :
    V.To (V.at h') := ⟨rfl, rfl, fun _ h => .inl h, fun _ h => h, hp, st⟩

/-- Of the open fields, only those that may be unknown are types of the module. -/
def View.Ok (V : View) : Prop :=
  ∀ (i : FId) (x : AField), i ∈ V.opn → V.h[i]? = some x → x.toplevel = true → V.pend i

theorem View.Ok.step {V : View} (o : V.Ok) {op : List FId} {h' : Heap} (st : Step op V.h h')
    (hl : ∀ i ∈ V.opn, i < V.h.length) : (V.at h').Ok := by
  intro i x hm hx ht
  have hlt := hl i hm
  obtain ⟨y, hy, -, y2, -⟩ := st.cells i _ (List.getElem?_eq_getElem hlt)
  rw [show (V.at h').h = h' from rfl] at hx
  rw [hx] at hy
  cases hy
  exact o i _ hm (List.getElem?_eq_getElem hlt) (y2.symm.trans ht)

theorem AllTyped.to {V W : View} {lo : Nat} (t : V.To W) (a : AllTyped V lo) (hh : W.h = V.h) :
    AllTyped W lo := by
  intro i x hi hx
  rw [hh] at hx
  obtain ⟨b, c, d⟩ := a i x hi hx
  exact ⟨b.to t, hh.symm ▸ c, d⟩

theorem AllTyped.alloc {V W : View} {lo : Nat} {x : AField} (a : AllTyped V lo) (t : V.To W)
    (hh : W.h = V.h ++ [x]) (hx : TypedField V x ∧ ItemsFrom lo V.h x.type ∧ x.arguments = []) :
    AllTyped W lo := by
  intro i y hi hy
  rw [hh] at hy
  have hl : V.h.length ≤ W.h.length := t.step.len
  by_cases hlt : i < V.h.length
  · rw [List.getElem?_append_left hlt] at hy
    obtain ⟨b, c, d⟩ := a i y hi hy
    exact ⟨b.to t, c.mono hl, d⟩
  · rw [List.getElem?_append_right (Nat.not_lt.1 hlt)] at hy
    generalize i - V.h.length = k at hy
    cases k with
    | zero =>
      simp only [List.getElem?_cons_zero, Option.some.injEq] at hy
      obtain ⟨b, c, d⟩ := hx
      rw [← hy]; exact ⟨b.to t, c.mono hl, d⟩
    | succ k => simp at hy

theorem AllTyped.modify {V W : View} {lo : Nat} {id : FId} {g : AField → AField}
    (a : AllTyped V lo) (t : V.To W) (hh : W.h = V.h.modify id g)
    (hg : ∀ x, V.h[id]? = some x → lo ≤ id → TypedField V x → TypedField V (g x) ∧
      ItemsFrom lo V.h (g x).type ∧ (g x).arguments = []) :
    AllTyped W lo := by
  intro i y hi hy
  rw [hh] at hy
  have hl : V.h.length ≤ W.h.length := t.step.len
  by_cases he : i = id
  · subst he
    rw [modify_self] at hy
    cases hx : V.h[i]? with
    | none => rw [hx] at hy; cases hy
    | some x =>
      rw [hx] at hy
      simp only [Option.map_some, Option.some.injEq] at hy
      rw [← hy]
      obtain ⟨b, c, d⟩ := hg x hx hi (a i x hi hx).1
      exact ⟨b.to t, c.mono hl, d⟩
  · rw [modify_other _ _ he] at hy
    obtain ⟨b, c, d⟩ := a i y hi hy
    exact ⟨b.to t, c.mono hl, d⟩

theorem typed_blank {V : View} {n : String} {b : Bool} : TypedField V (blankField n b) where
  type := .bool
  condition e he := by cases he
  transforms x hx := by cases hx
  calculated e he := by cases he

/-- What is known when a part of a module is converted. -/
structure Ready (V : View) (p : Prog) (sc : Scope) (lo : Nat) : Prop where
  ext : Extends p V.p
  vis : ∀ n f, FieldVisible sc n f → f < V.h.length ∧ f ∉ V.opn
  lt : ∀ i ∈ V.opn, i < V.h.length
  ok : V.Ok
  from_lo : lo ≤ V.h.length
  all : AllTyped V lo

theorem Ready.moment {V : View} {p : Prog} {sc : Scope} {lo : Nat} (r : Ready V p sc lo) :
    Moment V p sc V.h :=
  ⟨r.ext, r.vis, fun _ x hx => ⟨x, hx, rfl, rfl, .inl ⟨rfl, rfl⟩⟩⟩

theorem Ready.to {V : View} {p : Prog} {sc : Scope} {lo : Nat} (r : Ready V p sc lo) {h' : Heap}
    (st : Step V.opn V.h h') : V.To (V.at h') := View.to_at st r.ok

theorem Ready.at {V : View} {p : Prog} {sc : Scope} {lo : Nat} (r : Ready V p sc lo) {h' : Heap}
    (st : Step V.opn V.h h') (a : AllTyped (V.at h') lo) : Ready (V.at h') p sc lo where
  ext := r.ext
  vis n f hf := ⟨Nat.lt_of_lt_of_le (r.vis n f hf).1 st.len, (r.vis n f hf).2⟩
  lt i hi := Nat.lt_of_lt_of_le (r.lt i hi) st.len
  ok := r.ok.step st r.lt
  from_lo := Nat.le_trans r.from_lo st.len
  all := a

theorem Ready.scope {V : View} {p : Prog} {sc sc' : Scope} {lo : Nat} (r : Ready V p sc lo)
    (hv : ∀ n f, FieldVisible sc' n f → f < V.h.length ∧ f ∉ V.opn) : Ready V p sc' lo :=
  { r with vis := hv }

theorem visible_cons {fs : List (String × FId)} {ins : List (String × AType)} {sc : Scope}
    {n : String} {f : FId} (h : FieldVisible (⟨fs, ins⟩ :: sc) n f) :
    IMap.get fs n = some f ∨ FieldVisible sc n f := by
  cases h with
  | here h => exact .inl h
  | outer _ h => exact .inr h

/-! ## Conversion -/

theorem convOpt_checked {V : View} {p : Prog} {sc : Scope} {lo : Nat} (r : Ready V p sc lo)
    {o : Option Ast.Expression} {P : PType} {s s' : St} {o' : Option AExpr} (hs : s.heap = V.h)
    (h : convOpt V.env p sc o P s = .ok (o', s')) : ∀ e, o' = some e → Checked V P e := by
  intro e he
  obtain ⟨a, b⟩ := (convOpt_sound V.env p sc o _ _ _ _ h).2 e he
  rw [hs] at a b
  exact ⟨p, sc, V.h, r.moment, a, b⟩

theorem convXforms_typed {V : View} {p : Prog} {sc : Scope} {lo : Nat} (r : Ready V p sc lo) :
    ∀ {xs : List Ast.Transform} {s s' : St} {ys : List AXform}, s.heap = V.h →
      convXforms V.env p sc xs s = .ok (ys, s') → ∀ y ∈ ys, TypedXform V y
  | [], s, s', ys, hs, h => by
    rw [convXforms, pure_run_ok] at h
    rw [← h.1]; simp
  | .mk n args cond :: rest, s, s', ys, hs, h => by
    rw [convXforms] at h
    simp only [bind_run_ok, lookup_ok, pure_run_ok] at h
    obtain ⟨ps, s1, ⟨h1, rfl⟩, u, s2, h2, as, s3, h3, c, s4, h4, zs, s5, h5, rfl, rfl⟩ := h
    obtain ⟨hmin, hle, rfl⟩ := checkFfiCount_ok h2
    obtain ⟨e3, w3, l3⟩ := convArgs_sound V.env p sc args _ _ _ _ h3
    have e4 := (convOpt_sound V.env p sc cond _ _ _ _ h4).1
    have ir := convXforms_typed r (e4.trans (e3.trans hs)) h5
    intro y hy
    rcases List.mem_cons.1 hy with rfl | hy
    · rw [List.length_map] at l3
      rw [hs] at w3
      refine ⟨⟨ps, r.ext.transforms _ _ h1, ?_, ?_, p, sc, _, r.moment, w3⟩, ?_⟩
      · simp only; omega
      · simp only; omega
      · exact convOpt_checked r (e3.trans hs) h4
    · exact ir y hy

theorem convVariants_typed {V : View} {p : Prog} {sc : Scope} {lo : Nat} (r : Ready V p sc lo)
    {rep : EScalar} : ∀ {items : List Ast.EnumItem} {done out : List AVariant} {acc : RepAcc}
      {d : Bool} {s s' : St}, s.heap = V.h →
      convVariants V.env p sc rep items done acc d s = .ok (out, s') →
      (∀ c, .value c ∈ done → TypedRep V .add rep c) →
      (∀ c, acc.last = some c → c.type = .scalar rep) →
      ∀ c, .value c ∈ out → TypedRep V .add rep c
  | [], done, out, acc, d, s, s', hs, h, hd, ha => by
    rw [convVariants, pure_run_ok] at h
    rw [← h.1]; exact hd
  | .mk name .default :: rest, done, out, acc, d, s, s', hs, h, hd, ha => by
    rw [convVariants] at h
    simp only [bind_run_ok] at h
    obtain ⟨u, s1, h1, h2⟩ := h
    obtain rfl := checkVariant_run h1
    refine convVariants_typed r hs h2 ?_ ha
    intro c hc
    simp only [List.mem_append, List.mem_singleton, reduceCtorEq, or_false] at hc
    exact hd c hc
  | .mk name (.expr e) :: rest, done, out, acc, d, s, s', hs, h, hd, ha => by
    rw [convVariants] at h
    simp only [bind_run_ok] at h
    obtain ⟨u, s1, h1, v, s2, h2, h3⟩ := h
    obtain rfl := checkVariant_run h1
    obtain ⟨e2, f2, w2⟩ := convE_sound V.env p sc e _ _ _ _ h2
    rw [hs] at f2 w2
    refine convVariants_typed r (e2.trans hs) h3 ?_ (by intro c hc; cases hc; rfl)
    intro c hc
    simp only [List.mem_append, List.mem_singleton, AVariant.value.injEq] at hc
    rcases hc with hc | rfl
    · exact hd c hc
    · exact ⟨rfl, .inl ⟨p, sc, _, r.moment, f2, w2⟩⟩
  | .mk name .none :: rest, done, out, acc, d, s, s', hs, h, hd, ha => by
    rw [convVariants] at h
    simp only [bind_run_ok] at h
    obtain ⟨u, s1, h1, v, s2, h2, h3⟩ := h
    obtain rfl := checkVariant_run h1
    unfold implicitValue at h2
    rw [liftR_ok] at h2
    obtain ⟨h2, rfl⟩ := h2
    split at h2
    · cases h2
    · rename_i c0 hc0
      split at h2
      · rename_i k hk
        cases h2
        refine convVariants_typed r hs h3 ?_ ha
        intro c hc
        simp only [List.mem_append, List.mem_singleton, AVariant.value.injEq] at hc
        rcases hc with hc | rfl
        · exact hd c hc
        · exact ⟨rfl, .inr ⟨c0, k, rfl, ha c0 hc0⟩⟩
      · cases h2

theorem convFlags_typed {V : View} {p : Prog} {sc : Scope} {lo : Nat} (r : Ready V p sc lo)
    {rep : EScalar} : ∀ {items : List Ast.BitItem} {done out : List AConst} {acc : RepAcc}
      {s s' : St}, s.heap = V.h → convFlags V.env p sc rep items done acc s = .ok (out, s') →
      (∀ c ∈ done, TypedRep V .shl rep c) →
      (∀ c, acc.last = some c → c.type = .scalar rep) →
      ∀ c ∈ out, TypedRep V .shl rep c
  | [], done, out, acc, s, s', hs, h, hd, ha => by
    rw [convFlags, pure_run_ok] at h
    rw [← h.1]; exact hd
  | .mk name (some e) :: rest, done, out, acc, s, s', hs, h, hd, ha => by
    rw [convFlags] at h
    simp only [bind_run_ok, check_ok] at h
    obtain ⟨u, s1, ⟨-, rfl⟩, v, s2, h2, h3⟩ := h
    obtain ⟨e2, f2, w2⟩ := convE_sound V.env p sc e _ _ _ _ h2
    rw [hs] at f2 w2
    refine convFlags_typed r (e2.trans hs) h3 ?_ (by intro c hc; cases hc; rfl)
    intro c hc
    rcases List.mem_append.1 hc with hc | hc
    · exact hd c hc
    · rw [List.mem_singleton] at hc
      rw [hc]
      exact ⟨rfl, .inl ⟨p, sc, _, r.moment, f2, w2⟩⟩
  | .mk name none :: rest, done, out, acc, s, s', hs, h, hd, ha => by
    rw [convFlags] at h
    simp only [bind_run_ok, check_ok] at h
    obtain ⟨u, s1, ⟨-, rfl⟩, v, s2, h2, h3⟩ := h
    unfold implicitValue at h2
    rw [liftR_ok] at h2
    obtain ⟨h2, rfl⟩ := h2
    split at h2
    · cases h2
    · rename_i c0 hc0
      split at h2
      · rename_i k hk
        cases h2
        refine convFlags_typed r hs h3 ?_ ha
        intro c hc
        rcases List.mem_append.1 hc with hc | hc
        · exact hd c hc
        · rw [List.mem_singleton] at hc
          rw [hc]
          exact ⟨rfl, .inr ⟨c0, k, rfl, ha c0 hc0⟩⟩
      · cases h2

/-- The calculated value of a field; `id` need not be among the fields from the `lo`-th on. -/
theorem convEnd_typed {V : View} {p : Prog} {sc : Scope} {lo : Nat} (r : Ready V p sc lo)
    {fld : Ast.Field} {id : FId} {s s' : St} (hs : s.heap = V.h)
    (h : convEnd V.env p sc fld id s = .ok ((), s')) :
    Step [] V.h s'.heap ∧ AllTyped (V.at s'.heap) lo ∧
      ∀ x : AField, V.h[id]? = some x → TypedField V x → ∃ y, s'.heap[id]? = some y ∧
        y.type = x.type ∧ TypedField (V.at s'.heap) y := by
  cases fld with
  | mk type flags cal cond xs =>
    cases cal with
    | none =>
      rw [convEnd, pure_run_ok] at h
      rw [← h.2, hs]; exact ⟨.refl _ _, r.all, fun x hx t => ⟨x, hx, rfl, t⟩⟩
    | some e =>
      rw [convEnd] at h
      simp only [bind_run_ok, withHeap_ok, rbind_ok, deref_ok, update_ok] at h
      obtain ⟨P, s1, ⟨⟨x, hx, hP⟩, rfl⟩, v, s2, h2, rfl⟩ := h
      obtain ⟨e2, f2, w2⟩ := convE_sound V.env p sc e _ _ _ _ h2
      simp only [e2]
      rw [hs] at f2 w2 hP hx ⊢
      have st : ∀ o, Step o V.h (V.h.modify id fun f => { f with calculated := some v }) := fun o =>
        .modify fun y _ => ⟨rfl, rfl, .inl ⟨rfl, rfl⟩⟩
      have key : ∀ t : TypedField V x, TypedField V { x with calculated := some v } := fun t =>
        { t with calculated := fun e he => by cases he; exact ⟨p, sc, _, P, r.moment, hP, f2, w2⟩ }
      refine ⟨st _, r.all.modify (r.to (st _)) rfl ?_, ?_⟩
      · intro y hy hl t
        rw [hx] at hy
        cases hy
        exact ⟨key t, (r.all id x hl hx).2.1, (r.all id x hl hx).2.2⟩
      · intro y hy t
        rw [hx] at hy
        cases hy
        exact ⟨{ x with calculated := some v }, by rw [modify_self, hx]; rfl, rfl, (key t).to (r.to (st _))⟩

theorem convEnds_typed {p : Prog} {sc : Scope} {lo : Nat} :
    ∀ {items : List Ast.Item} {V : View} {ids : List FId} {s s' : St} (_ : Ready V p sc lo),
      s.heap = V.h → convEnds V.env p sc items ids s = .ok ((), s') →
      Step [] V.h s'.heap ∧ AllTyped (V.at s'.heap) lo
  | [], V, ids, s, s', r, hs, h => by
    rw [convEnds, pure_run_ok] at h
    · rw [← h.2, hs]; exact ⟨.refl _ _, r.all⟩
    all_goals simp
  | .field n f :: rest, V, [], s, s', r, hs, h => by
    rw [convEnds, pure_run_ok] at h
    · rw [← h.2, hs]; exact ⟨.refl _ _, r.all⟩
    all_goals simp
  | .field n f :: rest, V, id :: ids, s, s', r, hs, h => by
    rw [convEnds] at h
    simp only [bind_run_ok] at h
    obtain ⟨u, s1, h1, h2⟩ := h
    have r' : Ready V p (⟨[], []⟩ :: sc) lo := r.scope fun n f hv => by
      rcases visible_cons hv with hv | hv
      · cases hv
      · exact r.vis n f hv
    obtain ⟨l1, a1, -⟩ := convEnd_typed r' hs h1
    obtain ⟨l2, a2⟩ := convEnds_typed (V := V.at s1.heap)
      (r.at (l1.weaken (by simp)) a1) rfl h2
    exact ⟨l1.trans l2 (by simp), a2⟩
  | .pad e :: rest, V, ids, s, s', r, hs, h => by
    rw [convEnds] at h
    exact convEnds_typed r hs h

theorem mem_insert_some {m : List (String × FId)} {k n : String} {v f : FId}
    (h : (n, f) ∈ IMap.insert m k v) : (n, f) ∈ m ∨ f = v := by
  induction m with
  | nil => simp only [IMap.insert, List.mem_singleton, Prod.mk.injEq] at h; exact .inr h.2
  | cons a m ih =>
    obtain ⟨k', v'⟩ := a
    simp only [IMap.insert] at h
    split at h
    · rcases List.mem_cons.1 h with h | h
      · cases h; exact .inr rfl
      · exact .inl (List.mem_cons_of_mem _ h)
    · rcases List.mem_cons.1 h with h | h
      · cases h; exact .inl List.mem_cons_self
      · exact (ih h).imp (List.mem_cons_of_mem _) id

/-- What is known about the items of a container so far. -/
structure ItemsOk (V : View) (lo : Nat) (acc : ItemAcc) : Prop where
  items : ∀ n f, (n, f) ∈ acc.items → lo ≤ f ∧ f < V.h.length
  declared : ∀ n f, IMap.get acc.declared n = some f → f < V.h.length ∧ f ∉ V.opn

theorem ItemsOk.grow {V : View} {lo : Nat} {acc : ItemAcc} (i : ItemsOk V lo acc) {h' : Heap}
    (l : V.h.length ≤ h'.length) : ItemsOk (V.at h') lo acc :=
  ⟨fun n f h => ⟨(i.items n f h).1, Nat.lt_of_lt_of_le (i.items n f h).2 l⟩,
   fun n f h => ⟨Nat.lt_of_lt_of_le (i.declared n f h).1 l, (i.declared n f h).2⟩⟩

mutual
theorem convTy_typed (p : Prog) :
    ∀ (ty : Ast.Ty) (V : View) (sc : Scope) (pu : Purpose) (lo : Nat) (s : St) (t : AType) (s' : St)
      (_ : Ready V p sc lo), s.heap = V.h → convTy V.env p sc ty pu s = .ok (t, s') →
      AllTyped (V.at s'.heap) lo ∧ TypedTy (V.at s'.heap) t ∧ ItemsFrom lo s'.heap t
  | .container len fl items, V, sc, pu, lo, s, t, s', r, hs, h => by
    have ii := convItems_typed p items
    rw [convTy] at h
    simp only [bind_run_ok, check_ok, pure_run_ok, fresh_ok] at h
    obtain ⟨_, _, ⟨-, rfl⟩, len', s1, h1, isEnum, s2, h2, _, _, ⟨-, rfl⟩, acc, s3, h3, _, s4, h4,
      tag, s5, ⟨rfl, rfl⟩, rfl, rfl⟩ := h
    have e1 := (convOpt_sound V.env p sc len _ _ _ _ h1).1.trans hs
    obtain ⟨rfl, -⟩ := containerFlags_elab h2
    obtain ⟨l3, a3, i3⟩ := ii V _ _ _ _ _ _ _ r e1 ⟨by simp, by simp [IMap.get]⟩ h3
    have r3 := r.at (l3.weaken (by simp)) a3
    have r4 : Ready (V.at s3.heap) p ({ fields := acc.declared, inputs := [] } :: sc) lo :=
      r3.scope fun n f hv => by
        rcases visible_cons hv with hv | hv
        · exact i3.declared n f hv
        · exact r3.vis n f hv
    obtain ⟨l4, a4⟩ := convEnds_typed r4 rfl h4
    have l := l3.trans l4 (by simp)
    refine ⟨a4, .container fun e he => ?_, ?_⟩
    · exact (convOpt_checked r hs h1 e he).to (r.to (l.weaken (by simp)))
    · rintro f ⟨n, hf⟩
      exact ⟨(i3.items n f hf).1, Nat.lt_of_lt_of_le (i3.items n f hf).2 l4.len⟩
  | .enum rep items, V, sc, pu, lo, s, t, s', r, hs, h => by
    rw [convTy] at h
    simp only [bind_run_ok, pure_run_ok, fresh_ok] at h
    obtain ⟨n, s1, h1, vs, s2, h2, tag, s3, ⟨rfl, rfl⟩, rfl, rfl⟩ := h
    obtain ⟨rfl, -⟩ := definedName_run h1
    obtain ⟨e, -⟩ := convVariants_elab V.env p items _ _ _ _ _ _ _ _ h2
    simp only [e, hs]
    exact ⟨r.all, .enum (convVariants_typed r hs h2 (by simp) (by simp)), fun f hf => by cases hf⟩
  | .bitfield rep items, V, sc, pu, lo, s, t, s', r, hs, h => by
    rw [convTy] at h
    simp only [bind_run_ok, pure_run_ok, fresh_ok] at h
    obtain ⟨n, s1, h1, vs, s2, h2, tag, s3, ⟨rfl, rfl⟩, rfl, rfl⟩ := h
    obtain ⟨rfl, -⟩ := definedName_run h1
    obtain ⟨e, -⟩ := convFlags_elab V.env p items _ _ _ _ _ _ _ h2
    simp only [e, hs]
    exact ⟨r.all, .bitfield (convFlags_typed r hs h2 (by simp) (by simp)), fun f hf => by cases hf⟩
  | .array el x len, V, sc, pu, lo, s, t, s', r, hs, h => by
    have ie := convTy_typed p el
    rw [convTy] at h
    simp only [bind_run_ok, pure_run_ok, fresh_ok] at h
    obtain ⟨len', s1, h1, el', s2, h2, tag, s3, ⟨rfl, rfl⟩, rfl, rfl⟩ := h
    have e1 := (convOpt_sound V.env p sc len _ _ _ _ h1).1.trans hs
    obtain ⟨g, -⟩ := convTy_elab V.env p el _ _ _ _ _ h2
    obtain ⟨a2, t2, -⟩ := ie V _ _ _ _ _ _ r e1 h2
    have l := r.to (h' := s2.heap) (e1 ▸ Step.of_grow g)
    refine ⟨a2, ?_, fun f hf => by cases hf⟩
    cases x with
    | true => exact .terminated t2 fun e he => (convOpt_checked r hs h1 e he).to l
    | false => exact .array t2 fun e he => (convOpt_checked r hs h1 e he).to l
  | .scalar _, V, sc, pu, lo, s, t, s', r, hs, h => by
    rw [convTy, pure_run_ok] at h
    obtain ⟨rfl, rfl⟩ := h
    rw [hs]; exact ⟨r.all, .scalar, fun f hf => by cases hf⟩
  | .f32, V, sc, pu, lo, s, t, s', r, hs, h => by
    rw [convTy, pure_run_ok] at h
    obtain ⟨rfl, rfl⟩ := h
    rw [hs]; exact ⟨r.all, .f32, fun f hf => by cases hf⟩
  | .f64, V, sc, pu, lo, s, t, s', r, hs, h => by
    rw [convTy, pure_run_ok] at h
    obtain ⟨rfl, rfl⟩ := h
    rw [hs]; exact ⟨r.all, .f64, fun f hf => by cases hf⟩
  | .bool, V, sc, pu, lo, s, t, s', r, hs, h => by
    rw [convTy, pure_run_ok] at h
    obtain ⟨rfl, rfl⟩ := h
    rw [hs]; exact ⟨r.all, .bool, fun f hf => by cases hf⟩
  | .ref n args, V, sc, pu, lo, s, t, s', r, hs, h => by
    rw [convTy] at h
    simp only [bind_run_ok, lookup_ok, withHeap_ok, deref_ok, pure_run_ok] at h
    obtain ⟨f, s1, ⟨h1, rfl⟩, x, s2, ⟨h2, rfl⟩, u, s3, h3, xs, s4, h4, rfl, rfl⟩ := h
    obtain ⟨hmin, hle, rfl⟩ := checkTypeCount_ok h3
    obtain ⟨e4, w4, l4⟩ := convArgs_sound V.env p sc args _ _ _ _ h4
    rw [List.length_map] at l4
    rw [hs] at h2 w4
    rw [e4, hs]
    exact ⟨r.all, .ref r.moment h2 (by omega) (by omega) w4, fun f hf => by cases hf⟩
theorem convItems_typed (p : Prog) :
    ∀ (items : List Ast.Item) (V : View) (sc : Scope) (isEnum : Bool) (acc : ItemAcc) (lo : Nat)
      (s : St) (acc' : ItemAcc) (s' : St) (_ : Ready V p sc lo), s.heap = V.h → ItemsOk V lo acc →
      convItems V.env p sc isEnum items acc s = .ok (acc', s') →
      Step [] V.h s'.heap ∧ AllTyped (V.at s'.heap) lo ∧ ItemsOk (V.at s'.heap) lo acc'
  | [], V, sc, isEnum, acc, lo, s, acc', s', r, hs, hi, h => by
    rw [convItems, pure_run_ok] at h
    rw [← h.2, ← h.1, hs]; exact ⟨.refl _ _, r.all, hi⟩
  | .field name f :: rest, V, sc, isEnum, acc, lo, s, acc', s', r, hs, hi, h => by
    have im := convMid_typed p f
    have ir := convItems_typed p rest
    rw [convItems] at h
    simp only [bind_run_ok, check_ok, alloc_ok] at h
    obtain ⟨u, s1, ⟨-, rfl⟩, id, s2, ⟨rfl, rfl⟩, b, s3, h3, acc1, s4, h4, h5⟩ := h
    obtain ⟨rfl, hacc⟩ := addField_run h4
    rw [hs] at h3 hacc
    have hx : (V.h ++ [blankField name false])[V.h.length]? = some (blankField name false) :=
      List.getElem?_concat_length
    have t1 : V.To ((V.opening V.h.length).at (V.h ++ [blankField name false])) :=
      { env := rfl, p := rfl
        opn := fun i h => by
          rcases List.mem_cons.1 h with rfl | h
          · exact .inr (Nat.le_refl _)
          · exact .inl h
        pend := fun _ h => h
        open_pend := r.ok
        step := .alloc _ _ _ }
    have r1 : Ready ((V.opening V.h.length).at (V.h ++ [blankField name false])) p
        (⟨[], []⟩ :: ⟨acc.declared, []⟩ :: sc) lo :=
      { ext := r.ext
        vis := fun n f hv => by
          have key : f < V.h.length ∧ f ∉ V.opn := by
            rcases visible_cons hv with hv | hv
            · cases hv
            · rcases visible_cons hv with hv | hv
              · exact hi.declared n f hv
              · exact r.vis n f hv
          refine ⟨Nat.lt_of_lt_of_le key.1 t1.step.len, fun hm => ?_⟩
          rcases List.mem_cons.1 hm with rfl | hm
          · exact Nat.lt_irrefl _ key.1
          · exact key.2 hm
        lt := fun i hm => by
          rcases List.mem_cons.1 hm with rfl | hm
          · exact heap_lt hx
          · exact Nat.lt_of_lt_of_le (r.lt i hm) t1.step.len
        ok := fun i x hm hx' ht => by
          rcases List.mem_cons.1 hm with rfl | hm
          · rw [show ((V.opening V.h.length).at (V.h ++ [blankField name false])).h =
              V.h ++ [blankField name false] from rfl, hx] at hx'
            cases hx'; cases ht
          · exact r.ok.step (op := []) (Step.alloc _ _ _) r.lt i x hm hx' ht
        from_lo := Nat.le_trans r.from_lo t1.step.len
        all := r.all.alloc t1 rfl ⟨typed_blank, fun f hf => (by cases hf), rfl⟩ }
    obtain ⟨l3, a3, -⟩ := im ((V.opening V.h.length).at (V.h ++ [blankField name false])) _ _ _ _ _ _
      _ r1 (by simp [hs]) h3 List.mem_cons_self hx rfl rfl
    have t3 : (((V.opening V.h.length).at (V.h ++ [blankField name false])).at s3.heap).To
        (V.at s3.heap) :=
      { env := rfl, p := rfl, opn := fun i h => .inl (List.mem_cons_of_mem _ h)
        pend := fun _ h => h
        open_pend := r1.ok.step l3 r1.lt
        step := .refl _ _ }
    have a3' : AllTyped (V.at s3.heap) lo := a3.to t3 rfl
    have l13 : Step [] V.h s3.heap := by
      refine ⟨Nat.le_trans t1.step.len l3.len, fun i x hx' => ?_⟩
      have hlt := heap_lt hx'
      obtain ⟨y, hy, y1, y2, y3⟩ := (Step.alloc [V.h.length] V.h (blankField name false)).cells i x hx'
      obtain ⟨z, hz, z1, z2, z3⟩ := l3.cells i y hy
      refine ⟨z, hz, z1.trans y1, z2.trans y2, .inl ?_⟩
      have g := (List.getElem?_append_left (l₂ := [blankField name false]) hlt).trans hx'
      rw [hy] at g
      cases g
      have o := (convMid_elab V.env p f _ _ _ _ _ _ (by simp [hs]) h3).1.others i
        (by simpa [hs] using Nat.lt_succ_of_lt hlt) (Nat.ne_of_lt hlt)
      rw [hz] at o
      simp only [hs] at o
      rw [hy] at o
      cases o
      exact ⟨rfl, rfl⟩
    have r3 := r.at (l13.weaken (by simp)) a3'
    obtain ⟨l5, a5, i5⟩ := ir (V.at s3.heap) _ _ _ _ _ _ _ r3 rfl (by
      rw [hacc]
      have hlt : V.h.length < s3.heap.length := Nat.lt_of_lt_of_le (heap_lt hx) l3.len
      constructor
      · intro n f hf
        rcases mem_insert_some hf with hf | rfl
        · exact ((hi.grow l13.len).items n f hf)
        · exact ⟨r.from_lo, hlt⟩
      · intro n f hf
        simp only at hf
        by_cases hn : n = name
        · subst hn
          rw [IMap.get_insert_self] at hf
          cases hf
          exact ⟨hlt, fun hm => Nat.lt_irrefl _ (r.lt _ hm)⟩
        · rw [IMap.get_insert_ne (Ne.symm hn)] at hf
          exact (hi.grow l13.len).declared n f hf) h5
    exact ⟨l13.trans l5 (by simp), a5, i5⟩
  | .pad e :: rest, V, sc, isEnum, acc, lo, s, acc', s', r, hs, hi, h => by
    have ir := convItems_typed p rest
    rw [convItems] at h
    simp only [bind_run_ok, check_ok, alloc_ok, fresh_ok] at h
    obtain ⟨u, s1, ⟨-, rfl⟩, len, s2, h2, tg, s3, ⟨rfl, rfl⟩, id, s4, ⟨rfl, rfl⟩, h5⟩ := h
    obtain ⟨e2, f2, w2⟩ := convE_sound V.env p _ e _ _ _ _ h2
    have e2' := e2.trans hs
    rw [hs] at f2 w2
    simp only [e2'] at h5
    have r' : Ready V p (⟨acc.declared, []⟩ :: sc) lo := r.scope fun n f hv => by
      rcases visible_cons hv with hv | hv
      · exact hi.declared n f hv
      · exact r.vis n f hv
    have t : TypedField V (padField (padName acc.padCount) s2.tag len) :=
      { type := .array .scalar fun e he => by cases he; exact ⟨p, _, _, r'.moment, f2, w2⟩
        condition := fun e he => by cases he
        transforms := fun x hx => by cases hx
        calculated := fun e he => by cases he }
    have l4 : Step [] V.h (V.h ++ [padField (padName acc.padCount) s2.tag len]) := .alloc _ _ _
    have a4 : AllTyped (V.at (V.h ++ [padField (padName acc.padCount) s2.tag len])) lo :=
      r.all.alloc (r.to (l4.weaken (by simp))) rfl ⟨t, fun f hf => (by cases hf), rfl⟩
    obtain ⟨l5, a5, i5⟩ := ir (V.at (V.h ++ [padField (padName acc.padCount) s2.tag len]))
      _ _ _ _ _ _ _ (r.at (l4.weaken (by simp)) a4) rfl (by
      constructor
      · intro n f hf
        rcases mem_insert_some hf with hf | rfl
        · exact (hi.grow l4.len).items n f hf
        · exact ⟨r.from_lo, by simp⟩
      · exact (hi.grow l4.len).declared) h5
    exact ⟨l4.trans l5 (by simp), a5, i5⟩
theorem convMid_typed (p : Prog) :
    ∀ (fld : Ast.Field) (V : View) (sc : Scope) (pu : Purpose) (id : FId) (lo : Nat) (s : St)
      (b : Bool) (s' : St) {x : AField} (_ : Ready V p sc lo), s.heap = V.h →
      convMid V.env p sc fld pu id s = .ok (b, s') →
      id ∈ V.opn → V.h[id]? = some x → x.type = .bool → x.calculated = none →
      Step V.opn V.h s'.heap ∧ AllTyped (V.at s'.heap) lo ∧
      ∃ y, s'.heap[id]? = some y ∧ TypedField (V.at s'.heap) y ∧ ItemsFrom lo s'.heap y.type
  | .mk type flags cal cond xs, V, sc, pu, id, lo, s, b, s', x, r, hs, h, ho, hx, ht, hc => by
    have it := convTy_typed p type
    rw [convMid] at h
    simp only [bind_run_ok, update_ok, pure_run_ok] at h
    obtain ⟨t, s1, h1, c, s2, h2, ys, s3, h3, u, s4, h4, u', s5, rfl, rfl, rfl⟩ := h
    obtain ⟨g, -⟩ := convTy_elab V.env p type _ _ _ _ _ h1
    obtain ⟨a1, t1, i1⟩ := it V _ _ _ _ _ _ r hs h1
    have e2 := (convOpt_sound V.env p sc cond _ _ _ _ h2).1
    have e3 := (convXforms_elab V.env p xs _ _ _ _ h3).1
    obtain ⟨-, rfl⟩ := fieldFlags_elab h4
    have l1 : ∀ o, Step o V.h s1.heap := fun o => hs ▸ Step.of_grow g
    have r1 := r.at (l1 _) a1
    have c2 := convOpt_checked r1 rfl h2
    have x3 := convXforms_typed r1 e2 h3
    simp only [e3, e2]
    have hx1 := (g.2 id (hs ▸ heap_lt hx)).trans (hs ▸ hx)
    have l : Step V.opn s1.heap
        (s1.heap.modify id fun f => { f with type := t, condition := c, transforms := ys }) :=
      .modify fun y hy => ⟨rfl, rfl, .inr ⟨by rw [hx1] at hy; cases hy; exact ht, ho⟩⟩
    have to1 := r1.to l
    have key : TypedField (V.at s1.heap) { x with type := t, condition := c, transforms := ys } :=
      { type := t1
        condition := c2
        transforms := x3
        calculated := fun e he => by simp only [hc] at he; cases he }
    refine ⟨(l1 _).trans l (fun i h => .inl h), a1.modify to1 rfl ?_, ?_⟩
    · intro y hy hl _
      rw [show (V.at s1.heap).h = s1.heap from rfl, hx1] at hy
      cases hy
      exact ⟨key, i1, (r.all id x hl hx).2.2⟩
    · exact ⟨_, by rw [modify_self, hx1]; rfl, key.to to1, i1.mono l.len⟩
end

end Verif.Sem
