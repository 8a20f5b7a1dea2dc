import Verif.Sem.Sound
import Verif.Sem.Passes
/-!
# What a converted program looks like

A declarative account of the graph that stands for a syntax tree: the tree itself with every name
replaced by what it denotes at its place, every integer by its value, plus implicit conversions.
`Elab…` relates a piece of syntax in a lexical scope to a piece of the graph.
-/
namespace Verif.Sem
open Verif

/-- The fields among the items of a container, with the cells given to the items in order. -/
def fieldCells : List Ast.Item → List FId → List (String × FId)
  | .field n _ :: rest, f :: cells => (n, f) :: fieldCells rest cells
  | .pad _ :: rest, _ :: cells => fieldCells rest cells
  | _, _ => []

/-- All items of a container with the cells given to them; paddings are named `_pad0`, `_pad1` … -/
def itemCells : List Ast.Item → Nat → List FId → List (String × FId)
  | .field n _ :: rest, k, f :: cells => (n, f) :: itemCells rest k cells
  | .pad _ :: rest, k, f :: cells => (padName k, f) :: itemCells rest (k + 1) cells
  | _, _, _ => []

/-- A map built by inserting entries in order. -/
def insertAll {α} (m : List (String × α)) (l : List (String × α)) : List (String × α) :=
  l.foldl (fun m x => IMap.insert m x.1 x.2) m

/-- The value of an enum variant or bitfield flag without an expression: the last explicit item
plus (or shifted left by) the number of items since. -/
def ImplicitOf (op : BinOp) (k : Scalar) (last : Option AConst) (count : Nat) (e : AExpr) : Prop :=
  ∃ c v, last = some c ∧ v.kind = k ∧ CInt.parse k (toString count).toList = some v ∧
    e = .binary op (.constRef c) (.int v k)

mutual
/-- An expression, up to one implicit conversion of the result. -/
inductive ElabE (p : Prog) (h : Heap) : Scope → Ast.Expression → AExpr → Prop
  | exact {sc e e'} : ElabC p h sc e e' → ElabE p h sc e e'
  | widened {sc e e' u} : ElabC p h sc e e' → ElabE p h sc e (.cast e' u)
/-- An expression. -/
inductive ElabC (p : Prog) (h : Heap) : Scope → Ast.Expression → AExpr → Prop
  | binary {sc op l r l' r'} : ElabE p h sc l l' → ElabE p h sc r r' →
      ElabC p h sc (.binary op l r) (.binary op l' r')
  | unary {sc op e e'} : ElabE p h sc e e' → ElabC p h sc (.unary op e) (.unary op e')
  | cast {sc e e' ty t} : ElabE p h sc e e' → ElabTy p h sc ty t →
      ElabC p h sc (.cast e ty) (.cast e' t)
  | index {sc a i a' i'} : ElabE p h sc a a' → ElabE p h sc i i' →
      ElabC p h sc (.index a i) (.index a' i')
  | enumAccess {sc n v f c} : IMap.get p.types n = some f → c.name = v →
      ElabC p h sc (.enumAccess n v) (.enumAccess f c)
  | int {sc value type v k} : (∀ t, type = some t → k = t) → CInt.parse k value.toList = some v →
      ElabC p h sc (.int value type) (.int v k)
  | ref {sc n e} : Denotes p sc n e → ElabC p h sc (.ref n) e
  | str {sc tag c} : ElabC p h sc (.str c) (.str tag c)
  | ternary {sc c t f c' t' f'} : ElabE p h sc c c' → ElabE p h sc t t' → ElabE p h sc f f' →
      ElabC p h sc (.ternary c t f) (.ternary c' t' f')
  | bool {sc b} : ElabC p h sc (.bool b) (.bool b)
  | call {sc fn sig args args'} : IMap.get p.functions fn = some sig → ElabArgs p h sc args args' →
      ElabC p h sc (.call fn args) (.call fn sig.ret args')
  | member {sc e e' m c} : ElabE p h sc e e' → c.name = m →
      ElabC p h sc (.member e m) (.member e' c)
/-- Arguments, one by one. -/
inductive ElabArgs (p : Prog) (h : Heap) : Scope → List Ast.Expression → List AExpr → Prop
  | nil {sc} : ElabArgs p h sc [] []
  | cons {sc e es e' es'} : ElabE p h sc e e' → ElabArgs p h sc es es' →
      ElabArgs p h sc (e :: es) (e' :: es')
/-- An optional expression. -/
inductive ElabOpt (p : Prog) (h : Heap) : Scope → Option Ast.Expression → Option AExpr → Prop
  | none {sc} : ElabOpt p h sc none none
  | some {sc e e'} : ElabE p h sc e e' → ElabOpt p h sc (some e) (some e')
/-- A type. Its container's items are fresh cells of the graph, one per item, in order; each sees
the fields before it, and the calculated values see all fields. -/
inductive ElabTy (p : Prog) (h : Heap) : Scope → Ast.Ty → AType → Prop
  | container {sc len len' flags items tag its isEnum cells} :
      ElabOpt p h sc len len' → (isEnum = true ↔ "tagged_enum" ∈ flags) → cells.Nodup →
      cells.length = items.length → its = insertAll [] (itemCells items 0 cells) →
      ElabItems p h sc [] items 0 cells →
      ElabCalcs p h (⟨fieldCells items cells, []⟩ :: sc) items cells →
      ElabTy p h sc (.container len flags items) (.container tag len' its isEnum)
  | enum {sc rep items tag name vs} : ElabVariants p h sc rep none 0 items vs →
      ElabTy p h sc (.enum rep items) (.enum tag name rep vs)
  | bitfield {sc rep items tag name cs} : ElabFlags p h sc rep none 0 items cs →
      ElabTy p h sc (.bitfield rep items) (.bitfield tag name rep cs)
  | scalar {sc s} : ElabTy p h sc (.scalar s) (.scalar s)
  | array {sc el el' x len len' tag} : ElabTy p h sc el el' → ElabOpt p h sc len len' →
      ElabTy p h sc (.array el x len) (.array tag el' x len')
  | f32 {sc} : ElabTy p h sc .f32 .f32
  | f64 {sc} : ElabTy p h sc .f64 .f64
  | bool {sc} : ElabTy p h sc .bool .bool
  | ref {sc n f args args'} : IMap.get p.types n = some f → ElabArgs p h sc args args' →
      ElabTy p h sc (.ref n args) (.ref f args')
/-- The variants of an enum, given the last explicit one and the number of variants since. -/
inductive ElabVariants (p : Prog) (h : Heap) : Scope → EScalar → Option AConst → Nat →
    List Ast.EnumItem → List AVariant → Prop
  | nil {sc rep last k} : ElabVariants p h sc rep last k [] []
  | default {sc rep last k n rest vs} : ElabVariants p h sc rep last (k + 1) rest vs →
      ElabVariants p h sc rep last k (.mk n .default :: rest) (.default n :: vs)
  | value {sc rep last k n e v rest vs} : ElabE p h sc e v →
      ElabVariants p h sc rep (some (.mk n (.scalar rep) v)) 1 rest vs →
      ElabVariants p h sc rep last k (.mk n (.expr e) :: rest) (.value (.mk n (.scalar rep) v) :: vs)
  | implicit {sc rep last k n v rest vs} : ImplicitOf .add rep.scalar last k v →
      ElabVariants p h sc rep last (k + 1) rest vs →
      ElabVariants p h sc rep last k (.mk n .none :: rest) (.value (.mk n (.scalar rep) v) :: vs)
/-- The flags of a bitfield. -/
inductive ElabFlags (p : Prog) (h : Heap) : Scope → EScalar → Option AConst → Nat →
    List Ast.BitItem → List AConst → Prop
  | nil {sc rep last k} : ElabFlags p h sc rep last k [] []
  | value {sc rep last k n e v rest cs} : ElabE p h sc e v →
      ElabFlags p h sc rep (some (.mk n (.scalar rep) v)) 1 rest cs →
      ElabFlags p h sc rep last k (.mk n (some e) :: rest) (.mk n (.scalar rep) v :: cs)
  | implicit {sc rep last k n v rest cs} : ImplicitOf .shl rep.scalar last k v →
      ElabFlags p h sc rep last (k + 1) rest cs →
      ElabFlags p h sc rep last k (.mk n none :: rest) (.mk n (.scalar rep) v :: cs)
/-- The items of a container: `before` are the fields before these, `k` counts the paddings. Each
field has an (empty) frame of its own. -/
inductive ElabItems (p : Prog) (h : Heap) : Scope → List (String × FId) → List Ast.Item → Nat →
    List FId → Prop
  | nil {sc before k} : ElabItems p h sc before [] k []
  | field {sc before n fld rest k f cells x} : h[f]? = some x → x.name = n → x.pad = false →
      x.toplevel = false → ElabMid p h (⟨[], []⟩ :: ⟨before, []⟩ :: sc) fld x →
      ElabItems p h sc (before ++ [(n, f)]) rest k cells →
      ElabItems p h sc before (.field n fld :: rest) k (f :: cells)
  | pad {sc before e rest k f cells x tag len} : h[f]? = some x → x.name = padName k →
      x.pad = true → x.toplevel = false → x.condition = none → x.transforms = [] →
      x.calculated = none → x.type = .array tag (.scalar Scalar.u8.toE) false (some len) →
      ElabE p h (⟨before, []⟩ :: sc) e len → ElabItems p h sc before rest (k + 1) cells →
      ElabItems p h sc before (.pad e :: rest) k (f :: cells)
/-- The calculated values of the items of a container. -/
inductive ElabCalcs (p : Prog) (h : Heap) : Scope → List Ast.Item → List FId → Prop
  | nil {sc} : ElabCalcs p h sc [] []
  | field {sc n ty flags cal cond xs rest f cells x} : h[f]? = some x →
      ElabOpt p h (⟨[], []⟩ :: sc) cal x.calculated → ElabCalcs p h sc rest cells →
      ElabCalcs p h sc (.field n (.mk ty flags cal cond xs) :: rest) (f :: cells)
  | pad {sc e rest f cells} : ElabCalcs p h sc rest cells →
      ElabCalcs p h sc (.pad e :: rest) (f :: cells)
/-- Type, condition and transforms of a field. -/
inductive ElabMid (p : Prog) (h : Heap) : Scope → Ast.Field → AField → Prop
  | mk {sc ty flags cal cond xs x} : flags = [] → ElabTy p h sc ty x.type →
      ElabOpt p h sc cond x.condition → ElabXforms p h sc xs x.transforms →
      ElabMid p h sc (.mk ty flags cal cond xs) x
/-- Transforms, in order. -/
inductive ElabXforms (p : Prog) (h : Heap) : Scope → List Ast.Transform → List AXform → Prop
  | nil {sc} : ElabXforms p h sc [] []
  | cons {sc n args cond rest params args' cond' rest'} : IMap.get p.transforms n = some params →
      ElabArgs p h sc args args' → ElabOpt p h sc cond cond' → ElabXforms p h sc rest rest' →
      ElabXforms p h sc (.mk n args cond :: rest) (⟨n, cond', args'⟩ :: rest')
end

/-! ## Conversion yields it -/

theorem Denotes.extends {p q : Prog} (e : Extends p q) {sc : Scope} {n : String} {x : AExpr}
    (h : Denotes p sc n x) : Denotes q sc n x := by
  cases h with
  | field h => exact .field h
  | input h1 h2 => exact .input h1 h2
  | const h1 h2 h3 => exact .const h1 h2 (e.consts _ _ h3)

theorem finish_elab {env : Env} {P : PType} {a e : AExpr} {s s' : St} {p : Prog} {h : Heap}
    {sc : Scope} {x : Ast.Expression} (hf : finish env P a s = .ok (e, s'))
    (he : ElabC p h sc x a) : ElabE p h sc x e := by
  obtain ⟨-, -, rfl | ⟨t, u, -, -, rfl⟩⟩ := finish_ok hf
  · exact .exact he
  · exact .widened he

theorem convOperands_from {left right : PType → M AExpr} {P : PType} {s s' : St}
    {l r : AExpr} (h : convOperands left right P s = .ok ((l, r), s')) :
    (∃ Q s1 s2, left Q s1 = .ok (l, s2)) ∧ (∃ Q s1 s2, right Q s1 = .ok (r, s2)) := by
  unfold convOperands at h
  simp only [bind_run_ok, attempt_ok] at h
  obtain ⟨o, s1, ho, o2, s2, ho2, h⟩ := h
  split at h
  · rcases ho with ⟨a, ha, hoa⟩ | ⟨e, he, hc, -⟩
    · cases hoa
      simp only [bind_run_ok, withHeap_ok] at h
      obtain ⟨Q, s3, ⟨hQ, rfl⟩, r0, s4, hr0, h⟩ := h
      simp only [pure_run_ok, Prod.mk.injEq] at h
      obtain ⟨⟨rfl, rfl⟩, rfl⟩ := h
      exact ⟨⟨_, _, _, ha⟩, ⟨_, _, _, hr0⟩⟩
    · cases hc
  · simp only [bind_run_ok, typeOf_ok] at h
    obtain ⟨r0, s3, hr0, o3, s4, ⟨ht, rfl⟩, h⟩ := h
    cases o3 with
    | none => simp only [fail_ok] at h
    | some rt =>
      simp only [bind_run_ok, withHeap_ok] at h
      obtain ⟨Q, s5, ⟨hQ, rfl⟩, l0, s6, hl0, o4, s7, h4, h⟩ := h
      cases o4 with
      | none => simp only [fail_ok] at h
      | some _ =>
        simp only [pure_run_ok, Prod.mk.injEq] at h
        obtain ⟨⟨rfl, rfl⟩, rfl⟩ := h
        exact ⟨⟨_, _, _, hl0⟩, ⟨_, _, _, hr0⟩⟩

theorem convEnumAccess_elab {p : Prog} {n v : String} {s s' : St} {e : AExpr}
    (h : convEnumAccess p n v s = .ok (e, s')) :
    ∃ f c, IMap.get p.types n = some f ∧ c.name = v ∧ e = .enumAccess f c := by
  unfold convEnumAccess at h
  rw [withHeap_ok] at h
  obtain ⟨h, rfl⟩ := h
  unfold enumAccessR at h
  cases hg : IMap.get p.types n with
  | none => simp only [hg] at h; cases h
  | some f =>
    simp only [hg, rbind_ok] at h
    obtain ⟨x, -, h⟩ := h
    split at h
    · split at h
      · cases h
      · rename_i c hc
        cases h
        unfold findVariant at hc
        have := List.find?_some hc
        exact ⟨f, c, rfl, of_decide_eq_true this, rfl⟩
      · cases h
    · split at h
      · cases h
      · rename_i c hc
        cases h
        unfold findFlag at hc
        have := List.find?_some hc
        exact ⟨f, c, rfl, by simpa using this, rfl⟩
    · cases h

theorem convInt_elab {v : String} {t : Option Scalar} {P : PType} {s s' : St} {e : AExpr}
    (h : convInt v t P s = .ok (e, s')) :
    ∃ k x, (∀ t', t = some t' → k = t') ∧ CInt.parse k v.toList = some x ∧ e = .int x k := by
  unfold convInt at h
  rw [liftR_ok] at h
  obtain ⟨h, rfl⟩ := h
  unfold convIntR at h
  split at h
  · cases h
  · rename_i k hk
    split at h
    · rename_i x hx
      cases h
      refine ⟨k, x, ?_, hx, rfl⟩
      rintro t' rfl
      unfold intKind at hk
      simpa using hk.symm
    · cases h

theorem convMember_elab {n : String} {t e : AExpr} {s s' : St}
    (h : convMember t n s = .ok (e, s')) : ∃ c, c.name = n ∧ e = .member t c := by
  unfold convMember at h
  rw [withHeap_ok] at h
  obtain ⟨h, rfl⟩ := h
  unfold convMemberR at h
  rw [rbind_ok] at h
  obtain ⟨o, ht, h⟩ := h
  cases o with
  | none => cases h
  | some t' =>
    simp only [rbind_ok] at h
    obtain ⟨r, -, h⟩ := h
    split at h
    · split at h
      · rename_i c hc
        cases h
        unfold findFlag at hc
        have := List.find?_some hc
        exact ⟨c, by simpa using this, rfl⟩
      · cases h
    · cases h

theorem implicitValue_elab {op : BinOp} {k : Scalar} {acc : RepAcc} {s s' : St} {e : AExpr}
    (h : implicitValue op k acc s = .ok (e, s')) :
    s = s' ∧ ImplicitOf op k acc.last acc.counter e := by
  unfold implicitValue at h
  rw [liftR_ok] at h
  obtain ⟨h, rfl⟩ := h
  refine ⟨rfl, ?_⟩
  split at h
  · cases h
  · rename_i c hc
    split at h
    · rename_i v hv
      cases h
      exact ⟨c, v, hc, (cparse_ok hv).1, hv, rfl⟩
    · cases h

theorem containerFlags_elab : ∀ {fl : List String} {b r : Bool} {s s' : St},
    containerFlags fl b s = .ok (r, s') → s = s' ∧ (r = true ↔ b = true ∨ "tagged_enum" ∈ fl)
  | [], b, r, s, s', h => by
    rw [containerFlags, pure_run_ok] at h
    obtain ⟨rfl, rfl⟩ := h
    simp
  | f :: fs, b, r, s, s', h => by
    rw [containerFlags] at h
    split at h
    · rename_i hf
      obtain ⟨rfl, h2⟩ := containerFlags_elab h
      subst hf
      refine ⟨rfl, ?_⟩
      rw [h2]; simp
    · exact (fail_ok.1 h).elim

theorem fieldFlags_elab {fl : List String} {s s' : St} {u : Unit}
    (h : fieldFlags fl s = .ok (u, s')) : fl = [] ∧ s = s' := by
  cases fl with
  | nil => rw [fieldFlags, pure_run_ok] at h; exact ⟨rfl, h.2⟩
  | cons f fs => cases h

/-- The graph grows, and what was there stays. -/
def Grow (s s' : St) : Prop :=
  s.heap.length ≤ s'.heap.length ∧ ∀ f, f < s.heap.length → s'.heap[f]? = s.heap[f]?

theorem Grow.refl (s : St) : Grow s s := ⟨Nat.le_refl _, fun _ _ => rfl⟩
theorem Grow.of_eq {s s' : St} (h : s'.heap = s.heap) : Grow s s' := by
  unfold Grow; rw [h]; exact ⟨Nat.le_refl _, fun _ _ => rfl⟩
theorem Grow.trans {a b c : St} (h1 : Grow a b) (h2 : Grow b c) : Grow a c :=
  ⟨Nat.le_trans h1.1 h2.1, fun f hf => (h2.2 f (Nat.lt_of_lt_of_le hf h1.1)).trans (h1.2 f hf)⟩

/-- A cell and the same with another answer to whether it is recursive. -/
def Flagged (x y : AField) : Prop := y = { x with cyclical := y.cyclical }

/-- A later graph has the cell, up to that. -/
def Has (h' : Heap) (s : St) (f : FId) : Prop :=
  ∃ x y, s.heap[f]? = some x ∧ h'[f]? = some y ∧ Flagged x y

/-- A later graph has the cells made since there were `lo`, except perhaps those in `but`. -/
def AgreeFrom (lo : Nat) (but : List FId) (h' : Heap) (s : St) : Prop :=
  ∀ f, lo ≤ f → f < s.heap.length → f ∉ but → Has h' s f

theorem Has.congr {h' : Heap} {s s' : St} {f : FId} (h : Has h' s f)
    (e : s'.heap[f]? = s.heap[f]?) : Has h' s' f := by
  unfold Has; rw [e]; exact h

/-- A cell and the same with another calculated value. -/
def UpToCalc (x y : AField) : Prop := y = { x with calculated := y.calculated }

/-- The cells listed are there, up to their calculated value. -/
def AgreeUpTo (cells : List FId) (h' : Heap) (s : St) : Prop :=
  ∀ f ∈ cells, ∃ x y, s.heap[f]? = some x ∧ h'[f]? = some y ∧
    y = { x with calculated := y.calculated, cyclical := y.cyclical }

/-- What converting the parts of a field does to the graph. -/
structure MidDone (id : FId) (s s' : St) : Prop where
  len : s.heap.length ≤ s'.heap.length
  others : ∀ f, f < s.heap.length → f ≠ id → s'.heap[f]? = s.heap[f]?
  self : ∀ x, s.heap[id]? = some x → ∃ t c xs, s'.heap[id]? =
    some { x with type := t, condition := c, transforms := xs }

/-- The same type, condition and transforms. -/
def SameMid (x y : AField) : Prop :=
  y.type = x.type ∧ y.condition = x.condition ∧ y.transforms = x.transforms

theorem insertAll_cons {α} (m l : List (String × α)) (x : String × α) :
    insertAll m (x :: l) = insertAll (IMap.insert m x.1 x.2) l := rfl

theorem addField_run {isEnum cond : Bool} {name : String} {f : FId} {acc acc' : ItemAcc} {s s' : St}
    (h : addField isEnum cond name f acc s = .ok (acc', s')) :
    s = s' ∧ acc' = { acc with
      items := IMap.insert acc.items name f
      declared := IMap.insert acc.declared name f
      hadUnconditional := acc.hadUnconditional || !cond
      pending := acc.pending ++ [f] } := by
  unfold addField at h
  simp only [bind_run_ok, check_ok, pure_run_ok] at h
  obtain ⟨u, s1, ⟨h1, rfl⟩, rfl, rfl⟩ := h
  exact ⟨rfl, rfl⟩

theorem checkVariant_run {name : String} {done : List AVariant} {d : Bool} {s s' : St} {u : Unit}
    (h : checkVariant name done d s = .ok (u, s')) : s = s' := by
  unfold checkVariant at h
  split at h
  · exact (fail_ok.1 h).elim
  · exact (check_ok.1 h).2

theorem definedName_run {pu : Purpose} {s s' : St} {n : String}
    (h : definedName pu s = .ok (n, s')) : s = s' ∧ pu = .typeDefinition n := by
  cases pu <;> first | exact ((pure_run_ok.1 h).2 ▸ (pure_run_ok.1 h).1 ▸ ⟨rfl, rfl⟩) | cases h

theorem fieldCells_sub {items : List Ast.Item} : ∀ {cells : List FId} {x : String × FId},
    x ∈ fieldCells items cells → x.2 ∈ cells := by
  induction items with
  | nil => intro cells x h; simp [fieldCells] at h
  | cons i items ih =>
    intro cells x h
    cases i <;> cases cells <;> simp only [fieldCells, List.not_mem_nil, List.mem_cons] at h ⊢
    · rcases h with rfl | h
      · exact .inl rfl
      · exact .inr (ih h)
    · exact .inr (ih h)

theorem modify_self (h : Heap) (i : FId) (g : AField → AField) :
    (h.modify i g)[i]? = h[i]?.map g := by
  rw [List.getElem?_modify]; simp
theorem modify_other (h : Heap) {i f : FId} (g : AField → AField) (hf : f ≠ i) :
    (h.modify i g)[f]? = h[f]? := by
  rw [List.getElem?_modify]
  have : ¬ i = f := fun h => hf h.symm
  simp only [this, if_false]
  cases h[f]? <;> rfl

theorem heap_lt {h : Heap} {f : FId} {x : AField} (e : h[f]? = some x) : f < h.length := by
  rw [List.getElem?_eq_some_iff] at e; exact e.1

mutual
theorem convE_elab (env : Env) (p : Prog) :
    ∀ (e : Ast.Expression) (sc : Scope) (P : PType) (s : St) (e' : AExpr) (s' : St),
      convE env p sc e P s = .ok (e', s') → ∀ q, Extends p q → ∀ h, ElabE q h sc e e'
  | .binary op l r, sc, P, s, e', s', h, q, hq, hp => by
    have il := convE_elab env p l
    have ir := convE_elab env p r
    rw [convE] at h
    simp only [bind_run_ok] at h
    obtain ⟨u, s1, -, ⟨l', r'⟩, s2, h2, h3⟩ := h
    obtain ⟨⟨_, _, _, hl⟩, ⟨_, _, _, hr⟩⟩ := convOperands_from h2
    exact finish_elab h3 (.binary (il _ _ _ _ _ hl q hq hp) (ir _ _ _ _ _ hr q hq hp))
  | .unary op e, sc, P, s, e', s', h, q, hq, hp => by
    have ie := convE_elab env p e
    rw [convE] at h
    simp only [bind_run_ok, peek_ok] at h
    obtain ⟨i, s1, -, u, s3, -, i2, s4, h3, h4⟩ := h
    exact finish_elab h4 (.unary (ie _ _ _ _ _ h3 q hq hp))
  | .cast e ty, sc, P, s, e', s', h, q, hq, hp => by
    have ie := convE_elab env p e
    have it := convTy_elab env p ty
    rw [convE] at h
    simp only [bind_run_ok, check_ok] at h
    obtain ⟨u, s1, ⟨hi, rfl⟩, t, s2, h2, x, s3, h3, u', s4, -, h5⟩ := h
    have hh := (convTy_sound env p sc ty _ (.inl hi) _ _ _ h2).1
    refine finish_elab h5 (.cast (ie _ _ _ _ _ h3 q hq hp)
      ((it _ _ _ _ _ h2).2 q hq hp ?_))
    intro f h1 h2
    rw [hh] at h2
    omega
  | .index a i, sc, P, s, e', s', h, q, hq, hp => by
    have ia := convE_elab env p a
    have ii := convE_elab env p i
    rw [convE] at h
    simp only [bind_run_ok] at h
    obtain ⟨x, s1, h1, y, s2, h2, h3⟩ := h
    exact finish_elab h3 (.index (ia _ _ _ _ _ h1 q hq hp) (ii _ _ _ _ _ h2 q hq hp))
  | .enumAccess n v, sc, P, s, e', s', h, q, hq, hp => by
    rw [convE] at h
    simp only [bind_run_ok] at h
    obtain ⟨x, s1, h1, h2⟩ := h
    obtain ⟨f, c, hf, hc, rfl⟩ := convEnumAccess_elab h1
    exact finish_elab h2 (.enumAccess (hq.types _ _ hf) hc)
  | .int v t, sc, P, s, e', s', h, q, hq, hp => by
    rw [convE] at h
    simp only [bind_run_ok] at h
    obtain ⟨x, s1, h1, h2⟩ := h
    obtain ⟨k, y, hk, hy, rfl⟩ := convInt_elab h1
    exact finish_elab h2 (.int hk hy)
  | .ref n, sc, P, s, e', s', h, q, hq, hp => by
    rw [convE] at h
    simp only [bind_run_ok, convRef_ok] at h
    obtain ⟨x, s1, ⟨h1, rfl⟩, h2⟩ := h
    exact finish_elab h2 (.ref (h1.extends hq))
  | .str c, sc, P, s, e', s', h, q, hq, hp => by
    rw [convE] at h
    simp only [bind_run_ok] at h
    obtain ⟨x, s1, h1, h2⟩ := h
    exact finish_elab h2 .str
  | .ternary c t f, sc, P, s, e', s', h, q, hq, hp => by
    have ic := convE_elab env p c
    have it := convE_elab env p t
    have if' := convE_elab env p f
    rw [convE] at h
    simp only [bind_run_ok] at h
    obtain ⟨x, s1, h1, y, s2, h2, R, s3, -, z, s4, h4, h5⟩ := h
    exact finish_elab h5 (.ternary (ic _ _ _ _ _ h1 q hq hp) (it _ _ _ _ _ h2 q hq hp)
      (if' _ _ _ _ _ h4 q hq hp))
  | .bool b, sc, P, s, e', s', h, q, hq, hp => by
    rw [convE] at h
    exact finish_elab h .bool
  | .call fn args, sc, P, s, e', s', h, q, hq, hp => by
    have ia := convArgs_elab env p args
    rw [convE] at h
    simp only [bind_run_ok, lookup_ok] at h
    obtain ⟨sig, s1, ⟨h1, rfl⟩, u, s2, h2, xs, s3, h3, h4⟩ := h
    obtain ⟨-, hle, rfl⟩ := checkFfiCount_ok h2
    exact finish_elab h4 (.call (hq.functions _ _ h1)
      (ia _ _ _ _ _ (by simpa using hle) h3 q hq hp))
  | .member t m, sc, P, s, e', s', h, q, hq, hp => by
    have it := convE_elab env p t
    rw [convE] at h
    simp only [bind_run_ok] at h
    obtain ⟨x, s1, h1, y, s2, h2, h3⟩ := h
    obtain ⟨c, hc, rfl⟩ := convMember_elab h2
    exact finish_elab h3 (.member (it _ _ _ _ _ h1 q hq hp) hc)
theorem convArgs_elab (env : Env) (p : Prog) :
    ∀ (es : List Ast.Expression) (sc : Scope) (ts : List (Option AType)) (s : St)
      (es' : List AExpr) (s' : St), es.length ≤ ts.length →
      convArgs env p sc es ts s = .ok (es', s') → ∀ q, Extends p q → ∀ h, ElabArgs q h sc es es'
  | [], sc, ts, s, es', s', hl, h, q, hq, hp => by
    rw [convArgs, pure_run_ok] at h
    rw [← h.1]; exact .nil
  | e :: es, sc, [], s, es', s', hl, h, q, hq, hp => by simp at hl
  | e :: es, sc, t :: ts, s, es', s', hl, h, q, hq, hp => by
    have ie := convE_elab env p e
    have is := convArgs_elab env p es
    rw [convArgs] at h
    simp only [bind_run_ok, pure_run_ok] at h
    obtain ⟨P, s1, -, x, s2, h2, xs, s3, h3, rfl, rfl⟩ := h
    exact .cons (ie _ _ _ _ _ h2 q hq hp) (is _ _ _ _ _ (by simpa using hl) h3 q hq hp)
theorem convOpt_elab (env : Env) (p : Prog) :
    ∀ (o : Option Ast.Expression) (sc : Scope) (P : PType) (s : St) (o' : Option AExpr) (s' : St),
      convOpt env p sc o P s = .ok (o', s') → ∀ q, Extends p q → ∀ h, ElabOpt q h sc o o'
  | none, sc, P, s, o', s', h, q, hq, hp => by
    rw [convOpt, pure_run_ok] at h
    rw [← h.1]; exact .none
  | some e, sc, P, s, o', s', h, q, hq, hp => by
    have ie := convE_elab env p e
    rw [convOpt] at h
    simp only [bind_run_ok, pure_run_ok] at h
    obtain ⟨x, s1, h1, rfl, rfl⟩ := h
    exact .some (ie _ _ _ _ _ h1 q hq hp)
theorem convTy_elab (env : Env) (p : Prog) :
    ∀ (ty : Ast.Ty) (sc : Scope) (pu : Purpose) (s : St) (t : AType) (s' : St),
      convTy env p sc ty pu s = .ok (t, s') → Grow s s' ∧
      ∀ q, Extends p q → ∀ h, AgreeFrom s.heap.length [] h s' → ElabTy q h sc ty t
  | .container len fl items, sc, pu, s, t, s', h => by
    have il := convOpt_elab env p len
    have ii := convItems_elab env p items
    have ie := convEnds_elab env p items
    rw [convTy] at h
    simp only [bind_run_ok, check_ok, pure_run_ok, fresh_ok] at h
    obtain ⟨_, _, ⟨-, rfl⟩, len', s1, h1, isEnum, s2, h2, _, _, ⟨-, rfl⟩, acc, s3, h3, _, s4, h4,
      tag, s5, ⟨rfl, rfl⟩, rfl, rfl⟩ := h
    have e1 := (convOpt_sound env p sc len _ _ _ _ h1).1
    obtain ⟨rfl, hfl⟩ := containerFlags_elab h2
    obtain ⟨g, cells, nd, cl, bd, i1, i2, i3, i4, i5⟩ := ii _ _ _ _ _ _ (by simp [IMap.get]) h3
    simp only [List.nil_append] at i2 i3
    rw [i3] at h4
    obtain ⟨l4, o4, u4, c4⟩ := ie _ cells _ _ cl nd h4
    have gs : Grow s s3 := (Grow.of_eq e1).trans g
    have ltc : ∀ f ∈ (fieldCells items cells).map Prod.snd, s.heap.length ≤ f ∧
        f < s3.heap.length := by
      intro f hf
      obtain ⟨x, hx, rfl⟩ := List.mem_map.1 hf
      have := bd _ (fieldCells_sub hx)
      rwa [e1] at this
    constructor
    · constructor
      · show s.heap.length ≤ s4.heap.length
        rw [l4]; exact gs.1
      · intro f hf
        show s4.heap[f]? = _
        rw [o4 f (fun hm => Nat.not_lt.2 (ltc f hm).1 hf)]
        exact gs.2 f hf
    · intro q hq hp ha
      have ha' : ∀ f, s.heap.length ≤ f → f < s3.heap.length → Has hp s4 f := by
        intro f h1 h2
        exact ha f h1 (by show f < s4.heap.length; rw [l4]; exact h2) (by simp)
      refine .container (il _ _ _ _ _ h1 q hq hp) (by rw [hfl]; simp) nd cl i1 ?_ ?_
      · refine i5 q hq hp ?_ ?_
        · intro f h1 h2 h3
          rw [e1] at h1
          exact (ha' f h1 h2).congr (o4 f h3).symm
        · intro f hf
          obtain ⟨x, hx, -⟩ := i4 f hf
          obtain ⟨y, hy, hu⟩ := u4 f x hx
          obtain ⟨y', z, hy', hz, hyz⟩ := ha' f (ltc f hf).1 (ltc f hf).2
          rw [hy] at hy'
          cases hy'
          refine ⟨x, z, hx, hz, ?_⟩
          unfold UpToCalc at hu
          unfold Flagged at hyz
          rw [hyz, hu]
      · rw [← i2]
        refine c4 i4 q hq hp ?_
        intro f hf
        exact ha' f (ltc f hf).1 (ltc f hf).2
  | .enum rep items, sc, pu, s, t, s', h => by
    have iv := convVariants_elab env p items
    rw [convTy] at h
    simp only [bind_run_ok, pure_run_ok, fresh_ok] at h
    obtain ⟨n, s1, h1, vs, s2, h2, tag, s3, ⟨rfl, rfl⟩, rfl, rfl⟩ := h
    obtain ⟨rfl, -⟩ := definedName_run h1
    obtain ⟨e, vs', rfl, hv⟩ := iv _ _ _ _ _ _ _ _ h2
    refine ⟨Grow.of_eq e, fun q hq hp _ => .enum (hv q hq hp)⟩
  | .bitfield rep items, sc, pu, s, t, s', h => by
    have iv := convFlags_elab env p items
    rw [convTy] at h
    simp only [bind_run_ok, pure_run_ok, fresh_ok] at h
    obtain ⟨n, s1, h1, vs, s2, h2, tag, s3, ⟨rfl, rfl⟩, rfl, rfl⟩ := h
    obtain ⟨rfl, -⟩ := definedName_run h1
    obtain ⟨e, vs', rfl, hv⟩ := iv _ _ _ _ _ _ _ h2
    refine ⟨Grow.of_eq e, fun q hq hp _ => .bitfield (hv q hq hp)⟩
  | .array el x len, sc, pu, s, t, s', h => by
    have il := convOpt_elab env p len
    have ie := convTy_elab env p el
    rw [convTy] at h
    simp only [bind_run_ok, pure_run_ok, fresh_ok] at h
    obtain ⟨len', s1, h1, el', s2, h2, tag, s3, ⟨rfl, rfl⟩, rfl, rfl⟩ := h
    have e1 := (convOpt_sound env p sc len _ _ _ _ h1).1
    obtain ⟨g, hel⟩ := ie _ _ _ _ _ h2
    refine ⟨(Grow.of_eq e1).trans g, fun q hq hp ha => .array (hel q hq hp ?_)
      (il _ _ _ _ _ h1 q hq hp)⟩
    rw [e1]; exact ha
  | .scalar _, sc, pu, s, t, s', h => by
    rw [convTy, pure_run_ok] at h
    obtain ⟨rfl, rfl⟩ := h
    exact ⟨.refl _, fun _ _ _ _ => .scalar⟩
  | .f32, sc, pu, s, t, s', h => by
    rw [convTy, pure_run_ok] at h
    obtain ⟨rfl, rfl⟩ := h
    exact ⟨.refl _, fun _ _ _ _ => .f32⟩
  | .f64, sc, pu, s, t, s', h => by
    rw [convTy, pure_run_ok] at h
    obtain ⟨rfl, rfl⟩ := h
    exact ⟨.refl _, fun _ _ _ _ => .f64⟩
  | .bool, sc, pu, s, t, s', h => by
    rw [convTy, pure_run_ok] at h
    obtain ⟨rfl, rfl⟩ := h
    exact ⟨.refl _, fun _ _ _ _ => .bool⟩
  | .ref n args, sc, pu, s, t, s', h => by
    have ia := convArgs_elab env p args
    have isd := convArgs_sound env p sc args
    rw [convTy] at h
    simp only [bind_run_ok, lookup_ok, withHeap_ok, pure_run_ok] at h
    obtain ⟨f, s1, ⟨h1, rfl⟩, x, s2, ⟨h2, rfl⟩, u, s3, h3, xs, s4, h4, rfl, rfl⟩ := h
    obtain ⟨-, hle, rfl⟩ := checkTypeCount_ok h3
    refine ⟨Grow.of_eq (isd _ _ _ _ h4).1, fun q hq hp _ => .ref (hq.types _ _ h1)
      (ia _ _ _ _ _ (by simpa using hle) h4 q hq hp)⟩
theorem convVariants_elab (env : Env) (p : Prog) :
    ∀ (items : List Ast.EnumItem) (sc : Scope) (rep : EScalar) (done : List AVariant) (acc : RepAcc)
      (d : Bool) (s : St) (out : List AVariant) (s' : St),
      convVariants env p sc rep items done acc d s = .ok (out, s') → s'.heap = s.heap ∧
      ∃ vs, out = done ++ vs ∧
      ∀ q, Extends p q → ∀ h, ElabVariants q h sc rep acc.last acc.counter items vs
  | [], sc, rep, done, acc, d, s, out, s', h => by
    rw [convVariants, pure_run_ok] at h
    obtain ⟨rfl, rfl⟩ := h
    exact ⟨rfl, [], by simp, fun _ _ _ => .nil⟩
  | .mk n .default :: rest, sc, rep, done, acc, d, s, out, s', h => by
    have ir := convVariants_elab env p rest
    rw [convVariants] at h
    simp only [bind_run_ok] at h
    obtain ⟨u, s1, h1, h2⟩ := h
    cases checkVariant_run h1
    obtain ⟨e, vs, rfl, hv⟩ := ir _ _ _ _ _ _ _ _ h2
    exact ⟨e, .default n :: vs, by simp, fun q hq hp => .default (hv q hq hp)⟩
  | .mk n (.expr x) :: rest, sc, rep, done, acc, d, s, out, s', h => by
    have ir := convVariants_elab env p rest
    have ix := convE_elab env p x
    rw [convVariants] at h
    simp only [bind_run_ok] at h
    obtain ⟨u, s1, h1, v, s2, h2, h3⟩ := h
    cases checkVariant_run h1
    have e2 := (convE_sound env p sc x _ _ _ _ h2).1
    obtain ⟨e, vs, rfl, hv⟩ := ir _ _ _ _ _ _ _ _ h3
    exact ⟨e.trans e2, _ :: vs, by simp, fun q hq hp =>
      .value (ix _ _ _ _ _ h2 q hq hp) (hv q hq hp)⟩
  | .mk n .none :: rest, sc, rep, done, acc, d, s, out, s', h => by
    have ir := convVariants_elab env p rest
    rw [convVariants] at h
    simp only [bind_run_ok] at h
    obtain ⟨u, s1, h1, v, s2, h2, h3⟩ := h
    cases checkVariant_run h1
    obtain ⟨rfl, hi⟩ := implicitValue_elab h2
    obtain ⟨e, vs, rfl, hv⟩ := ir _ _ _ _ _ _ _ _ h3
    exact ⟨e, _ :: vs, by simp, fun q hq hp => .implicit hi (hv q hq hp)⟩
theorem convFlags_elab (env : Env) (p : Prog) :
    ∀ (items : List Ast.BitItem) (sc : Scope) (rep : EScalar) (done : List AConst) (acc : RepAcc)
      (s : St) (out : List AConst) (s' : St),
      convFlags env p sc rep items done acc s = .ok (out, s') → s'.heap = s.heap ∧
      ∃ cs, out = done ++ cs ∧
      ∀ q, Extends p q → ∀ h, ElabFlags q h sc rep acc.last acc.counter items cs
  | [], sc, rep, done, acc, s, out, s', h => by
    rw [convFlags, pure_run_ok] at h
    obtain ⟨rfl, rfl⟩ := h
    exact ⟨rfl, [], by simp, fun _ _ _ => .nil⟩
  | .mk n (some x) :: rest, sc, rep, done, acc, s, out, s', h => by
    have ir := convFlags_elab env p rest
    have ix := convE_elab env p x
    rw [convFlags] at h
    simp only [bind_run_ok, check_ok] at h
    obtain ⟨u, s1, ⟨-, rfl⟩, v, s2, h2, h3⟩ := h
    have e2 := (convE_sound env p sc x _ _ _ _ h2).1
    obtain ⟨e, vs, rfl, hv⟩ := ir _ _ _ _ _ _ _ h3
    exact ⟨e.trans e2, _ :: vs, by simp, fun q hq hp =>
      .value (ix _ _ _ _ _ h2 q hq hp) (hv q hq hp)⟩
  | .mk n none :: rest, sc, rep, done, acc, s, out, s', h => by
    have ir := convFlags_elab env p rest
    rw [convFlags] at h
    simp only [bind_run_ok, check_ok] at h
    obtain ⟨u, s1, ⟨-, rfl⟩, v, s2, h2, h3⟩ := h
    obtain ⟨rfl, hi⟩ := implicitValue_elab h2
    obtain ⟨e, vs, rfl, hv⟩ := ir _ _ _ _ _ _ _ h3
    exact ⟨e, _ :: vs, by simp, fun q hq hp => .implicit hi (hv q hq hp)⟩
theorem convItems_elab (env : Env) (p : Prog) :
    ∀ (items : List Ast.Item) (sc : Scope) (isEnum : Bool) (acc : ItemAcc) (s : St)
      (acc' : ItemAcc) (s' : St),
      (∀ n, IMap.get acc.items n = none → IMap.get acc.declared n = none) →
      convItems env p sc isEnum items acc s = .ok (acc', s') → Grow s s' ∧ ∃ cells : List FId,
        cells.Nodup ∧ cells.length = items.length ∧
        (∀ f ∈ cells, s.heap.length ≤ f ∧ f < s'.heap.length) ∧
        acc'.items = insertAll acc.items (itemCells items acc.padCount cells) ∧
        acc'.declared = acc.declared ++ fieldCells items cells ∧
        acc'.pending = acc.pending ++ (fieldCells items cells).map Prod.snd ∧
        (∀ f ∈ (fieldCells items cells).map Prod.snd,
          ∃ x, s'.heap[f]? = some x ∧ x.calculated = none) ∧
        ∀ q, Extends p q → ∀ h,
          AgreeFrom s.heap.length ((fieldCells items cells).map Prod.snd) h s' →
          AgreeUpTo ((fieldCells items cells).map Prod.snd) h s' →
          ElabItems q h sc acc.declared items acc.padCount cells
  | [], sc, isEnum, acc, s, acc', s', hi, h => by
    rw [convItems, pure_run_ok] at h
    obtain ⟨rfl, rfl⟩ := h
    exact ⟨.refl _, [], by simp, rfl, by simp, rfl, by simp [fieldCells], by simp [fieldCells],
      by simp [fieldCells], fun _ _ _ _ _ => .nil⟩
  | .field n fld :: rest, sc, isEnum, acc, s, acc', s', hi, h => by
    have im := convMid_elab env p fld
    have ir := convItems_elab env p rest
    rw [convItems] at h
    simp only [bind_run_ok, check_ok, alloc_ok, Option.isNone_iff_eq_none] at h
    obtain ⟨u, s0, ⟨hn, rfl⟩, id, s1, ⟨rfl, rfl⟩, cnd, s2, h2, acc2, s3, h3, h4⟩ := h
    obtain ⟨rfl, rfl⟩ := addField_run h3
    obtain ⟨md, hm⟩ := im _ _ _ _ _ _ (by simp) h2
    have hdn := hi n hn
    have inv : ∀ m, IMap.get (IMap.insert acc.items n s.heap.length) m = none →
        IMap.get (IMap.insert acc.declared n s.heap.length) m = none := by
      intro m
      rw [IMap.get_insert, IMap.get_insert]
      split
      · exact fun h => h
      · exact hi m
    obtain ⟨g, cells, nd, cl, bd, i1, i2, i3, i4, i5⟩ := ir _ _ _ _ _ _ inv h4
    have len2 := md.len
    simp only [List.length_append, List.length_cons, List.length_nil] at len2
    have gs2 : Grow s s2 := by
      refine ⟨by omega, fun f hf => ?_⟩
      rw [md.others f (by simp; omega) (by omega)]
      exact List.getElem?_append_left hf
    obtain ⟨t0, c0, xs0, hself⟩ := md.self (blankField n false) (by simp)
    have hself3 : s'.heap[s.heap.length]? = _ := (g.2 _ (by omega)).trans hself
    have bd' : ∀ f ∈ (fieldCells rest cells).map Prod.snd, s2.heap.length ≤ f := by
      intro f hf
      obtain ⟨x, hx, rfl⟩ := List.mem_map.1 hf
      exact (bd _ (fieldCells_sub hx)).1
    refine ⟨gs2.trans g, s.heap.length :: cells, ?_, by simp [cl], ?_, ?_, ?_, ?_, ?_, ?_⟩
    · refine List.nodup_cons.2 ⟨fun hm => ?_, nd⟩
      have := (bd _ hm).1
      omega
    · intro f hf
      rcases List.mem_cons.1 hf with rfl | hf
      · exact ⟨Nat.le_refl _, Nat.lt_of_lt_of_le (by omega : s.heap.length < s2.heap.length) g.1⟩
      · have := bd f hf
        exact ⟨by omega, this.2⟩
    · rw [i1, itemCells, insertAll_cons]
    · rw [i2, fieldCells, IMap.insert_new hdn]; simp
    · rw [i3, fieldCells]; simp
    · intro f hf
      rw [fieldCells, List.map_cons] at hf
      rcases List.mem_cons.1 hf with rfl | hf
      · exact ⟨_, hself3, rfl⟩
      · exact i4 f hf
    · intro q hq hp ha hu
      rw [fieldCells, List.map_cons] at ha hu
      obtain ⟨x, y, hx, hy, hxy⟩ := hu _ List.mem_cons_self
      rw [hself3] at hx
      cases hx
      have hrest := i5 q hq hp (by
        intro f h1 h2 h3
        refine ha f (by omega) h2 ?_
        rintro hm
        rcases List.mem_cons.1 hm with rfl | hm
        · omega
        · exact h3 hm) (fun f hf => hu f (List.mem_cons_of_mem _ hf))
      simp only [IMap.insert_new hdn] at hrest
      refine .field hy (by rw [hxy]; rfl) (by rw [hxy]; rfl) (by rw [hxy]; rfl) ?_ hrest
      refine hm q hq hp ?_ y _ hself ⟨by rw [hxy], by rw [hxy], by rw [hxy]⟩
      intro f h1 h2 _
      simp only [List.length_append, List.length_cons, List.length_nil] at h1
      refine Has.congr (ha f (by omega) (Nat.lt_of_lt_of_le h2 g.1) ?_) (g.2 f h2).symm
      intro hm
      rcases List.mem_cons.1 hm with rfl | hm
      · omega
      · have := bd' f hm; omega
  | .pad e :: rest, sc, isEnum, acc, s, acc', s', hi, h => by
    have ie := convE_elab env p e
    have ir := convItems_elab env p rest
    rw [convItems] at h
    simp only [bind_run_ok, check_ok, alloc_ok, fresh_ok] at h
    obtain ⟨u, s0, ⟨-, rfl⟩, len, s1, h1, tag, s2, ⟨rfl, rfl⟩, id, s3, ⟨rfl, rfl⟩, h4⟩ := h
    have e1 := (convE_sound env p _ e _ _ _ _ h1).1
    simp only [e1] at h4
    have inv : ∀ m, IMap.get (IMap.insert acc.items (padName acc.padCount) s.heap.length) m = none →
        IMap.get acc.declared m = none := by
      intro m
      rw [IMap.get_insert]
      split
      · intro h; cases h
      · exact hi m
    obtain ⟨g, cells, nd, cl, bd, i1, i2, i3, i4, i5⟩ := ir _ _ _ _ _ _ inv h4
    obtain ⟨g1, g2⟩ := g
    simp only [List.length_append, List.length_cons, List.length_nil] at g1 g2 bd i5
    have gs : Grow s s' := by
      refine ⟨by omega, fun f hf => ?_⟩
      rw [g2 f (by omega)]
      exact List.getElem?_append_left hf
    have hself := g2 s.heap.length (by omega)
    simp only [List.getElem?_append_right (Nat.le_refl _), Nat.sub_self,
      List.getElem?_cons_zero] at hself
    refine ⟨gs, s.heap.length :: cells, ?_, by simp [cl], ?_, ?_, ?_, ?_, ?_, ?_⟩
    · refine List.nodup_cons.2 ⟨fun hm => ?_, nd⟩
      have := (bd _ hm).1
      omega
    · intro f hf
      rcases List.mem_cons.1 hf with rfl | hf
      · exact ⟨Nat.le_refl _, (by omega : s.heap.length < s'.heap.length)⟩
      · have := bd f hf
        exact ⟨by omega, this.2⟩
    · rw [i1, itemCells, insertAll_cons]
    · rw [i2, fieldCells]
    · rw [i3, fieldCells]
    · rw [fieldCells]; exact i4
    · intro q hq hp ha hu
      rw [fieldCells] at ha hu
      obtain ⟨x, y, hx, hy, hxy⟩ := ha s.heap.length (Nat.le_refl _) (by omega) (by
        intro hm
        obtain ⟨x, hx, he⟩ := List.mem_map.1 hm
        have := (bd _ (fieldCells_sub hx)).1
        omega)
      rw [hself] at hx
      cases hx
      unfold Flagged at hxy
      refine .pad (tag := s1.tag) (len := len) hy (by rw [hxy]; rfl) (by rw [hxy]; rfl)
        (by rw [hxy]; rfl) (by rw [hxy]; rfl) (by rw [hxy]; rfl) (by rw [hxy]; rfl)
        (by rw [hxy]; rfl) (ie _ _ _ _ _ h1 q hq hp) (i5 q hq hp ?_ hu)
      · intro f h1 h2 h3
        exact ha f (by omega) h2 h3
theorem convEnds_elab (env : Env) (p : Prog) :
    ∀ (items : List Ast.Item) (sc : Scope) (cells : List FId) (s s' : St),
      cells.length = items.length → cells.Nodup →
      convEnds env p sc items ((fieldCells items cells).map Prod.snd) s = .ok ((), s') →
      s'.heap.length = s.heap.length ∧
      (∀ f : FId, f ∉ (fieldCells items cells).map Prod.snd → s'.heap[f]? = s.heap[f]?) ∧
      (∀ (f : FId) (x : AField), s.heap[f]? = some x → ∃ y, s'.heap[f]? = some y ∧ UpToCalc x y) ∧
      ((∀ f ∈ (fieldCells items cells).map Prod.snd,
          ∃ x, s.heap[f]? = some x ∧ x.calculated = none) →
        ∀ q, Extends p q → ∀ h : Heap,
          (∀ f ∈ (fieldCells items cells).map Prod.snd, Has h s' f) →
          ElabCalcs q h sc items cells)
  | [], sc, cells, s, s', hl, nd, h => by
    rw [convEnds, pure_run_ok] at h
    · obtain ⟨-, rfl⟩ := h
      rw [List.length_nil, List.length_eq_zero_iff] at hl
      subst hl
      exact ⟨rfl, fun _ _ => rfl, fun f x hx => ⟨x, hx, rfl⟩, fun _ _ _ _ _ => .nil⟩
    all_goals simp
  | .field n fld :: rest, sc, [], s, s', hl, nd, h => by simp at hl
  | .field n fld :: rest, sc, f :: cells, s, s', hl, nd, h => by
    have i1 := convEnd_elab env p fld
    have ir := convEnds_elab env p rest
    rw [fieldCells, List.map_cons, convEnds] at h
    simp only [bind_run_ok] at h
    obtain ⟨u, s1, h1, h2⟩ := h
    obtain ⟨l1, o1, u1, c1⟩ := i1 _ _ _ _ h1
    rw [List.nodup_cons] at nd
    obtain ⟨l2, o2, u2, c2⟩ := ir _ cells _ _ (by simpa using hl) nd.2 h2
    have hnf : f ∉ (fieldCells rest cells).map Prod.snd := by
      intro hm
      obtain ⟨x, hx, he⟩ := List.mem_map.1 hm
      exact nd.1 (he ▸ fieldCells_sub hx)
    refine ⟨l2.trans l1, ?_, ?_, ?_⟩
    · intro g hg
      rw [fieldCells, List.map_cons, List.mem_cons, not_or] at hg
      exact (o2 g hg.2).trans (o1 g hg.1)
    · intro g x hx
      obtain ⟨y, hy, hxy⟩ := u1 g x hx
      obtain ⟨z, hz, hyz⟩ := u2 g y hy
      refine ⟨z, hz, ?_⟩
      unfold UpToCalc at hxy hyz ⊢
      rw [hyz, hxy]
    · intro hc q hq hp ha
      rw [fieldCells, List.map_cons] at hc ha
      obtain ⟨x, hx, hx0⟩ := hc f List.mem_cons_self
      obtain ⟨c, hc1, hel⟩ := c1 x hx hx0
      cases fld with
      | mk ty flags cal cond xs =>
      obtain ⟨x', y, hx', hy, hxy⟩ := ha f List.mem_cons_self
      rw [o2 f hnf, hc1] at hx'
      cases hx'
      unfold Flagged at hxy
      refine .field hy (by rw [hxy]; exact hel q hq hp) ?_
      refine c2 ?_ q hq hp fun g hg => ha g (List.mem_cons_of_mem _ hg)
      intro g hg
      obtain ⟨y, hy, hy0⟩ := hc g (List.mem_cons_of_mem _ hg)
      refine ⟨y, (o1 g ?_).trans hy, hy0⟩
      rintro rfl
      exact hnf hg
  | .pad e :: rest, sc, [], s, s', hl, nd, h => by simp at hl
  | .pad e :: rest, sc, f :: cells, s, s', hl, nd, h => by
    have ir := convEnds_elab env p rest
    rw [fieldCells, convEnds] at h
    rw [List.nodup_cons] at nd
    obtain ⟨l2, o2, u2, c2⟩ := ir _ cells _ _ (by simpa using hl) nd.2 h
    simp only [fieldCells]
    exact ⟨l2, o2, u2, fun hc q hq hp ha => .pad (c2 hc q hq hp ha)⟩
theorem convMid_elab (env : Env) (p : Prog) :
    ∀ (fld : Ast.Field) (sc : Scope) (pu : Purpose) (id : FId) (s : St) (b : Bool) (s' : St),
      id < s.heap.length → convMid env p sc fld pu id s = .ok (b, s') → MidDone id s s' ∧
      ∀ q, Extends p q → ∀ h, AgreeFrom s.heap.length [] h s' → ∀ y x : AField,
        s'.heap[id]? = some x → SameMid x y → ElabMid q h sc fld y
  | .mk type flags cal cond xs, sc, pu, id, s, b, s', hid, h => by
    have it := convTy_elab env p type
    have ic := convOpt_elab env p cond
    have ix := convXforms_elab env p xs
    rw [convMid] at h
    simp only [bind_run_ok, update_ok, pure_run_ok] at h
    obtain ⟨t, s1, h1, c, s2, h2, ys, s3, h3, u, s4, h4, u', s5, rfl, rfl, rfl⟩ := h
    obtain ⟨g, ht⟩ := it _ _ _ _ _ h1
    have e2 := (convOpt_sound env p sc cond _ _ _ _ h2).1
    obtain ⟨e3, hx⟩ := ix _ _ _ _ h3
    obtain ⟨rfl, rfl⟩ := fieldFlags_elab h4
    have e : s3.heap = s1.heap := e3.trans e2
    have get : ∀ f, f ≠ id → (s3.heap.modify id fun f =>
        { f with type := t, condition := c, transforms := ys })[f]? = s1.heap[f]? := by
      intro f hf
      rw [modify_other _ _ hf, e]
    refine ⟨⟨?_, ?_, ?_⟩, ?_⟩
    · simp only [List.length_modify, e]; exact g.1
    · intro f hf hne
      exact (get f hne).trans (g.2 f hf)
    · intro x hx
      refine ⟨t, c, ys, ?_⟩
      rw [modify_self, e, g.2 id hid, hx]; rfl
    · intro q hq hp ha y x hx0 hy
      rw [modify_self] at hx0
      have hlt : id < s3.heap.length := by rw [e]; exact Nat.lt_of_lt_of_le hid g.1
      rw [List.getElem?_eq_getElem hlt] at hx0
      cases hx0
      obtain ⟨y1, y2, y3⟩ := hy
      refine .mk rfl ?_ ?_ ?_
      · rw [y1]
        refine ht q hq hp ?_
        intro f h1 h2 _
        refine Has.congr (ha f h1 ?_ (by simp))
          (get f (Nat.ne_of_lt (Nat.lt_of_lt_of_le hid h1)).symm).symm
        simp only [List.length_modify, e]; exact h2
      · rw [y2]; exact ic _ _ _ _ _ h2 q hq hp
      · rw [y3]; exact hx q hq hp
theorem convXforms_elab (env : Env) (p : Prog) :
    ∀ (xs : List Ast.Transform) (sc : Scope) (s : St) (ys : List AXform) (s' : St),
      convXforms env p sc xs s = .ok (ys, s') → s'.heap = s.heap ∧
      ∀ q, Extends p q → ∀ h, ElabXforms q h sc xs ys
  | [], sc, s, ys, s', h => by
    rw [convXforms, pure_run_ok] at h
    obtain ⟨rfl, rfl⟩ := h
    exact ⟨rfl, fun _ _ _ => .nil⟩
  | .mk n args cond :: rest, sc, s, ys, s', h => by
    have ia := convArgs_elab env p args
    have ic := convOpt_elab env p cond
    have ir := convXforms_elab env p rest
    rw [convXforms] at h
    simp only [bind_run_ok, lookup_ok, pure_run_ok] at h
    obtain ⟨ps, s1, ⟨h1, rfl⟩, u, s2, h2, as, s3, h3, c, s4, h4, zs, s5, h5, rfl, rfl⟩ := h
    obtain ⟨-, hle, rfl⟩ := checkFfiCount_ok h2
    have e3 := (convArgs_sound env p sc args _ _ _ _ h3).1
    have e4 := (convOpt_sound env p sc cond _ _ _ _ h4).1
    obtain ⟨e5, hr⟩ := ir _ _ _ _ h5
    exact ⟨e5.trans (e4.trans e3), fun q hq hp => .cons (hq.transforms _ _ h1)
      (ia _ _ _ _ _ (by simpa using hle) h3 q hq hp) (ic _ _ _ _ _ h4 q hq hp) (hr q hq hp)⟩
theorem convEnd_elab (env : Env) (p : Prog) :
    ∀ (fld : Ast.Field) (sc : Scope) (id : FId) (s s' : St),
      convEnd env p sc fld id s = .ok ((), s') → s'.heap.length = s.heap.length ∧
      (∀ f : FId, f ≠ id → s'.heap[f]? = s.heap[f]?) ∧
      (∀ (f : FId) (x : AField), s.heap[f]? = some x → ∃ y, s'.heap[f]? = some y ∧ UpToCalc x y) ∧
      ∀ x : AField, s.heap[id]? = some x → x.calculated = none →
        ∃ c, s'.heap[id]? = some { x with calculated := c } ∧ ∀ q, Extends p q → ∀ h,
          ElabOpt q h sc (match fld with | .mk _ _ cal _ _ => cal) c
  | .mk _ _ none _ _, sc, id, s, s', h => by
    rw [convEnd, pure_run_ok] at h
    obtain ⟨-, rfl⟩ := h
    refine ⟨rfl, fun _ _ => rfl, fun f x hx => ⟨x, hx, rfl⟩, fun x hx h0 => ⟨none, ?_, fun _ _ _ => .none⟩⟩
    rw [hx, ← h0]
  | .mk _ _ (some e) _ _, sc, id, s, s', h => by
    have ie := convE_elab env p e
    rw [convEnd] at h
    simp only [bind_run_ok, withHeap_ok, update_ok] at h
    obtain ⟨P, s1, ⟨-, rfl⟩, v, s2, h2, rfl⟩ := h
    have e2 := (convE_sound env p sc e _ _ _ _ h2).1
    refine ⟨by simp [e2], ?_, ?_, ?_⟩
    · intro f hf
      simp only
      rw [modify_other _ _ hf, e2]
    · intro f x hx
      simp only
      by_cases hf : f = id
      · subst hf
        rw [modify_self, e2, hx]; exact ⟨_, rfl, rfl⟩
      · rw [modify_other _ _ hf, e2]; exact ⟨x, hx, rfl⟩
    · intro x hx _
      refine ⟨some v, ?_, fun q hq hp => .some (ie _ _ _ _ _ h2 q hq hp)⟩
      simp only
      rw [modify_self, e2, hx]; rfl
end

end Verif.Sem
