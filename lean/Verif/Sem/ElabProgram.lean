import Verif.Sem.Elab
/-!
# What a converted module looks like
-/
namespace Verif.Sem
open Verif

/-- The parameters of a type: each one's type may use the parameters before it, and its default
value that and the parameter itself. -/
inductive ElabParams (p : Prog) (h : Heap) (outer : Scope) :
    List (String × AType) → List Ast.TypeArg → List AArg → Prop
  | nil {inputs} : ElabParams p h outer inputs [] []
  | cons {inputs a rest t d as} : ElabTy p h (⟨[], inputs⟩ :: outer) a.type t →
      ElabOpt p h (⟨[], IMap.insert inputs a.name t⟩ :: outer) a.default d →
      ElabParams p h outer (IMap.insert inputs a.name t) rest as →
      ElabParams p h outer inputs (a :: rest) (⟨a.name, t, d⟩ :: as)

/-- The frame the parameters make; of two parameters of one name the later one counts. -/
def paramFrame (as : List AArg) : Frame := ⟨[], insertAll [] (as.map fun a => (a.name, a.type))⟩

/-- The calculated value of a field of the syntax tree. -/
def calcOf : Ast.Field → Option Ast.Expression | .mk _ _ cal _ _ => cal

/-- An enum or bitfield has the name of its declaration. -/
def RepNamed (n : String) : AType → Prop
  | .enum _ m _ _ => m = n
  | .bitfield _ m _ _ => m = n
  | _ => True

/-- A declaration of a module. -/
inductive ElabDecl (p : Prog) (h : Heap) : Ast.Decl → Prop
  | type {n args f id x} : IMap.get p.types n = some id → h[id]? = some x → x.name = n →
      x.toplevel = true → ElabParams p h topScope [] args x.arguments →
      ElabMid p h (paramFrame x.arguments :: topScope) f x →
      ElabOpt p h (paramFrame x.arguments :: topScope) (calcOf f) x.calculated →
      RepNamed n x.type → ElabDecl p h (.type n args f)
  | const {n ty v t e} : IMap.get p.consts n = some (.mk n t e) → ElabTy p h topScope ty t →
      ElabE p h topScope v e → ElabDecl p h (.const n ty v)
  | import_ {items src} : ElabDecl p h (.import_ items src)
  | ffi {n k} : ElabDecl p h (.ffi n k)

/-! ## Conversion yields it -/

theorem insertAll_append {α} (m l k : List (String × α)) :
    insertAll m (l ++ k) = insertAll (insertAll m l) k := by
  unfold insertAll; rw [List.foldl_append]

theorem convTypeArgs_elab {env : Env} {p : Prog} {outer : Scope} :
    ∀ {args : List Ast.TypeArg} {inputs : List (String × AType)} {done : List AArg} {s s' : St}
      {r : List (String × AType) × List AArg},
      convTypeArgs env p outer args inputs done s = .ok (r, s') → Grow s s' ∧ ∃ as,
        r.2 = done ++ as ∧ r.1 = insertAll inputs (as.map fun a => (a.name, a.type)) ∧
        ∀ q, Extends p q → ∀ h, AgreeFrom s.heap.length [] h s' →
          ElabParams q h outer inputs args as
  | [], inputs, done, s, s', r, h => by
    rw [convTypeArgs, pure_run_ok] at h
    obtain ⟨rfl, rfl⟩ := h
    exact ⟨.refl _, [], by simp, rfl, fun _ _ _ _ => .nil⟩
  | a :: rest, inputs, done, s, s', r, h => by
    rw [convTypeArgs] at h
    simp only [bind_run_ok] at h
    obtain ⟨t, s1, h1, P, s2, h2, d, s3, h3, h4⟩ := h
    obtain ⟨g1, e1⟩ := convTy_elab env p _ _ _ _ _ _ h1
    have e2 : s1 = s2 := by
      unfold defaultExpected at h2
      rw [withHeap_ok] at h2; exact h2.2
    subst e2
    have e3 := (convOpt_sound env p _ _ _ _ _ _ h3).1
    obtain ⟨g4, as, ha1, ha2, e4⟩ := convTypeArgs_elab h4
    have g := (Grow.of_eq e3).trans g4
    refine ⟨g1.trans g, ⟨a.name, t, d⟩ :: as, by simp [ha1], by rw [ha2]; rfl, ?_⟩
    intro q hq hp ha
    refine .cons (e1 q hq hp ?_) (convOpt_elab env p _ _ _ _ _ _ h3 q hq hp) (e4 q hq hp ?_)
    · intro f h1 h2 _
      exact (ha f h1 (Nat.lt_of_lt_of_le h2 g.1) (by simp)).congr (g.2 f h2).symm
    · intro f h1 h2 h3
      rw [e3] at h1
      exact ha f (Nat.le_trans g1.1 h1) h2 h3

/-- What converting one part of one field does to the graph. -/
structure Touch (id : FId) (s s' : St) : Prop where
  len : s.heap.length ≤ s'.heap.length
  others : ∀ f : FId, f < s.heap.length → f ≠ id → s'.heap[f]? = s.heap[f]?

theorem convArguments_elab {env : Env} {p : Prog} {sc sc' : Scope} {args : List Ast.TypeArg}
    {id : FId} {s s' : St} (hid : id < s.heap.length)
    (h : convArguments env p sc args id s = .ok (sc', s')) :
    Touch id s s' ∧ ∃ as, sc' = paramFrame as :: sc ∧
      (∀ x : AField, s.heap[id]? = some x → s'.heap[id]? = some { x with arguments := as }) ∧
      ∀ q, Extends p q → ∀ h, AgreeFrom s.heap.length [] h s' →
        ElabParams q h sc [] args as := by
  unfold convArguments at h
  simp only [bind_run_ok, update_ok, pure_run_ok] at h
  obtain ⟨⟨inputs, as⟩, s1, h1, u, s2, rfl, rfl, rfl⟩ := h
  obtain ⟨g, as', ha1, ha2, ha3⟩ := convTypeArgs_elab h1
  simp only [List.nil_append] at ha1 ha2
  subst ha1 ha2
  refine ⟨⟨?_, ?_⟩, as, rfl, ?_, ?_⟩
  · simp only [List.length_modify]; exact g.1
  · intro f hf hne
    simp only
    rw [modify_other _ _ hne]; exact g.2 f hf
  · intro x hx
    simp only
    rw [modify_self, g.2 id hid, hx]; rfl
  · intro q hq hp ha
    refine ha3 q hq hp ?_
    intro f h1 h2 _
    refine Has.congr (ha f h1 (by simp only [List.length_modify]; exact h2) (by simp)) ?_
    simp only
    rw [modify_other _ _ (Nat.ne_of_lt (Nat.lt_of_lt_of_le hid h1)).symm]

/-- The type, condition, transforms and calculated value of a type. -/
def ElabBody (p : Prog) (h : Heap) (sc : Scope) (n : String) (f : Ast.Field) (x : AField) : Prop :=
  ElabMid p h sc f x ∧ ElabOpt p h sc (calcOf f) x.calculated ∧ RepNamed n x.type

theorem convTy_named {env : Env} {p : Prog} {sc : Scope} {n : String} {ty : Ast.Ty} {s s' : St} {t : AType}
    (h : convTy env p sc ty (.typeDefinition n) s = .ok (t, s')) : RepNamed n t := by
  cases ty with
  | enum rep items =>
    rw [convTy] at h
    simp only [bind_run_ok, pure_run_ok, fresh_ok] at h
    obtain ⟨m, s1, h1, vs, s2, h2, tag, s3, ⟨rfl, rfl⟩, rfl, rfl⟩ := h
    rw [definedName, pure_run_ok] at h1
    exact h1.1.symm
  | bitfield rep items =>
    rw [convTy] at h
    simp only [bind_run_ok, pure_run_ok, fresh_ok] at h
    obtain ⟨m, s1, h1, vs, s2, h2, tag, s3, ⟨rfl, rfl⟩, rfl, rfl⟩ := h
    rw [definedName, pure_run_ok] at h1
    exact h1.1.symm
  | container len fl items =>
    rw [convTy] at h
    simp only [bind_run_ok, check_ok, pure_run_ok, fresh_ok] at h
    obtain ⟨_, _, ⟨-, rfl⟩, len', s1, h1, isEnum, s2, h2, _, _, ⟨-, rfl⟩, acc, s3, h3, _, s4, h4,
      tag, s5, ⟨rfl, rfl⟩, rfl, rfl⟩ := h
    trivial
  | array el x len =>
    rw [convTy] at h
    simp only [bind_run_ok, pure_run_ok, fresh_ok] at h
    obtain ⟨len', s1, h1, el', s2, h2, tag, s3, ⟨rfl, rfl⟩, rfl, rfl⟩ := h
    trivial
  | ref m args =>
    rw [convTy] at h
    simp only [bind_run_ok, lookup_ok, withHeap_ok, pure_run_ok] at h
    obtain ⟨f, s1, ⟨h1, rfl⟩, x, s2, ⟨h2, rfl⟩, u, s3, h3, xs, s4, h4, rfl, rfl⟩ := h
    trivial
  | scalar k => rw [convTy, pure_run_ok] at h; rw [← h.1]; trivial
  | f32 => rw [convTy, pure_run_ok] at h; rw [← h.1]; trivial
  | f64 => rw [convTy, pure_run_ok] at h; rw [← h.1]; trivial
  | bool => rw [convTy, pure_run_ok] at h; rw [← h.1]; trivial

theorem convMid_named {env : Env} {p : Prog} {sc : Scope} {n : String} {f : Ast.Field} {id : FId} {s s' : St} {b : Bool}
    (h : convMid env p sc f (.typeDefinition n) id s = .ok (b, s')) {x : AField} (hx : s'.heap[id]? = some x) :
    RepNamed n x.type := by
  cases f with
  | mk type flags cal cond xs =>
    rw [convMid] at h
    simp only [bind_run_ok, update_ok, pure_run_ok] at h
    obtain ⟨t, s1, h1, c, s2, h2, ys, s3, h3, u, s4, h4, u', s5, rfl, rfl, rfl⟩ := h
    simp only at hx
    rw [modify_self, Option.map_eq_some_iff] at hx
    obtain ⟨y, -, rfl⟩ := hx
    exact convTy_named h1

theorem convBody_elab {env : Env} {p : Prog} {sc : Scope} {n : String} {f : Ast.Field} {id : FId}
    {s s' : St} {x : AField} (hx : s.heap[id]? = some x) (hc : x.calculated = none)
    (h : convBody env p sc n f id s = .ok ((), s')) :
    Touch id s s' ∧ ∃ y, s'.heap[id]? = some y ∧ y.name = x.name ∧ y.toplevel = x.toplevel ∧
      y.arguments = x.arguments ∧ ∀ q, Extends p q → ∀ h, AgreeFrom s.heap.length [] h s' →
        ∀ z, Flagged y z → ElabBody q h sc n f z := by
  have hid := heap_lt hx
  unfold convBody at h
  simp only [bind_run_ok] at h
  obtain ⟨b, s1, h1, h2⟩ := h
  obtain ⟨md, hm⟩ := convMid_elab env p f _ _ _ _ _ _ hid h1
  obtain ⟨l2, o2, -, c2⟩ := convEnd_elab env p f _ _ _ _ h2
  obtain ⟨t, c, xs, hs⟩ := md.self x hx
  obtain ⟨cal, hcal, he⟩ := c2 _ hs hc
  refine ⟨⟨by rw [l2]; exact md.len, fun g hg hne => (o2 g hne).trans (md.others g hg hne)⟩,
    _, hcal, rfl, rfl, rfl, ?_⟩
  intro q hq hp ha z hz
  unfold Flagged at hz
  refine ⟨hm q hq hp ?_ z _ hs ?_, ?_, ?_⟩
  · intro g h1 h2 _
    exact (ha g h1 (by rw [l2]; exact h2) (by simp)).congr
      (o2 g (Nat.ne_of_lt (Nat.lt_of_lt_of_le hid h1)).symm).symm
  · rw [hz]; exact ⟨rfl, rfl, rfl⟩
  · rw [hz]; exact he q hq hp
  · rw [hz]
    have := convMid_named h1 hs
    exact this

theorem Touch.grow {id : FId} {s s' : St} {lo : Nat} (t : Touch id s s') (hlo : lo ≤ id) :
    ∀ f, f < lo → f < s.heap.length → s'.heap[f]? = s.heap[f]? := by
  intro f h1 h2
  exact t.others f h2 (Nat.ne_of_lt (Nat.lt_of_lt_of_le h1 hlo))

/-- A type declared and converted in one go. -/
theorem convRep_elab {env : Env} {p q : Prog} {n : String} {args : List Ast.TypeArg}
    {f : Ast.Field} {id : FId} {sc : Scope} {s s1 s2 s3 : St}
    (h1 : declareType n p s = .ok ((id, q), s1))
    (h2 : convArguments env q topScope args id s1 = .ok (sc, s2))
    (h3 : convBody env q sc n f id s2 = .ok ((), s3)) :
    Grow s s3 ∧ ∀ r, Extends q r → ∀ h, AgreeFrom s.heap.length [] h s3 →
      ElabDecl r h (.type n args f) := by
  rw [declareType_ok] at h1
  obtain ⟨hn, rfl, hq, rfl⟩ := h1
  simp only at hq h2 h3
  obtain ⟨t2, as, rfl, a2, e2⟩ := convArguments_elab (by simp) h2
  have x2 := a2 (blankField n true) (by simp)
  obtain ⟨t3, y, hy, y1, y2, y3, e3⟩ := convBody_elab x2 rfl h3
  have l2 := t2.len
  have l3 := t3.len
  simp only [List.length_append, List.length_cons, List.length_nil] at l2
  refine ⟨⟨by omega, ?_⟩, ?_⟩
  · intro g hg
    have g1 : g < s2.heap.length := Nat.lt_of_lt_of_le hg (Nat.le_of_succ_le l2)
    have g2 : g ≠ s.heap.length := Nat.ne_of_lt hg
    rw [t3.others g g1 g2, t2.others g (by
      rw [List.length_append]; exact Nat.lt_of_lt_of_le hg (Nat.le_add_right _ _)) g2]
    exact List.getElem?_append_left hg
  · intro r hr h ha
    obtain ⟨y', z, hy', hz, hyz⟩ := ha s.heap.length (Nat.le_refl _) (by omega) (by simp)
    rw [hy] at hy'
    cases hy'
    have eb := e3 r hr h (fun g h1 h2 h3 => ha g (by omega) h2 h3) z hyz
    unfold Flagged at hyz
    have za : z.arguments = as := by rw [hyz]; exact y3
    refine .type (id := s.heap.length) (x := z) (hr.types _ _ ?_) hz (by rw [hyz]; exact y1)
      (by rw [hyz]; exact y2) ?_ (za ▸ eb.1) (za ▸ eb.2.1) eb.2.2
    · rw [hq]
      simp only
      rw [← IMap.insert_new hn, IMap.get_insert_self]
    · rw [za]
      refine e2 r hr h ?_
      intro g h1 h2 _
      simp only [List.length_append, List.length_cons, List.length_nil] at h1
      exact (ha g (by omega) (by omega) (by simp)).congr
        (t3.others g h2 (Nat.ne_of_gt h1)).symm

theorem passConsts_elab {env : Env} : ∀ {ast : Ast.Program} {p p' : Prog} {s s' : St},
    passConsts env ast p s = .ok (p', s') → Grow s s' ∧ ∀ q, Extends p' q → ∀ h,
      AgreeFrom s.heap.length [] h s' → ∀ d ∈ ast,
        (∀ n args f, d = .type n args f → isRepType f = true) → ElabDecl q h d := by
  intro ast
  induction ast with
  | nil =>
    intro p p' s s' h
    rw [passConsts, pure_run_ok] at h
    rw [h.2]
    exact ⟨.refl _, fun _ _ _ _ d hd => (by cases hd)⟩
  | cons d rest ih =>
    intro p p' s s' h
    cases d with
    | type name args f =>
      rw [passConsts] at h
      split at h
      · rename_i hr
        simp only [bind_run_ok] at h
        obtain ⟨⟨id, q⟩, s1, h1, sc, s2, h2, u, s3, h3, h4⟩ := h
        obtain ⟨g, e⟩ := convRep_elab h1 h2 h3
        obtain ⟨g', e'⟩ := ih h4
        refine ⟨g.trans g', ?_⟩
        intro q' hq' hp ha d hd hdr
        rcases List.mem_cons.1 hd with rfl | hd
        · refine e q' (.trans (passConsts_extends h4).1 hq') hp ?_
          intro k h1 h2 _
          exact (ha k h1 (Nat.lt_of_lt_of_le h2 g'.1) (by simp)).congr (g'.2 k h2).symm
        · exact e' q' hq' hp (fun k h1 h2 h3 => ha k (Nat.le_trans g.1 h1) h2 h3) d hd hdr
      · rename_i hr
        obtain ⟨g', e'⟩ := ih h
        refine ⟨g', fun q' hq' hp ha d hd hdr => ?_⟩
        rcases List.mem_cons.1 hd with rfl | hd
        · exact absurd (hdr _ _ _ rfl) hr
        · exact e' q' hq' hp ha d hd hdr
    | const name ty v =>
      rw [passConsts] at h
      simp only [bind_run_ok] at h
      obtain ⟨q, s1, h1, h2⟩ := h
      obtain ⟨hn, t, s2, P, e, ht, -, -, he, rfl⟩ := convConst_ok h1
      obtain ⟨g1, et⟩ := convTy_elab env p _ _ _ _ _ _ ht
      have ee := convE_elab env p _ _ _ _ _ _ he
      have hh := (convE_sound env p _ _ _ _ _ _ he).1
      obtain ⟨g', e'⟩ := ih h2
      have g2 := (Grow.of_eq hh).trans g'
      refine ⟨g1.trans g2, ?_⟩
      intro q' hq' hp ha d hd hdr
      rcases List.mem_cons.1 hd with rfl | hd
      · have hx : Extends _ q' := .trans (passConsts_extends h2).1 hq'
        refine .const (hx.consts _ _ ?_) (et q' (.trans extends_consts hx) hp ?_)
          (ee q' (.trans extends_consts hx) hp)
        · simp only
          rw [← IMap.insert_new hn, IMap.get_insert_self]
        · intro k h1 h2 _
          exact (ha k h1 (Nat.lt_of_lt_of_le h2 g2.1) (by simp)).congr (g2.2 k h2).symm
      · refine e' q' hq' hp (fun k h1 h2 h3 => ha k ?_ h2 h3) d hd hdr
        rw [hh] at h1
        exact Nat.le_trans g1.1 h1
    | import_ items src =>
      obtain ⟨g', e'⟩ := ih h
      refine ⟨g', fun q' hq' hp ha d hd hdr => ?_⟩
      rcases List.mem_cons.1 hd with rfl | hd
      · exact .import_
      · exact e' q' hq' hp ha d hd hdr
    | ffi n k =>
      obtain ⟨g', e'⟩ := ih h
      refine ⟨g', fun q' hq' hp ha d hd hdr => ?_⟩
      rcases List.mem_cons.1 hd with rfl | hd
      · exact .ffi
      · exact e' q' hq' hp ha d hd hdr

/-- A type that is neither an enum nor a bitfield. -/
structure PlainDecl where
  name : String
  args : List Ast.TypeArg
  field : Ast.Field

def plainDecls : Ast.Program → List PlainDecl
  | [] => []
  | .type n args f :: rest => if isRepType f then plainDecls rest else ⟨n, args, f⟩ :: plainDecls rest
  | _ :: rest => plainDecls rest

theorem mem_plainDecls {n : String} {args : List Ast.TypeArg} {f : Ast.Field} :
    ∀ {ast : Ast.Program}, .type n args f ∈ ast → isRepType f = false →
      ⟨n, args, f⟩ ∈ plainDecls ast
  | d :: rest, h, hr => by
    rcases List.mem_cons.1 h with rfl | h
    · simp [plainDecls, hr]
    · have := mem_plainDecls h hr
      cases d <;> simp only [plainDecls] <;> try exact this
      split
      · exact this
      · exact List.mem_cons_of_mem _ this

/-- Two lists of the same length are related place by place. -/
def Rows {α β} (R : α → β → Prop) (l : List α) (m : List β) : Prop :=
  l.length = m.length ∧ ∀ (k : Nat) (a : α) (b : β), l[k]? = some a → m[k]? = some b → R a b

theorem rows_nil {α β} {R : α → β → Prop} : Rows R ([] : List α) [] := ⟨rfl, by simp⟩
theorem rows_cons {α β} {R : α → β → Prop} {a : α} {b : β} {l : List α} {m : List β} (h : R a b)
    (hr : Rows R l m) : Rows R (a :: l) (b :: m) := by
  refine ⟨by simp [hr.1], ?_⟩
  intro k x y hx hy
  cases k with
  | zero => simp only [List.getElem?_cons_zero, Option.some.injEq] at hx hy; rw [← hx, ← hy]; exact h
  | succ k => exact hr.2 k x y (by simpa using hx) (by simpa using hy)
theorem rows_imp {α β} {R S : α → β → Prop} {l : List α} {m : List β} (h : Rows R l m)
    (hi : ∀ a b, R a b → S a b) : Rows S l m :=
  ⟨h.1, fun k a b ha hb => hi a b (h.2 k a b ha hb)⟩

theorem passDeclare_elab : ∀ {ast : Ast.Program} {p : Prog} {r : List FId × Prog} {s s' : St},
    passDeclare ast p s = .ok (r, s') → Grow s s' ∧ r.1.Nodup ∧
      (∀ id ∈ r.1, s.heap.length ≤ id ∧ id < s'.heap.length) ∧
      Rows (fun d id => IMap.get r.2.types d.name = some id ∧
        s'.heap[id]? = some (blankField d.name true)) (plainDecls ast) r.1 := by
  intro ast
  induction ast with
  | nil =>
    intro p r s s' h
    rw [passDeclare, pure_run_ok] at h
    obtain ⟨rfl, rfl⟩ := h
    exact ⟨.refl _, by simp, by simp, rows_nil⟩
  | cons d rest ih =>
    intro p r s s' h
    cases d with
    | type name args f =>
      rw [passDeclare] at h
      split at h
      · rename_i hr
        simp only [plainDecls, hr, if_true]
        exact ih h
      · rename_i hr
        simp only [plainDecls, hr]
        simp only [bind_run_ok, pure_run_ok] at h
        obtain ⟨⟨id, q⟩, s1, h1, ⟨ids, q'⟩, s2, h2, rfl, rfl⟩ := h
        rw [declareType_ok] at h1
        obtain ⟨hn, rfl, hq, rfl⟩ := h1
        simp only at hq
        obtain ⟨g, nd, bd, rs⟩ := ih h2
        obtain ⟨g1, g2⟩ := g
        simp only [List.length_append, List.length_cons, List.length_nil] at g1 g2 bd
        refine ⟨⟨by omega, ?_⟩, ?_, ?_, rows_cons ⟨?_, ?_⟩ rs⟩
        · intro k hk
          rw [g2 k (by omega)]; exact List.getElem?_append_left hk
        · refine List.nodup_cons.2 ⟨fun hm => ?_, nd⟩
          have := (bd _ hm).1
          simp only at this
          omega
        · intro k hk
          rcases List.mem_cons.1 hk with rfl | hk
          · exact ⟨Nat.le_refl _, Nat.lt_of_lt_of_le (Nat.lt_succ_self _) g1⟩
          · have := bd k hk
            exact ⟨by omega, this.2⟩
        · refine (passDeclare_extends h2).1.types _ _ ?_
          rw [hq]
          simp only
          rw [← IMap.insert_new hn, IMap.get_insert_self]
        · rw [g2 _ (by simp)]
          simp
    | const _ _ _ => exact ih h
    | import_ _ _ => exact ih h
    | ffi _ _ => exact ih h

/-- The parameters of a type and the cell it has. -/
structure Row where
  id : FId
  params : List AArg

theorem passArguments_elab {env : Env} {p : Prog} :
    ∀ {ast : Ast.Program} {ids : List FId} {scs : List Scope} {s s' : St},
      passArguments env p ast ids s = .ok (scs, s') → ids.Nodup →
      (∀ id ∈ ids, id < s.heap.length) → (plainDecls ast).length = ids.length →
      s.heap.length ≤ s'.heap.length ∧
      (∀ f : FId, f < s.heap.length → f ∉ ids → s'.heap[f]? = s.heap[f]?) ∧
      ∃ rows : List Row, rows.map Row.id = ids ∧
        scs = rows.map (fun r => paramFrame r.params :: topScope) ∧
        (∀ r ∈ rows, ∀ x : AField, s.heap[r.id]? = some x →
          s'.heap[r.id]? = some { x with arguments := r.params }) ∧
        ∀ q, Extends p q → ∀ h, AgreeFrom s.heap.length [] h s' →
          Rows (fun d r => ElabParams q h topScope [] d.args r.params) (plainDecls ast) rows := by
  intro ast
  induction ast with
  | nil =>
    intro ids scs s s' h nd hl he
    simp only [plainDecls, List.length_nil] at he
    have : ids = [] := List.length_eq_zero_iff.1 he.symm
    subst this
    rw [passArguments, pure_run_ok] at h
    obtain ⟨rfl, rfl⟩ := h
    exact ⟨Nat.le_refl _, fun _ _ _ => rfl, [], rfl, rfl, by simp, fun _ _ _ _ => rows_nil⟩
  | cons d rest ih =>
    intro ids scs s s' h nd hl he
    cases d with
    | type name args f =>
      cases hr : isRepType f with
      | true =>
        have h' : passArguments env p rest ids s = .ok (scs, s') := by
          cases ids with
          | nil => rw [passArguments] at h; exact h; all_goals simp
          | cons id ids => rw [passArguments, if_pos hr] at h; exact h
        simp only [plainDecls, hr, if_true] at he ⊢
        exact ih h' nd hl he
      | false =>
        simp only [plainDecls, hr, Bool.false_eq_true, if_false] at he ⊢
        cases ids with
        | nil => simp at he
        | cons id ids =>
          rw [passArguments, hr] at h
          simp only [Bool.false_eq_true, if_false, bind_run_ok, pure_run_ok] at h
          obtain ⟨sc, s1, h1, scs', s2, h2, rfl, rfl⟩ := h
          have hid := hl id List.mem_cons_self
          obtain ⟨t1, as, rfl, a1, e1⟩ := convArguments_elab hid h1
          rw [List.nodup_cons] at nd
          obtain ⟨l2, o2, rows, r1, r2, r3, r4⟩ := ih h2 nd.2
            (fun k hk => Nat.lt_of_lt_of_le (hl k (List.mem_cons_of_mem _ hk)) t1.len)
            (by simpa using he)
          refine ⟨Nat.le_trans t1.len l2, ?_, ⟨id, as⟩ :: rows, by simp [r1], by simp [r2], ?_, ?_⟩
          · intro k hk hm
            rw [List.mem_cons, not_or] at hm
            rw [o2 k (Nat.lt_of_lt_of_le hk t1.len) hm.2]
            exact t1.others k hk hm.1
          · intro r hm x hx
            rcases List.mem_cons.1 hm with rfl | hm
            · simp only at hx ⊢
              rw [o2 id (Nat.lt_of_lt_of_le hid t1.len) nd.1]
              exact a1 x hx
            · refine r3 r hm x ?_
              have hne : r.id ≠ id := by
                intro e
                refine nd.1 ?_
                rw [← e, ← r1]
                exact List.mem_map_of_mem hm
              rw [t1.others r.id (heap_lt hx) hne, hx]
          · intro q hq hp ha
            refine rows_cons (e1 q hq hp ?_) (r4 q hq hp ?_)
            · intro k k1 k2 _
              refine (ha k k1 (Nat.lt_of_lt_of_le k2 l2) (by simp)).congr (o2 k k2 ?_).symm
              intro hm
              exact Nat.not_lt.2 k1 (hl k (List.mem_cons_of_mem _ hm))
            · intro k k1 k2 k3
              exact ha k (Nat.le_trans t1.len k1) k2 k3
    | const name ty v =>
      rw [passArguments] at h
      · exact ih h nd hl he
      all_goals simp
    | import_ items src =>
      rw [passArguments] at h
      · exact ih h nd hl he
      all_goals simp
    | ffi n k =>
      rw [passArguments] at h
      · exact ih h nd hl he
      all_goals simp

theorem passBodies_elab {env : Env} {p : Prog} :
    ∀ {ast : Ast.Program} {rows : List Row} {s s' : St},
      passBodies env p ast (rows.map Row.id) (rows.map fun r => paramFrame r.params :: topScope) s
        = .ok ((), s') → (rows.map Row.id).Nodup →
      (∀ r ∈ rows, ∃ x : AField, s.heap[r.id]? = some x ∧ x.calculated = none) →
      (plainDecls ast).length = rows.length →
      s.heap.length ≤ s'.heap.length ∧
      (∀ f : FId, f < s.heap.length → f ∉ rows.map Row.id → s'.heap[f]? = s.heap[f]?) ∧
      (∀ r ∈ rows, ∀ x : AField, s.heap[r.id]? = some x → ∃ y : AField, s'.heap[r.id]? = some y ∧
        y.name = x.name ∧ y.toplevel = x.toplevel ∧ y.arguments = x.arguments) ∧
      ∀ q, Extends p q → ∀ h, AgreeFrom s.heap.length [] h s' →
        Rows (fun d r => ∀ y z : AField, s'.heap[r.id]? = some y → Flagged y z →
          ElabBody q h (paramFrame r.params :: topScope) d.name d.field z) (plainDecls ast) rows := by
  intro ast
  induction ast with
  | nil =>
    intro rows s s' h nd hl he
    simp only [plainDecls, List.length_nil] at he
    have : rows = [] := List.length_eq_zero_iff.1 he.symm
    subst this
    simp only [List.map_nil] at h
    rw [passBodies, pure_run_ok] at h
    obtain ⟨-, rfl⟩ := h
    exact ⟨Nat.le_refl _, fun _ _ _ => rfl, by simp, fun _ _ _ _ => rows_nil⟩
  | cons d rest ih =>
    intro rows s s' h nd hl he
    cases d with
    | type name args f =>
      cases hr : isRepType f with
      | true =>
        have h' : passBodies env p rest (rows.map Row.id)
            (rows.map fun r => paramFrame r.params :: topScope) s = .ok ((), s') := by
          cases rows with
          | nil => simp only [List.map_nil] at h ⊢; rw [passBodies] at h; exact h; all_goals simp
          | cons r rows =>
            simp only [List.map_cons] at h ⊢
            rw [passBodies, if_pos hr] at h; exact h
        simp only [plainDecls, hr, if_true] at he ⊢
        exact ih h' nd hl he
      | false =>
        simp only [plainDecls, hr, Bool.false_eq_true, if_false] at he ⊢
        cases rows with
        | nil => simp at he
        | cons r rows =>
          simp only [List.map_cons] at h
          rw [passBodies, hr] at h
          simp only [Bool.false_eq_true, if_false, bind_run_ok] at h
          obtain ⟨u, s1, h1, h2⟩ := h
          obtain ⟨x, hx, hc⟩ := hl r List.mem_cons_self
          obtain ⟨t1, y, hy, y1, y2, y3, e1⟩ := convBody_elab hx hc h1
          rw [List.map_cons, List.nodup_cons] at nd
          have ne : ∀ r' ∈ rows, r'.id ≠ r.id := by
            intro r' hm e
            exact nd.1 (e ▸ List.mem_map_of_mem hm)
          obtain ⟨l2, o2, r3, r4⟩ := ih h2 nd.2 (by
            intro r' hm
            obtain ⟨x', hx', hc'⟩ := hl r' (List.mem_cons_of_mem _ hm)
            exact ⟨x', (t1.others _ (heap_lt hx') (ne r' hm)).trans hx', hc'⟩) (by simpa using he)
          have hself : s'.heap[r.id]? = some y := by
            rw [o2 r.id (Nat.lt_of_lt_of_le (heap_lt hx) t1.len) nd.1]; exact hy
          refine ⟨Nat.le_trans t1.len l2, ?_, ?_, ?_⟩
          · intro k hk hm
            rw [List.map_cons, List.mem_cons, not_or] at hm
            rw [o2 k (Nat.lt_of_lt_of_le hk t1.len) hm.2]
            exact t1.others k hk hm.1
          · intro r' hm x' hx'
            rcases List.mem_cons.1 hm with rfl | hm
            · rw [hx] at hx'
              cases hx'
              exact ⟨y, hself, y1, y2, y3⟩
            · refine r3 r' hm x' ?_
              rw [t1.others _ (heap_lt hx') (ne r' hm)]; exact hx'
          · intro q hq hp ha
            refine rows_cons ?_ (r4 q hq hp ?_)
            · intro y' z hy' hz
              rw [hself] at hy'
              cases hy'
              refine e1 q hq hp ?_ z hz
              intro k k1 k2 _
              refine (ha k k1 (Nat.lt_of_lt_of_le k2 l2) (by simp)).congr (o2 k k2 ?_).symm
              intro hm
              obtain ⟨r', hr', rfl⟩ := List.mem_map.1 hm
              obtain ⟨x', hx', -⟩ := hl r' (List.mem_cons_of_mem _ hr')
              exact Nat.not_lt.2 k1 (heap_lt hx')
            · intro k k1 k2 k3
              exact ha k (Nat.le_trans t1.len k1) k2 k3
    | const name ty v =>
      rw [passBodies] at h
      · exact ih h nd hl he
      all_goals simp
    | import_ items src =>
      rw [passBodies] at h
      · exact ih h nd hl he
      all_goals simp
    | ffi n k =>
      rw [passBodies] at h
      · exact ih h nd hl he
      all_goals simp

theorem scanCycles_flagged : ∀ {ts : List (String × FId)} {h h' : Heap}, scanCycles ts h = .ok h' →
    h'.length = h.length ∧
      ∀ (f : FId) (x : AField), h[f]? = some x → ∃ y, h'[f]? = some y ∧ Flagged x y
  | [], h, h', e => by
    cases e
    exact ⟨rfl, fun f x hx => ⟨x, hx, rfl⟩⟩
  | (_, g) :: ts, h, h', e => by
    rw [scanCycles, rbind_ok] at e
    obtain ⟨h1, e1, e2⟩ := e
    obtain ⟨l2, f2⟩ := scanCycles_flagged e2
    have key : h1.length = h.length ∧
        ∀ (f : FId) (x : AField), h[f]? = some x → ∃ y, h1[f]? = some y ∧ Flagged x y := by
      unfold scanOne at e1
      simp only [rbind_ok] at e1
      obtain ⟨x0, -, ns, -, e1⟩ := e1
      split at e1
      · cases e1
        refine ⟨by simp, fun f x hx => ?_⟩
        by_cases hf : f = g
        · subst hf
          rw [modify_self, hx]; exact ⟨_, rfl, rfl⟩
        · rw [modify_other _ _ hf]; exact ⟨x, hx, rfl⟩
      · cases e1
        exact ⟨rfl, fun f x hx => ⟨x, hx, rfl⟩⟩
    refine ⟨l2.trans key.1, fun f x hx => ?_⟩
    obtain ⟨y, hy, hxy⟩ := key.2 f x hx
    obtain ⟨z, hz, hyz⟩ := f2 f y hy
    refine ⟨z, hz, ?_⟩
    unfold Flagged at hxy hyz ⊢
    rw [hyz, hxy]

/-- A graph with at least the cells of another one, as they are except for whether they are marked as
recursive. -/
def Later (h h' : Heap) : Prop := ∀ (f : FId) (x : AField), h[f]? = some x → ∃ y, h'[f]? = some y ∧ Flagged x y

theorem Later.refl (h : Heap) : Later h h := fun _ x hx => ⟨x, hx, rfl⟩
theorem Later.trans {a b c : Heap} (h1 : Later a b) (h2 : Later b c) : Later a c := by
  intro f x hx
  obtain ⟨y, hy, hxy⟩ := h1 f x hx
  obtain ⟨z, hz, hyz⟩ := h2 f y hy
  refine ⟨z, hz, ?_⟩
  unfold Flagged at hxy hyz ⊢
  rw [hyz, hxy]
theorem Grow.later {s s' : St} (h : Grow s s') : Later s.heap s'.heap :=
  fun f x hx => ⟨x, (h.2 f (heap_lt hx)).trans hx, rfl⟩

theorem scanM_flagged {p : Prog} {s s' : St} {u : Unit} (h : scanM p s = .ok (u, s')) : Later s.heap s'.heap := by
  unfold scanM at h
  rw [rmap_ok] at h
  obtain ⟨h', e, h⟩ := h
  cases h
  exact (scanCycles_flagged e).2

theorem has_of_lt {s6 : St} {H : Heap} (hs : Later s6.heap H) {s : St} {f : FId} (hf : f < s.heap.length)
    (e : s6.heap[f]? = s.heap[f]?) : Has H s f := by
  have hx : s.heap[f]? = some s.heap[f] := List.getElem?_eq_getElem hf
  obtain ⟨y, hy, hxy⟩ := hs f _ (e.trans hx)
  exact ⟨_, y, hx, hy, hxy⟩

/-- Every declaration of a converted module is what it should be, and stays that. -/
theorem fromAstImported_later {env : Env} {mods : List (String × Prog)} {ast : Ast.Program}
    {p : Prog} {s s' : St} (h : fromAstImported env mods ast s = .ok (p, s')) {H : Heap} (hl : Later s'.heap H) :
    ∀ d ∈ ast, ElabDecl p H d := by
  obtain ⟨p1, s1, p2, s2, p3, s3, ids, s4, scs, s5, s6, -, -, hc, hd, ha, hb, hs⟩ :=
    fromAstImported_ok h
  have fl := (scanM_flagged hs).trans hl
  obtain ⟨gc, ec⟩ := passConsts_elab hc
  obtain ⟨gd, nd, bd, rd⟩ := passDeclare_elab hd
  simp only at nd bd rd
  obtain ⟨la, oa, rows, r1, r2, r3, r4⟩ := passArguments_elab ha nd (fun k hk => (bd k hk).2) rd.1
  subst r1 r2
  have cells : ∀ r ∈ rows, ∃ n, s4.heap[r.id]? = some (blankField n true) := by
    intro r hm
    obtain ⟨k, hk, hr⟩ := List.mem_iff_getElem.1 hm
    have hlen := rd.1
    simp only [List.length_map] at hlen
    have h1 : (plainDecls ast)[k]? = some _ := List.getElem?_eq_getElem (hlen ▸ hk)
    have h2 : (rows.map Row.id)[k]? = some r.id := by
      rw [List.getElem?_map, List.getElem?_eq_getElem hk, hr]; rfl
    exact ⟨_, (rd.2 k _ _ h1 h2).2⟩
  have cells5 : ∀ r ∈ rows, ∃ x : AField, s5.heap[r.id]? = some x ∧ x.calculated = none := by
    intro r hm
    obtain ⟨n, hn⟩ := cells r hm
    exact ⟨_, r3 r hm _ hn, rfl⟩
  obtain ⟨lb, ob, b3, b4⟩ := passBodies_elab hb nd cells5 (by simpa using rd.1)
  have ext := (passDeclare_extends hd).1
  simp only at ext
  have hA : AgreeFrom s4.heap.length [] H s5 := by
    intro f f1 f2 _
    refine has_of_lt fl f2 (ob f f2 ?_)
    intro hm
    exact Nat.not_lt.2 f1 (bd f hm).2
  have hB : AgreeFrom s5.heap.length [] H s6 := fun f _ f2 _ => has_of_lt fl f2 rfl
  have ra := r4 p (.refl _) H hA
  have rb := b4 p (.refl _) H hB
  intro d hm
  by_cases hrep : ∀ n args f, d = .type n args f → isRepType f = true
  · refine ec p ext H ?_ d hm hrep
    intro f f1 f2 _
    have n4 : f ∉ rows.map Row.id := fun hm => Nat.not_lt.2 (bd f hm).1 f2
    refine has_of_lt fl f2 ?_
    rw [ob f (Nat.lt_of_lt_of_le (Nat.lt_of_lt_of_le f2 gd.1) la) n4,
      oa f (Nat.lt_of_lt_of_le f2 gd.1) n4]
    exact gd.2 f f2
  · cases d with
    | import_ _ _ => exact .import_
    | ffi _ _ => exact .ffi
    | const n t v => exact absurd (fun _ _ _ h => by cases h) hrep
    | type n args f =>
      have hr : isRepType f = false := by
        cases hr : isRepType f with
        | false => rfl
        | true => exact absurd (fun _ _ _ h => by cases h; exact hr) hrep
      obtain ⟨k, hk, hkd⟩ := List.mem_iff_getElem.1 (mem_plainDecls hm hr)
      have hlen := rd.1
      simp only [List.length_map] at hlen
      have k1 : (plainDecls ast)[k]? = some ⟨n, args, f⟩ := by
        rw [List.getElem?_eq_getElem hk, hkd]
      have hk2 : k < rows.length := hlen ▸ hk
      have k2 : rows[k]? = some rows[k] := List.getElem?_eq_getElem hk2
      have k3 : (rows.map Row.id)[k]? = some rows[k].id := by
        rw [List.getElem?_map, k2]; rfl
      obtain ⟨d1, d2⟩ := rd.2 k _ _ k1 k3
      have a1 := ra.2 k _ _ k1 k2
      have hmem : rows[k] ∈ rows := List.getElem_mem _
      obtain ⟨y, hy, y1, y2, y3⟩ := b3 _ hmem _ (r3 _ hmem _ d2)
      obtain ⟨z, hz, hyz⟩ := fl _ _ hy
      have b1 := rb.2 k _ _ k1 k2 y z hy hyz
      unfold Flagged at hyz
      have za : z.arguments = rows[k].params := by rw [hyz]; exact y3
      simp only at d1 b1 a1
      exact .type d1 hz (by rw [hyz]; exact y1) (by rw [hyz]; exact y2) (za ▸ a1) (za ▸ b1.1)
        (za ▸ b1.2.1) b1.2.2

theorem fromAstImported_elab {env : Env} {mods : List (String × Prog)} {ast : Ast.Program}
    {p : Prog} {s s' : St} (h : fromAstImported env mods ast s = .ok (p, s')) :
    ∀ d ∈ ast, ElabDecl p s'.heap d := fromAstImported_later h (.refl _)

end Verif.Sem
