import Verif.Sem.Typed
import Verif.Props.Dups
import Verif.Props.Shape
import Verif.Props.Typing
/-!
# C51: every expression of a converted program has the type its place asks for
-/
namespace Verif.Props
open Verif Sem

/-! ## Specification -/

/-- The fields in a type, at any depth, are typed (and finished). -/
def TypedIn (V : View) (t : AType) : Prop :=
  ∀ i, Inside V.h t i → i ∉ V.opn ∧ ∃ z, V.h[i]? = some z ∧ TypedField V z

/-- A type of a module with all there is in it. -/
def TypedWhole (V : View) (k : FId) : Prop :=
  k ∉ V.opn ∧ ∃ x, V.h[k]? = some x ∧ TypedField V x ∧ TypedIn V x.type

/-- Parameters with all there is in them. -/
def TypedParams (V : View) (as : List AArg) : Prop :=
  TypedArgs V as ∧ ∀ a ∈ as, TypedIn V a.type

/-- A finished module, seen by someone who may not have known the types `names`. -/
def seenWithout (env : Env) (p : Prog) (names : List String) (h : Heap) : View :=
  { env, p, opn := [], pend := fun i => ∃ n ∈ names, IMap.get p.types n = some i, h }

/-- The types that may not be known in the definition of the first type of `ast`: for an enum or a
bitfield only the type itself, for others all types that are not enums or bitfields from this one on. -/
def unknownIn (n : String) (args : List Ast.TypeArg) (f : Ast.Field) (post : Ast.Program) :
    List String :=
  if isRepType f then [n] else plainNames (.type n args f :: post)

/-- The same for the parameters of a type: all types that are not enums or bitfields. -/
def unknownInParams (n : String) (f : Ast.Field) (ast : Ast.Program) : List String :=
  if isRepType f then [n] else plainNames ast

/-! ## Later graphs -/

/-- What was finished stays as it is. -/
def Kept (V : View) (h' : Heap) : Prop :=
  ∀ (f : FId) (x : AField), V.h[f]? = some x → f ∉ V.opn → ∃ y, h'[f]? = some y ∧ Sem.Flagged x y

theorem flaggedField {V : View} {x y : AField} (t : TypedField V x) (h : Sem.Flagged x y) :
    TypedField V y := by
  unfold Sem.Flagged at h
  rw [h]
  exact { type := t.type, condition := t.condition, transforms := t.transforms,
          calculated := t.calculated }

theorem inside_kept {V : View} {h' : Heap} (k : Kept V h') {t : AType} {i : FId}
    (hi : Inside h' t i) : TypedIn V t → Inside V.h t i := by
  induction hi with
  | item m => exact fun _ => .item m
  | deeper m hx _ ih =>
    intro ti
    obtain ⟨a, z, hz, -⟩ := ti _ (.item m)
    obtain ⟨y, hy, fl⟩ := k _ _ hz a
    rw [hx] at hy
    cases hy
    unfold Sem.Flagged at fl
    have e : z.type = _ := (congrArg AField.type fl).symm
    exact .deeper m hz (e ▸ ih (fun i h => ti i (.deeper m hz (e ▸ h))))

theorem not_open {V W : View} (t : V.To W) {i : FId} {x : AField} (hx : V.h[i]? = some x)
    (h : i ∉ V.opn) : i ∉ W.opn := fun hm =>
  (t.opn i hm).elim h fun hl => Nat.not_lt.2 hl (heap_lt hx)

theorem TypedIn.to {V W : View} (t : V.To W) (k : Kept V W.h) {ty : AType} (ti : TypedIn V ty) :
    TypedIn W ty := by
  intro i hi
  obtain ⟨a, z, hz, b⟩ := ti i (inside_kept k hi ti)
  obtain ⟨y, hy, fl⟩ := k _ _ hz a
  exact ⟨not_open t hz a, y, hy, flaggedField (b.to t) fl⟩

theorem TypedWhole.to {V W : View} (t : V.To W) (k : Kept V W.h) {i : FId} :
    TypedWhole V i → TypedWhole W i
  | ⟨a, x, hx, b, c⟩ => by
    obtain ⟨y, hy, fl⟩ := k _ _ hx a
    have c' := c.to t k
    refine ⟨not_open t hx a, y, hy, flaggedField (b.to t) fl, ?_⟩
    unfold Sem.Flagged at fl
    rw [fl]; exact c'

theorem TypedParams.to {V W : View} (t : V.To W) (k : Kept V W.h) {as : List AArg} :
    TypedParams V as → TypedParams W as
  | ⟨a, b⟩ => ⟨a.to t, fun x hx => (b x hx).to t k⟩

theorem typedIn_of {V : View} {lo : Nat} (a : AllTyped V lo) (ho : ∀ i ∈ V.opn, i < lo) {i : FId} :
    ∀ {t : AType}, ItemsFrom lo V.h t → Inside V.h t i →
      i ∉ V.opn ∧ ∃ z, V.h[i]? = some z ∧ TypedField V z := by
  intro t it hi
  induction hi with
  | item m =>
    obtain ⟨l, u⟩ := it _ m
    have hx := List.getElem?_eq_getElem u
    exact ⟨fun hm => Nat.not_lt.2 l (ho _ hm), _, hx, (a _ _ l hx).1⟩
  | deeper m hx _ ih => exact ih (a _ _ (it _ m).1 hx).2.1

theorem invisible {fr : Frame} (h : fr.fields = []) {n : String} {f : FId} :
    ¬ FieldVisible (fr :: topScope) n f := by
  intro hv
  cases hv with
  | here h' => rw [h] at h'; cases h'
  | outer _ h' =>
    cases h' with
    | here h' => cases h'
    | outer _ h' => cases h'

theorem invisible_top {n : String} {f : FId} : ¬ FieldVisible topScope n f := by
  intro hv
  cases hv with
  | here h' => cases h'
  | outer _ h' => cases h'

/-! ## The passes -/

theorem convTypeArgs_typed {p : Prog} {lo : Nat} :
    ∀ {args : List Ast.TypeArg} {V : View} {inputs : List (String × AType)} {done : List AArg}
      {s s' : St} {r : List (String × AType) × List AArg},
      s.heap = V.h → convTypeArgs V.env p topScope args inputs done s = .ok (r, s') →
      Ready V p topScope lo → TypedArgs V done → (∀ a ∈ done, ItemsFrom lo V.h a.type) →
      Ready (V.at s'.heap) p topScope lo ∧ TypedArgs (V.at s'.heap) r.2 ∧
        ∀ a ∈ r.2, ItemsFrom lo s'.heap a.type
  | [], V, inputs, done, s, s', r, hs, h, ha, hd, hi => by
    rw [convTypeArgs, pure_run_ok] at h
    obtain ⟨rfl, rfl⟩ := h
    rw [hs]
    exact ⟨ha, hd, hi⟩
  | a :: rest, V, inputs, done, s, s', r, hs, h, ha, hd, hi => by
    rw [convTypeArgs] at h
    simp only [bind_run_ok] at h
    obtain ⟨t, s1, h1, P, s2, h2, d, s3, h3, h4⟩ := h
    obtain ⟨g, -⟩ := convTy_elab V.env p _ _ _ _ _ _ h1
    have r1 : ∀ ins, Ready V p (⟨[], ins⟩ :: topScope) lo := fun ins =>
      ha.scope fun n f hv => (invisible rfl hv).elim
    obtain ⟨a1, t1, i1⟩ := convTy_typed p _ V _ _ _ _ _ _ (r1 _) hs h1
    have st : Step V.opn V.h s1.heap := hs ▸ Step.of_grow g
    unfold defaultExpected at h2
    rw [withHeap_ok] at h2
    obtain ⟨h2, rfl⟩ := h2
    have r2 := ha.at st a1
    have r2' : ∀ ins, Ready (V.at s1.heap) p (⟨[], ins⟩ :: topScope) lo := fun ins =>
      r2.scope fun n f hv => (invisible rfl hv).elim
    obtain ⟨e3, c3⟩ := convOpt_sound V.env p _ _ _ _ _ _ h3
    refine convTypeArgs_typed (V := V.at s1.heap) e3 h4 r2 ?_ ?_
    · intro b hb
      rcases List.mem_append.1 hb with hb | hb
      · exact TypedArgs.to (ha.to st) hd b hb
      · rw [List.mem_singleton] at hb
        rw [hb]
        refine ⟨t1, fun x hx => ?_⟩
        simp only at hx
        cases hd : a.default with
        | none =>
          rw [hd, convOpt, pure_run_ok] at h3
          rw [← h3.1] at hx; cases hx
        | some e =>
          rw [hd] at h2
          obtain ⟨f, w⟩ := c3 x hx
          exact ⟨p, _, _, P, (r2' _).moment, h2, f, w⟩
    · intro b hb
      rcases List.mem_append.1 hb with hb | hb
      · exact (hi b hb).mono st.len
      · rw [List.mem_singleton] at hb
        rw [hb]; exact i1

theorem convArguments_typed {V : View} {p : Prog} {sc' : Scope}
    {args : List Ast.TypeArg} {id : FId} {s s' : St} {x : AField} (hs : s.heap = V.h)
    (h : convArguments V.env p topScope args id s = .ok (sc', s')) (he : Extends p V.p)
    (hl : ∀ i ∈ V.opn, i < V.h.length) (hk : V.Ok) (ho : id ∈ V.opn)
    (hx : V.h[id]? = some x) (ht : x.type = .bool) :
    Step V.opn V.h s'.heap ∧ ∃ as, s'.heap[id]? = some { x with arguments := as } ∧
      sc' = paramFrame as :: topScope ∧ TypedParams (V.at s'.heap) as := by
  have r0 : Ready V p topScope V.h.length :=
    { ext := he, vis := fun n f hv => (invisible_top hv).elim, lt := hl, ok := hk
      from_lo := Nat.le_refl _, all := fun i x h1 h2 => absurd (heap_lt h2) (Nat.not_lt.2 h1) }
  obtain ⟨-, as', hsc, has, -⟩ := convArguments_elab (hs ▸ heap_lt hx) h
  unfold convArguments at h
  simp only [bind_run_ok, update_ok, pure_run_ok] at h
  obtain ⟨⟨inputs, as⟩, s1, h1, u, s2, rfl, rfl, rfl⟩ := h
  obtain ⟨g, -⟩ := convTypeArgs_elab h1
  obtain ⟨r1, t1, i1⟩ := convTypeArgs_typed hs h1 r0 (fun a ha => by cases ha)
    (fun a ha => by cases ha)
  simp only at t1 i1 has ⊢
  have g1 : Step V.opn V.h s1.heap := hs ▸ Step.of_grow g
  have hx1 : s1.heap[id]? = some x := by rw [g.2 id (hs ▸ heap_lt hx), hs]; exact hx
  have l : Step V.opn s1.heap (s1.heap.modify id fun f => { f with arguments := as }) :=
    .modify fun y hy => ⟨rfl, rfl, .inr ⟨by rw [hx1] at hy; cases hy; exact ht, ho⟩⟩
  have hx2 := has x (hs ▸ hx)
  have e : as = as' := by
    rw [modify_self, hx1] at hx2
    simp only [Option.map_some, Option.some.injEq] at hx2
    exact congrArg AField.arguments hx2
  subst e
  have to1 := r1.to l
  refine ⟨g1.trans l (fun i h => .inl h), as, hx2, hsc, t1.to to1, fun a ha => ?_⟩
  refine TypedIn.to to1 ?_ (fun i hi => typedIn_of r1.all r0.lt (i1 a ha) hi)
  intro f y hy hf
  have hne : f ≠ id := fun e => hf (e ▸ ho)
  exact ⟨y, (modify_other _ _ hne).trans hy, rfl⟩

theorem convBody_typed {V : View} {p : Prog} {fr : Frame} (hf : fr.fields = [])
    {n : String} {f : Ast.Field} {id : FId} {s s' : St} {x : AField} {u : Unit} (hs : s.heap = V.h)
    (h : convBody V.env p (fr :: topScope) n f id s = .ok (u, s')) (he : Extends p V.p)
    (hl : ∀ i ∈ V.opn, i < V.h.length) (hk : V.Ok) (ho : id ∈ V.opn)
    (hx : V.h[id]? = some x) (ht : x.type = .bool) (hc : x.calculated = none) :
    Step V.opn V.h s'.heap ∧ ∃ y, s'.heap[id]? = some y ∧ TypedField (V.at s'.heap) y ∧
      TypedIn (V.at s'.heap) y.type := by
  have r0 : Ready V p (fr :: topScope) V.h.length :=
    { ext := he, vis := fun n f hv => (invisible hf hv).elim, lt := hl, ok := hk
      from_lo := Nat.le_refl _, all := fun i x h1 h2 => absurd (heap_lt h2) (Nat.not_lt.2 h1) }
  unfold convBody at h
  simp only [bind_run_ok] at h
  obtain ⟨b, s1, h1, h2⟩ := h
  obtain ⟨l1, a1, y, hy, ty, iy⟩ := convMid_typed p _ V _ _ _ _ _ _ _ r0 hs h1 ho hx ht hc
  have r1 := r0.at l1 a1
  obtain ⟨l2, a2, k2⟩ := convEnd_typed (V := V.at s1.heap) r1 rfl h2
  obtain ⟨z, hz, ez, tz⟩ := k2 y hy ty
  refine ⟨l1.trans l2 (by simp), z, hz, tz, fun i hi => ?_⟩
  exact typedIn_of (V := V.at s'.heap) a2 (fun i hi => r0.lt i hi) (ez ▸ iy.mono l2.len) hi

theorem passImports_heap {env : Env} {mods : List (String × Prog)} :
    ∀ {ast : Ast.Program} {p p' : Prog} {s s' : St},
      passImports env mods ast p s = .ok (p', s') → s' = s := by
  intro ast
  induction ast with
  | nil =>
    intro p p' s s' h
    rw [passImports, pure_run_ok] at h
    exact h.2.symm
  | cons d rest ih =>
    intro p p' s s' h
    cases d with
    | import_ items src =>
      rw [passImports] at h
      simp only [bind_run_ok] at h
      obtain ⟨q, s1, h1, h2⟩ := h
      obtain ⟨name, c, -, -, hb, hs⟩ := convImport_ok h1
      rw [ih h2]; first | exact hs | exact hs.symm
    | type _ _ _ => exact ih h
    | const _ _ _ => exact ih h
    | ffi _ _ => exact ih h

/-- A view of a finished graph stays good when the graph changes elsewhere. -/
theorem seenWithout_to {env : Env} {p : Prog} {names : List String} {h h' : Heap}
    (st : Step [] h h') : (seenWithout env p names h).To (seenWithout env p names h') :=
  ⟨rfl, rfl, fun _ h => (by cases h), fun _ h => h, fun _ _ h => (by cases h), st⟩

theorem grow_kept {V : View} {s s' : St} (hs : V.h = s.heap) (g : Grow s s') : Kept V s'.heap :=
  fun f x hx _ => ⟨x, by rw [g.2 f (hs ▸ heap_lt hx), ← hs]; exact hx, rfl⟩

/-- What is claimed about the declarations treated in the first pass. -/
structure RepTyped (env : Env) (p : Prog) (ast : Ast.Program) (h : Heap) : Prop where
  types : ∀ n args f, .type n args f ∈ ast → isRepType f = true →
    ∃ k x, IMap.get p.types n = some k ∧ TypedWhole (seenWithout env p [n] h) k ∧
      h[k]? = some x ∧ TypedParams (seenWithout env p [n] h) x.arguments
  consts : ∀ n t v, .const n t v ∈ ast → ∃ c, IMap.get p.consts n = some c ∧
    TypedConst (seenWithout env p [] h) c

theorem RepTyped.to {env : Env} {p : Prog} {ast : Ast.Program} {h h' : Heap}
    (st : Step [] h h') (k : ∀ (f : FId) (x : AField), h[f]? = some x → ∃ y, h'[f]? = some y ∧
      Sem.Flagged x y) (r : RepTyped env p ast h) : RepTyped env p ast h' where
  types n args f hm hr := by
    obtain ⟨i, x, a, b, c, d⟩ := r.types n args f hm hr
    obtain ⟨y, hy, fl⟩ := k i x c
    refine ⟨i, y, a, b.to (seenWithout_to st) (fun f x hx _ => k f x hx), hy, ?_⟩
    unfold Sem.Flagged at fl
    rw [fl]
    exact d.to (seenWithout_to st) (fun f x hx _ => k f x hx)
  consts n t v hm := by
    obtain ⟨c, hc, tc⟩ := r.consts n t v hm
    exact ⟨c, hc, tc.to (seenWithout_to st)⟩

theorem passConsts_typed {env : Env} {pf : Prog} :
    ∀ {ast : Ast.Program} {p p' : Prog} {s s' : St},
    passConsts env ast p s = .ok (p', s') → Extends p' pf → Grow s s' ∧
      RepTyped env pf ast s'.heap := by
  intro ast
  induction ast with
  | nil =>
    intro p p' s s' h he
    rw [passConsts, pure_run_ok] at h
    rw [← h.2]; exact ⟨.refl _, ⟨fun _ _ _ h => (by cases h), fun _ _ _ h => (by cases h)⟩⟩
  | cons d rest ih =>
    intro p p' s s' h he
    cases d with
    | type name args f =>
      rw [passConsts] at h
      split at h
      · rename_i hr
        simp only [bind_run_ok] at h
        obtain ⟨⟨id, q⟩, s1, h1, sc, s2, h2, u, s3, h3, h4⟩ := h
        have hq : Extends q pf := .trans (passConsts_extends h4).1 he
        obtain ⟨g3, -⟩ := convRep_elab h1 h2 h3
        rw [declareType_ok] at h1
        obtain ⟨hn, rfl, hq', rfl⟩ := h1
        simp only at h2 h3
        have hget : IMap.get pf.types name = some s.heap.length := hq.types _ _ (by
          simp only at hq'
          rw [hq', ← IMap.insert_new hn, IMap.get_insert_self])
        have hx : (s.heap ++ [blankField name true])[s.heap.length]? = some (blankField name true) :=
          List.getElem?_concat_length
        let V1 : View := { env, p := pf, opn := [s.heap.length]
                           pend := (seenWithout env pf [name] []).pend
                           h := s.heap ++ [blankField name true] }
        have ok1 : V1.Ok := fun i x hm _ _ => by
          rw [List.mem_singleton.1 hm]; exact ⟨name, by simp, hget⟩
        obtain ⟨l2, as, hx2, rfl, tp2⟩ := convArguments_typed (V := V1) rfl h2 hq
          (fun i hm => by rw [List.mem_singleton.1 hm]; exact heap_lt hx) ok1
          (List.mem_singleton.2 rfl) hx rfl
        have lt2 : ∀ i ∈ V1.opn, i < s2.heap.length := fun i hm => by
          rw [List.mem_singleton.1 hm]; exact heap_lt hx2
        have ok2 : (V1.at s2.heap).Ok := fun i x hm _ _ => by
          rw [List.mem_singleton.1 hm]; exact ⟨name, by simp, hget⟩
        have cv := convBody_typed (V := V1.at s2.heap) (fr := paramFrame as) rfl rfl h3 hq lt2 ok2
          (List.mem_singleton.2 rfl) hx2 rfl rfl
        obtain ⟨l3, y, hy, ty, iy⟩ := cv
        obtain ⟨t3, y', hy', -, -, y3, -⟩ := convBody_elab (p := q) hx2 rfl h3
        rw [hy] at hy'; cases hy'
        have to23 : (V1.at s2.heap).To (V1.at s3.heap) := View.to_at l3 ok2
        have k23 : Kept (V1.at s2.heap) s3.heap := fun f x hx hf =>
          ⟨x, by rw [t3.others f (heap_lt hx) (fun e => hf (e ▸ List.mem_singleton.2 rfl))]; exact hx,
            rfl⟩
        have tp3 := tp2.to to23 k23
        have close : (V1.at s3.heap).To (seenWithout env pf [name] s3.heap) :=
          { env := rfl, p := rfl, opn := fun _ h => (by cases h), pend := fun _ h => h
            open_pend := fun i x hm _ _ => by
              rw [List.mem_singleton.1 hm]; exact ⟨name, by simp, hget⟩
            step := .refl _ _ }
        have keep : Kept (V1.at s3.heap) s3.heap := fun f x hx _ => ⟨x, hx, rfl⟩
        obtain ⟨g4, r4⟩ := ih h4 he
        have st4 : Step [] s3.heap s'.heap := .of_grow g4
        have kp4 : ∀ ns, Kept (seenWithout env pf ns s3.heap) s'.heap := fun ns => grow_kept rfl g4
        refine ⟨.trans g3 g4, ⟨fun n args' f' hm hr' => ?_, fun n t v hm => ?_⟩⟩
        · rcases List.mem_cons.1 hm with hm | hm
          · cases hm
            refine ⟨s.heap.length, y, hget, ?_, ?_, ?_⟩
            · refine TypedWhole.to (seenWithout_to st4) (kp4 _) ⟨by simp [seenWithout], y, hy, ty.to close, ?_⟩
              exact TypedIn.to close keep iy
            · rw [g4.2 _ (heap_lt hy)]; exact hy
            · rw [y3]
              exact (tp3.to close keep).to (seenWithout_to st4) (kp4 _)
          · exact r4.types n args' f' hm hr'
        · exact r4.consts n t v (by simpa using hm)
      · rename_i hr
        obtain ⟨g, r⟩ := ih h he
        refine ⟨g, ⟨fun n args' f' hm hr' => ?_, fun n t v hm => r.consts n t v (by simpa using hm)⟩⟩
        rcases List.mem_cons.1 hm with hm | hm
        · cases hm; exact absurd hr' hr
        · exact r.types n args' f' hm hr'
    | const name ty v =>
      rw [passConsts] at h
      simp only [bind_run_ok] at h
      obtain ⟨q, s1, h1, h2⟩ := h
      obtain ⟨hn, t, s2, P, e, ht, -, hP, hv, rfl⟩ := convConst_ok h1
      have hq : Extends _ pf := .trans (passConsts_extends h2).1 he
      have hp : Extends p pf := .trans extends_consts hq
      obtain ⟨g, -⟩ := convTy_elab env p _ _ _ _ _ _ ht
      have r0 : Ready (seenWithout env pf [] s.heap) p topScope s.heap.length :=
        { ext := hp, vis := fun n f hv => (invisible_top hv).elim, lt := fun i h => (by cases h)
          ok := fun i x h => (by cases h), from_lo := Nat.le_refl _
          all := fun i x h1 h2 => absurd (heap_lt h2) (Nat.not_lt.2 h1) }
      obtain ⟨a1, t1, -⟩ := convTy_typed p _ (seenWithout env pf [] s.heap) _ _ _ _ _ _ r0 rfl ht
      have r1 := r0.at (Step.of_grow g) a1
      obtain ⟨e2, f2, w2⟩ := convE_sound env p _ v _ _ _ _ hv
      obtain ⟨g4, r4⟩ := ih h2 he
      have g5 : Grow s s1 := ⟨e2 ▸ g.1, fun f hf => e2 ▸ g.2 f hf⟩
      refine ⟨.trans g5 g4, ⟨fun n args' f' hm hr' => ?_, fun n t' v' hm => ?_⟩⟩
      · exact r4.types n args' f' (by simpa using hm) hr'
      rcases List.mem_cons.1 hm with hm | hm
      · cases hm
        have tc : TypedConst (seenWithout env pf [] s2.heap) (.mk name t e) :=
          ⟨t1, ⟨p, _, _, P, r1.moment, hP, f2, w2⟩⟩
        refine ⟨.mk name t e, hq.consts _ _ ?_, tc.to (seenWithout_to (e2 ▸ Step.of_grow g4))⟩
        simp only
        rw [← IMap.insert_new hn, IMap.get_insert_self]
      · exact r4.consts n t' v' hm
    | import_ items src =>
      obtain ⟨g, r⟩ := ih h he
      exact ⟨g, ⟨fun n args f hm hr => r.types n args f (by simpa using hm) hr,
        fun n t v hm => r.consts n t v (by simpa using hm)⟩⟩
    | ffi n k =>
      obtain ⟨g, r⟩ := ih h he
      exact ⟨g, ⟨fun n args f hm hr => r.types n args f (by simpa using hm) hr,
        fun n t v hm => r.consts n t v (by simpa using hm)⟩⟩

/-- A view of a graph in which `ops` are open, all of which may be unknown. -/
abbrev during (env : Env) (p : Prog) (names : List String) (ops : List FId) (h : Heap) : View :=
  { env, p, opn := ops, pend := fun i => ∃ n ∈ names, IMap.get p.types n = some i, h }

theorem passArguments_typed {env : Env} {p : Prog} {names : List String} {ops : List FId}
    (hops : ∀ i ∈ ops, ∃ n ∈ names, IMap.get p.types n = some i) :
    ∀ {ast : Ast.Program} {ids : List FId} {scs : List Scope} {s s' : St},
      passArguments env p ast ids s = .ok (scs, s') → ids.Nodup → (∀ id ∈ ids, id ∈ ops) →
      (plainDecls ast).length = ids.length →
      (∀ id ∈ ops, id < s.heap.length) →
      (∀ id ∈ ids, ∃ x : AField, s.heap[id]? = some x ∧ x.type = .bool ∧ x.calculated = none) →
      Step ops s.heap s'.heap ∧
      (∀ f : FId, f < s.heap.length → f ∉ ids → s'.heap[f]? = s.heap[f]?) ∧
      ∃ rows : List Row, rows.map Row.id = ids ∧
        scs = rows.map (fun r => paramFrame r.params :: topScope) ∧
        ∀ r ∈ rows, (∃ x, s'.heap[r.id]? = some x ∧ x.type = .bool ∧ x.calculated = none ∧
          x.arguments = r.params) ∧ TypedParams (during env p names ops s'.heap) r.params := by
  intro ast
  induction ast with
  | nil =>
    intro ids scs s s' h nd hi hl ho hb
    have hn : ids = [] := List.length_eq_zero_iff.1 hl.symm
    subst hn
    rw [passArguments, pure_run_ok] at h
    rw [← h.2, ← h.1]; exact ⟨.refl _ _, fun _ _ _ => rfl, [], rfl, rfl, by simp⟩
  | cons d rest ih =>
    intro ids scs s s' h nd hi hl ho hb
    cases d with
    | type name args f =>
      simp only [plainDecls] at hl
      cases ids with
      | nil =>
        rw [passArguments] at h
        · split at hl
          · exact ih h nd hi hl ho hb
          · cases hl
        all_goals simp
      | cons id ids =>
        rw [passArguments] at h
        split at h
        · rename_i hr
          rw [if_pos hr] at hl
          exact ih h nd hi hl ho hb
        · rename_i hr
          rw [if_neg hr] at hl
          simp only [bind_run_ok, pure_run_ok] at h
          obtain ⟨sc, s1, h1, scs', s2, h2, rfl, rfl⟩ := h
          obtain ⟨x, hx, ht, hc⟩ := hb id List.mem_cons_self
          obtain ⟨t1, -⟩ := convArguments_elab (heap_lt hx) h1
          obtain ⟨l1, as, hx1, rfl, tp⟩ := convArguments_typed (V := during env p names ops s.heap)
            rfl h1 (.refl _) ho (fun i _ hm _ _ => hops i hm) (hi id List.mem_cons_self) hx ht
          rw [List.nodup_cons] at nd
          obtain ⟨l2, o2, rows, rfl, rfl, hrows⟩ := ih h2 nd.2
            (fun k hk => hi k (List.mem_cons_of_mem _ hk)) (by simpa using hl)
            (fun k hk => Nat.lt_of_lt_of_le (ho k hk) l1.len) (by
            intro k hk
            obtain ⟨y, hy, hr⟩ := hb k (List.mem_cons_of_mem _ hk)
            refine ⟨y, ?_, hr⟩
            rw [t1.others k (heap_lt hy) (fun e => nd.1 (e ▸ hk))]; exact hy)
          refine ⟨l1.trans l2 (fun i h => .inl h), ?_, ⟨id, as⟩ :: rows, rfl, rfl, ?_⟩
          · intro g hg hng
            simp only [List.mem_cons, not_or] at hng
            rw [o2 g (Nat.lt_of_lt_of_le hg l1.len) hng.2, t1.others g hg hng.1]
          · intro r hr
            rcases List.mem_cons.1 hr with rfl | hr
            · refine ⟨⟨{ x with arguments := as }, (o2 id (heap_lt hx1) nd.1).trans hx1, ht, hc, rfl⟩, ?_⟩
              refine tp.to (W := during env p names ops s2.heap)
                (View.to_at l2 fun i _ hm _ _ => hops i hm) ?_
              intro g y hy hg
              exact ⟨y, by rw [o2 g (heap_lt hy) (fun hm => hg (hi g (List.mem_cons_of_mem _ hm)))]; exact hy, rfl⟩
            · exact hrows r hr
    | const name ty v =>
      rw [passArguments] at h
      · exact ih h nd hi hl ho hb
      all_goals simp
    | import_ items src =>
      rw [passArguments] at h
      · exact ih h nd hi hl ho hb
      all_goals simp
    | ffi n k =>
      rw [passArguments] at h
      · exact ih h nd hi hl ho hb
      all_goals simp

theorem plainNames_eq : ∀ ast, plainNames ast = (plainDecls ast).map PlainDecl.name
  | [] => rfl
  | .type n args f :: rest => by
    simp only [plainNames, plainDecls]
    split
    · exact plainNames_eq rest
    · simp [plainNames_eq rest]
  | .const .. :: rest => plainNames_eq rest
  | .import_ .. :: rest => plainNames_eq rest
  | .ffi .. :: rest => plainNames_eq rest

theorem pend_of_rows {p : Prog} {ast : Ast.Program} {rows : List Row}
    (h : Rows (fun d r => IMap.get p.types d.name = some r.id) (plainDecls ast) rows) :
    ∀ i ∈ rows.map Row.id, ∃ n ∈ plainNames ast, IMap.get p.types n = some i := by
  intro i hi
  obtain ⟨r, hr, rfl⟩ := List.mem_map.1 hi
  obtain ⟨k, hk, rfl⟩ := List.mem_iff_getElem.1 hr
  have hlen := h.1
  have hk' : k < (plainDecls ast).length := hlen ▸ hk
  refine ⟨(plainDecls ast)[k].name, ?_, h.2 k _ _ (List.getElem?_eq_getElem hk')
    (List.getElem?_eq_getElem hk)⟩
  rw [plainNames_eq]
  exact List.mem_map_of_mem (List.getElem_mem hk')

theorem passBodies_typed {env : Env} {p : Prog} :
    ∀ {ast : Ast.Program} {rows : List Row} {s s' : St} {u : Unit},
      passBodies env p ast (rows.map Row.id) (rows.map fun r => paramFrame r.params :: topScope) s
        = .ok (u, s') → (rows.map Row.id).Nodup →
      (∀ r ∈ rows, ∃ x : AField, s.heap[r.id]? = some x ∧ x.type = .bool ∧ x.calculated = none) →
      Rows (fun d r => IMap.get p.types d.name = some r.id) (plainDecls ast) rows →
      Step (rows.map Row.id) s.heap s'.heap ∧
      (∀ f : FId, f < s.heap.length → f ∉ rows.map Row.id → s'.heap[f]? = s.heap[f]?) ∧
      ∀ pre n args f post, ast = pre ++ .type n args f :: post → isRepType f = false →
        ∃ k, IMap.get p.types n = some k ∧
          TypedWhole (seenWithout env p (plainNames (.type n args f :: post)) s'.heap) k := by
  intro ast
  induction ast with
  | nil =>
    intro rows s s' u h nd hb hr
    rw [passBodies, pure_run_ok] at h
    rw [← h.2]; exact ⟨.refl _ _, fun _ _ _ => rfl, fun pre n args f post e => by simp at e⟩
  | cons d rest ih =>
    intro rows s s' u h nd hb hr
    have skip : plainDecls (d :: rest) = plainDecls rest → (∀ n args f, d = .type n args f →
        isRepType f = true) → passBodies env p rest (rows.map Row.id)
          (rows.map fun r => paramFrame r.params :: topScope) s = .ok (u, s') →
      Step (rows.map Row.id) s.heap s'.heap ∧
      (∀ f : FId, f < s.heap.length → f ∉ rows.map Row.id → s'.heap[f]? = s.heap[f]?) ∧
      ∀ pre n args f post, d :: rest = pre ++ .type n args f :: post → isRepType f = false →
        ∃ k, IMap.get p.types n = some k ∧
          TypedWhole (seenWithout env p (plainNames (.type n args f :: post)) s'.heap) k := by
      intro e hd h
      rw [e] at hr
      obtain ⟨a, b, c⟩ := ih h nd hb hr
      refine ⟨a, b, fun pre n args f post e hf => ?_⟩
      cases pre with
      | nil =>
        simp only [List.nil_append, List.cons.injEq] at e
        rw [hd _ _ _ e.1] at hf
        cases hf
      | cons d' pre =>
        simp only [List.cons_append, List.cons.injEq] at e
        exact c pre n args f post e.2 hf
    cases d with
    | type name args f =>
      by_cases hf : isRepType f = true
      · refine skip (by simp [plainDecls, hf]) (fun n a g e => by cases e; exact hf) ?_
        cases rows with
        | nil =>
          simp only [List.map_nil] at h ⊢
          rw [passBodies] at h
          · exact h
          all_goals simp
        | cons r rows =>
          simp only [List.map_cons] at h ⊢
          rw [passBodies, if_pos hf] at h
          exact h
      · have pe := pend_of_rows hr
        simp only [plainDecls, if_neg hf] at hr
        cases rows with
        | nil => exact absurd hr.1 (by simp)
        | cons r rows =>
          have hrow : IMap.get p.types name = some r.id := hr.2 0 _ _ rfl rfl
          have hrest : Rows (fun d r => IMap.get p.types d.name = some r.id) (plainDecls rest) rows :=
            ⟨by simpa using hr.1, fun k a b ha hb => hr.2 (k + 1) a b (by simpa using ha)
              (by simpa using hb)⟩
          simp only [List.map_cons] at h nd pe ⊢
          rw [passBodies, if_neg hf] at h
          simp only [bind_run_ok] at h
          obtain ⟨u', s1, h1, h2⟩ := h
          obtain ⟨x, hx, ht, hc⟩ := hb r List.mem_cons_self
          obtain ⟨t1, -⟩ := convBody_elab hx hc h1
          have lt : ∀ i ∈ r.id :: rows.map Row.id, i < s.heap.length := by
            intro i hi
            obtain ⟨r', hr', rfl⟩ := List.mem_map.1 (show i ∈ (r :: rows).map Row.id from hi)
            obtain ⟨y, hy, -⟩ := hb r' hr'
            exact heap_lt hy
          obtain ⟨l1, y, hy, ty, iy⟩ := convBody_typed (fr := paramFrame r.params)
            (V := during env p (plainNames (.type name args f :: rest)) (r.id :: rows.map Row.id)
              s.heap) rfl rfl h1 (.refl _) lt (fun i _ hm _ _ => pe i hm) List.mem_cons_self hx ht hc
          rw [List.nodup_cons] at nd
          obtain ⟨l2, o2, c2⟩ := ih h2 nd.2 (by
            intro r' hr'
            obtain ⟨y, hy, h⟩ := hb r' (List.mem_cons_of_mem _ hr')
            refine ⟨y, ?_, h⟩
            rw [t1.others _ (heap_lt hy) (fun e => nd.1 (e ▸ List.mem_map_of_mem hr'))]
            exact hy) hrest
          refine ⟨l1.trans l2 (fun i h => .inl (List.mem_cons_of_mem _ h)), ?_, ?_⟩
          · intro g hg hng
            simp only [List.mem_cons, not_or] at hng
            rw [o2 g (Nat.lt_of_lt_of_le hg l1.len) hng.2, t1.others g hg hng.1]
          · intro pre n args' f' post e hf'
            cases pre with
            | nil =>
              simp only [List.nil_append, List.cons.injEq, Ast.Decl.type.injEq] at e
              obtain ⟨⟨rfl, rfl, rfl⟩, rfl⟩ := e
              have to1 : (during env p (plainNames (.type name args f :: rest))
                  (r.id :: rows.map Row.id) s1.heap).To
                  (seenWithout env p (plainNames (.type name args f :: rest)) s'.heap) :=
                { env := rfl, p := rfl, opn := fun _ h => (by cases h), pend := fun _ h => h
                  open_pend := fun i _ hm _ _ => pe i hm
                  step := l2.weaken fun i h => List.mem_cons_of_mem _ h }
              refine ⟨r.id, hrow, by simp [seenWithout], y, ?_, ty.to to1, TypedIn.to to1 ?_ iy⟩
              · exact (o2 _ (heap_lt hy) nd.1).trans hy
              · intro g z hz hg
                exact ⟨z, (o2 g (heap_lt hz) (fun hm => hg (List.mem_cons_of_mem _ hm))).trans hz, rfl⟩
            | cons d' pre =>
              simp only [List.cons_append, List.cons.injEq] at e
              exact c2 pre n args' f' post e.2 hf'
    | const name ty v =>
      refine skip rfl (fun n a g e => by cases e) ?_
      rw [passBodies] at h
      · exact h
      all_goals simp
    | import_ items src =>
      refine skip rfl (fun n a g e => by cases e) ?_
      rw [passBodies] at h
      · exact h
      all_goals simp
    | ffi n k =>
      refine skip rfl (fun n a g e => by cases e) ?_
      rw [passBodies] at h
      · exact h
      all_goals simp

theorem scanM_length {p : Prog} {s s' : St} {u : Unit} (h : scanM p s = .ok (u, s')) :
    s'.heap.length = s.heap.length := by
  unfold scanM at h
  rw [rmap_ok] at h
  obtain ⟨h', e, h⟩ := h
  cases h
  exact (scanCycles_flagged e).1

theorem scanM_step {p : Prog} {s s' : St} {u : Unit} (h : scanM p s = .ok (u, s')) :
    Step [] s.heap s'.heap := by
  refine ⟨Nat.le_of_eq (scanM_length h).symm, fun i x hx => ?_⟩
  obtain ⟨y, hy, fl⟩ := scanM_flagged h i x hx
  unfold Sem.Flagged at fl
  exact ⟨y, hy, by rw [fl], by rw [fl], .inl ⟨by rw [fl], by rw [fl]⟩⟩

/-- C51. Whatever module is accepted, in the graph it becomes, in every type, in every field at any
depth: the condition of a field or transform is boolean, the length of a container an unsigned
number, that of an array or a padding a u64, a terminator a sequence of bytes, a value of an enum or
bitfield fits the underlying type, the calculated value of a field fits the type of the field,
arguments fit the parameters; the default value of a parameter fits the parameter, and the value of
a constant its type. "Fits" is judged by a graph that is the final one except that some types that
are not enums or bitfields, the type itself or a later one (for parameters: any), may have been taken
for `bool` without parameters: see `forward_reference_finding`. -/
theorem typed_as_asked_partial (env : Env) (mods : List (String × Prog)) (ast : Ast.Program)
    (p : Prog) (s s' : St) (h : (fromAstImported env mods ast).run s = .ok (p, s')) :
    (∀ pre n args f post, ast = pre ++ .type n args f :: post →
      ∃ k x, IMap.get p.types n = some k ∧ s'.heap[k]? = some x ∧
        TypedWhole (seenWithout env p (unknownIn n args f post) s'.heap) k ∧
        TypedParams (seenWithout env p (unknownInParams n f ast) s'.heap) x.arguments) ∧
    ∀ n t v, .const n t v ∈ ast → ∃ c, IMap.get p.consts n = some c ∧
      TypedConst (seenWithout env p [] s'.heap) c := by
  obtain ⟨p1, s1, p2, s2, p3, s3, ids, s4, scs, s5, s6, hf, hi, hc, hd, ha, hb, hs⟩ :=
    fromAstImported_ok h
  obtain ⟨-, c3⟩ := passConsts_typed hc (passDeclare_extends hd).1
  obtain ⟨gd, nd, bd, rd⟩ := passDeclare_elab hd
  simp only at nd bd rd c3
  have blank : ∀ id ∈ ids, ∃ x : AField, s4.heap[id]? = some x ∧ x.type = .bool ∧
      x.calculated = none := by
    intro id hm
    obtain ⟨k, hk, rfl⟩ := List.mem_iff_getElem.1 hm
    have hlen := rd.1
    exact ⟨_, (rd.2 k _ _ (List.getElem?_eq_getElem (hlen ▸ hk)) (List.getElem?_eq_getElem hk)).2,
      rfl, rfl⟩
  have pe : ∀ i ∈ ids, ∃ n ∈ plainNames ast, IMap.get p.types n = some i := by
    intro id hm
    obtain ⟨k, hk, rfl⟩ := List.mem_iff_getElem.1 hm
    have hk' : k < (plainDecls ast).length := by rw [rd.1]; exact hk
    refine ⟨(plainDecls ast)[k].name, ?_, (rd.2 k _ _ (List.getElem?_eq_getElem hk')
      (List.getElem?_eq_getElem hk)).1⟩
    rw [plainNames_eq]
    exact List.mem_map_of_mem (List.getElem_mem hk')
  obtain ⟨l5, o5, rows, hrows, hscs, t5⟩ := passArguments_typed (names := plainNames ast) pe ha nd
    (fun _ h => h) rd.1 (fun k hk => (bd k hk).2) blank
  rw [hscs, ← hrows] at hb
  rw [← hrows] at nd
  have rr : Rows (fun d r => IMap.get p.types d.name = some r.id) (plainDecls ast) rows := by
    refine ⟨by rw [rd.1, ← hrows]; simp, fun k d r hk hr => ?_⟩
    exact (rd.2 k d r.id hk (by rw [← hrows]; simp [hr])).1
  obtain ⟨l6, o6, b6⟩ := passBodies_typed hb nd (fun r hr => by
    obtain ⟨⟨x, hx, a, b, -⟩, -⟩ := t5 r hr
    exact ⟨x, hx, a, b⟩) rr
  obtain ⟨-, -, k6, -⟩ := passBodies_elab hb nd (fun r hr => by
    obtain ⟨⟨x, hx, -, b, -⟩, -⟩ := t5 r hr
    exact ⟨x, hx, b⟩) rr.1
  have fl := scanM_flagged hs
  have l7 := scanM_step hs
  rw [hrows] at l6 o6
  have old : ∀ i ∈ ids, s3.heap.length ≤ i := fun i h => (bd i h).1
  have l37 : Step [] s3.heap s'.heap :=
    ((Step.of_grow gd (o := [])).trans (l5.trans (l6.trans l7 (by simp)) (fun i h => .inl h))
      (fun i h => .inr (old i h)))
  have k37 : ∀ (f : FId) (x : AField), s3.heap[f]? = some x → ∃ y, s'.heap[f]? = some y ∧
      Sem.Flagged x y := by
    intro f x hx
    have n1 : f ∉ ids := fun hm => Nat.not_lt.2 (old f hm) (heap_lt hx)
    have h4 := (gd.2 f (heap_lt hx)).trans hx
    have h5 := (o5 f (heap_lt h4) n1).trans h4
    exact fl f x ((o6 f (heap_lt h5) n1).trans h5)
  have cf := c3.to l37 k37
  refine ⟨fun pre n args f post e => ?_, cf.consts⟩
  by_cases hr : isRepType f = true
  · obtain ⟨k, x, a, b, c, d⟩ := cf.types n args f (by rw [e]; simp) hr
    refine ⟨k, x, a, c, ?_, ?_⟩
    · rw [unknownIn, if_pos hr]; exact b
    · rw [unknownInParams, if_pos hr]; exact d
  · have hr' : isRepType f = false := by simpa using hr
    rw [unknownIn, if_neg hr, unknownInParams, if_neg hr]
    obtain ⟨k, a, b⟩ := b6 pre n args f post e hr'
    have hm : (⟨n, args, f⟩ : PlainDecl) ∈ plainDecls ast :=
      mem_plainDecls (by rw [e]; simp) hr'
    obtain ⟨j, hj, ej⟩ := List.mem_iff_getElem.1 hm
    have hj' : j < rows.length := rr.1 ▸ hj
    have ek := rr.2 j _ _ (List.getElem?_eq_getElem hj) (List.getElem?_eq_getElem hj')
    rw [ej] at ek
    simp only at ek
    rw [a] at ek
    cases ek
    have hmem : rows[j] ∈ rows := List.getElem_mem hj'
    obtain ⟨⟨x, hx, -, -, ax⟩, tp⟩ := t5 _ hmem
    obtain ⟨y, hy, -, -, ay⟩ := k6 _ hmem x hx
    obtain ⟨z, hz, hyz⟩ := fl _ _ hy
    refine ⟨rows[j].id, z, a, hz, b.to (seenWithout_to l7) (fun f x hx _ => fl f x hx), ?_⟩
    unfold Sem.Flagged at hyz
    rw [hyz]
    simp only [ay, ax]
    have to1 : (during env p (plainNames ast) ids s5.heap).To
        (seenWithout env p (plainNames ast) s6.heap) :=
      { env := rfl, p := rfl, opn := fun _ h => (by cases h), pend := fun _ h => h
        open_pend := fun i _ hm _ _ => pe i hm
        step := l6 }
    exact (tp.to to1 fun g w hw hg => ⟨w, (o6 g (heap_lt hw) hg).trans hw, rfl⟩).to
      (seenWithout_to l7) (fun f x hx _ => fl f x hx)

/-- In particular: the condition of any field at any depth of a type of an accepted module is a
boolean, or of a foreign type that says it may be used so. -/
theorem conditions_boolean_partial (env : Env) (mods : List (String × Prog)) (ast : Ast.Program)
    (p : Prog) (s s' : St) (h : (fromAstImported env mods ast).run s = .ok (p, s'))
    (pre : Ast.Program) (n : String) (args : List Ast.TypeArg) (f : Ast.Field) (post : Ast.Program)
    (he : ast = pre ++ .type n args f :: post) :
    ∃ k x, IMap.get p.types n = some k ∧ s'.heap[k]? = some x ∧
      ∀ i, (i = k ∨ Inside s'.heap x.type i) → ∃ y, s'.heap[i]? = some y ∧
        ∀ e, y.condition = some e → ∃ sc h0 t,
          Seen (seenWithout env p (unknownIn n args f post) s'.heap) sc h0 ∧
          getType h0 e = .ok (some t) ∧ (resolve h0 t = .ok .bool ∨
            ∃ g, resolve h0 t = .ok (.foreign g) ∧ env.ftToPartial g h0 (.type .bool) = .ok true) := by
  obtain ⟨k, x, a, b, ⟨-, x', b', c, d⟩, -⟩ := (typed_as_asked_partial env mods ast p s s' h).1 pre n args f
    post he
  have hx : x' = x := Option.some.inj (b'.symm.trans b)
  subst hx
  refine ⟨k, x', a, b, fun i hi => ?_⟩
  have key : ∃ y, s'.heap[i]? = some y ∧
      TypedField (seenWithout env p (unknownIn n args f post) s'.heap) y := by
    rcases hi with rfl | hi
    · exact ⟨x', b, c⟩
    · exact (d i hi).2
  obtain ⟨y, hy, ty⟩ := key
  refine ⟨y, hy, fun e he => ?_⟩
  obtain ⟨q, sc, h0, m, fi, -⟩ := ty.condition e he
  obtain ⟨t, ht, hr⟩ := fits_bool fi
  exact ⟨sc, h0, t, m.seen, ht, hr⟩

/-! ## Examples -/

/-- `const k: u8 = 3; type e = enum u8 { p = 1, q, other = default };
type a(n: u32 = 5) = container { l: u16, v: u8[l], t: u8 { l > 2 } , [k :> u64] };
type b = container { x: a(7) }`. -/
def typedProgram : Ast.Program :=
  [.const "k" (.scalar Scalar.u8.toE) (.int "3" none),
   .type "e" [] (.mk (.enum Scalar.u8.toE [.mk "p" (.expr (.int "1" none)), .mk "q" .none,
     .mk "other" .default]) [] none none []),
   .type "a" [⟨"n", .scalar Scalar.u32.toE, some (.int "5" none)⟩] (.mk (.container none []
     [.field "l" (.mk (.scalar Scalar.u16.toE) [] none none []),
      .field "v" (.mk (.array (.scalar Scalar.u8.toE) false (some (.ref "l"))) [] none none []),
      .field "t" (.mk (.scalar Scalar.u8.toE) [] none
        (some (.binary .gt (.ref "l") (.int "2" none))) []),
      .pad (.cast (.ref "k") (.scalar Scalar.u64.toE))]) [] none none []),
   .type "b" [] (.mk (.container none [] [.field "x" (.mk (.ref "a" [.int "7" none]) [] none none [])])
     [] none none [])]

/-- The hypothesis of `typed_as_asked_partial` is met. -/
example : ((fromAstImported (preludeEnv []) [] typedProgram).run ⟨[], 0⟩).toOption.isSome = true := by
  decide +kernel

/-- A boolean where a length is expected is an error, and so is a number as a condition. -/
example : errorOf [.type "a" [] (.mk (.array (.scalar Scalar.u8.toE) false (some (.bool true)))
    [] none none [])] ≠ none ∧
  errorOf [.type "a" [] (.mk (.scalar Scalar.u8.toE) [] none (some (.int "1" (some .u8))) [])] ≠ none := by
  decide +kernel

/-- `type a = container { x: b, y: u8 { x } }`. -/
def forwardUse : Ast.Decl := .type "a" [] (.mk (.container none []
  [.field "x" (.mk (.ref "b" []) [] none none []),
   .field "y" (.mk (.scalar Scalar.u8.toE) [] none (some (.ref "x")) [])]) [] none none [])

/-- `type b = u32`. -/
def forwardDef : Ast.Decl := .type "b" [] (.mk (.scalar Scalar.u32.toE) [] none none [])

/-- Finding: whether a program is accepted depends on the order of its types. A number is accepted
as a condition if the type that says that it is a number stands later. -/
theorem forward_reference_finding :
    errorOf [forwardUse, forwardDef] = none ∧ errorOf [forwardDef, forwardUse] ≠ none := by
  decide +kernel

/-- `type a(p: b) = u8`. -/
def forwardParam : Ast.Decl :=
  .type "a" [⟨"p", .ref "b" [], none⟩] (.mk (.scalar Scalar.u8.toE) [] none none [])

/-- `type b(n: u8) = u8`. -/
def forwardParamDef : Ast.Decl :=
  .type "b" [⟨"n", .scalar Scalar.u8.toE, none⟩] (.mk (.scalar Scalar.u8.toE) [] none none [])

/-- Finding: the same for the number of arguments in a parameter list. -/
theorem forward_parameter_finding :
    errorOf [forwardParam, forwardParamDef] = none ∧
    errorOf [forwardParamDef, forwardParam] ≠ none := by
  decide +kernel

end Verif.Props
