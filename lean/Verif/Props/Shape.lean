import Verif.Sem.Placed
import Verif.Props.Dups
/-!
# C50: definitions stand only where they may
-/
namespace Verif.Props
open Verif Sem

/-- Conversion got through the parts of a declaration, at some point. -/
def Converted (env : Env) : Ast.Decl → Prop
  | .type n args f =>
      (∃ p sc r id s s', convArguments env p sc args id s = .ok (r, s')) ∧
      ∃ p sc id s s' u, convBody env p sc n f id s = .ok (u, s')
  | .const n ty v => ∃ p p' s s', convConst env topScope n ty v p s = .ok (p', s')
  | .import_ _ _ | .ffi _ _ => True

theorem passConsts_converted {env : Env} : ∀ {ast : Ast.Program} {p p' : Prog} {s s' : St},
    passConsts env ast p s = .ok (p', s') →
      (∀ n args f, .type n args f ∈ ast → isRepType f = true → Converted env (.type n args f)) ∧
      (∀ n t v, .const n t v ∈ ast → Converted env (.const n t v)) := by
  intro ast
  induction ast with
  | nil => intro p p' s s' h; simp
  | cons d rest ih =>
    intro p p' s s' h
    cases d with
    | type name args f =>
      rw [passConsts] at h
      split at h
      · rename_i hr
        simp only [bind_run_ok] at h
        obtain ⟨⟨id, q⟩, s1, h1, sc, s2, h2, u, s3, h3, h4⟩ := h
        obtain ⟨e, g⟩ := ih h4
        refine ⟨?_, fun n t v hm => g n t v (by simpa using hm)⟩
        intro n as f' hm hr'
        rcases List.mem_cons.1 hm with hm | hm
        · cases hm
          exact ⟨⟨_, _, _, _, _, _, h2⟩, ⟨_, _, _, _, _, _, h3⟩⟩
        · exact e n as f' hm hr'
      · rename_i hr
        obtain ⟨e, g⟩ := ih h
        refine ⟨?_, fun n t v hm => g n t v (by simpa using hm)⟩
        intro n as f' hm hr'
        rcases List.mem_cons.1 hm with hm | hm
        · cases hm; exact absurd hr' hr
        · exact e n as f' hm hr'
    | const name ty v =>
      rw [passConsts] at h
      simp only [bind_run_ok] at h
      obtain ⟨q, s1, h1, h2⟩ := h
      obtain ⟨e, g⟩ := ih h2
      refine ⟨fun n as f hm => e n as f (by simpa using hm), ?_⟩
      intro n t v hm
      rcases List.mem_cons.1 hm with hm | hm
      · cases hm; exact ⟨_, _, _, _, h1⟩
      · exact g n t v hm
    | import_ items src =>
      obtain ⟨e, g⟩ := ih h
      exact ⟨fun n as f hm => e n as f (by simpa using hm), fun n t v hm => g n t v (by simpa using hm)⟩
    | ffi n k =>
      obtain ⟨e, g⟩ := ih h
      exact ⟨fun n as f hm => e n as f (by simpa using hm), fun n t v hm => g n t v (by simpa using hm)⟩

theorem passArguments_converted {env : Env} {p : Prog} :
    ∀ {ast : Ast.Program} {ids : List FId} {scs : List Scope} {s s' : St},
      passArguments env p ast ids s = .ok (scs, s') → ids.length = (plainNames ast).length →
      ∀ n args f, .type n args f ∈ ast → isRepType f = false →
        ∃ p sc r id s s', convArguments env p sc args id s = .ok (r, s') := by
  intro ast
  induction ast with
  | nil => intro ids scs s s' h hl n args f hm; cases hm
  | cons d rest ih =>
    intro ids scs s s' h hl
    cases d with
    | type name args f =>
      cases hr : isRepType f with
      | true =>
        simp only [plainNames, hr, if_true] at hl
        have h' : passArguments env p rest ids s = .ok (scs, s') := by
          cases ids with
          | nil => rw [passArguments] at h; exact h; all_goals simp
          | cons id ids => rw [passArguments, if_pos hr] at h; exact h
        intro n as f' hm hf'
        rcases List.mem_cons.1 hm with hm | hm
        · cases hm; rw [hr] at hf'; cases hf'
        · exact ih h' hl n as f' hm hf'
      | false =>
        cases ids with
        | nil => simp [plainNames, hr] at hl
        | cons id ids =>
          rw [passArguments, hr] at h
          simp only [Bool.false_eq_true, if_false, bind_run_ok, pure_run_ok] at h
          obtain ⟨sc, s1, h1, scs', s2, h2, rfl, rfl⟩ := h
          simp only [plainNames, hr, Bool.false_eq_true, if_false, List.length_cons,
            Nat.add_right_cancel_iff] at hl
          intro n as f' hm hf'
          rcases List.mem_cons.1 hm with hm | hm
          · cases hm; exact ⟨_, _, _, _, _, _, h1⟩
          · exact ih h2 hl n as f' hm hf'
    | const name ty v =>
      rw [passArguments] at h
      · exact fun n as f hm => ih h hl n as f (by simpa using hm)
      all_goals simp
    | import_ items src =>
      rw [passArguments] at h
      · exact fun n as f hm => ih h hl n as f (by simpa using hm)
      all_goals simp
    | ffi n k =>
      rw [passArguments] at h
      · exact fun n as f hm => ih h hl n as f (by simpa using hm)
      all_goals simp

theorem passBodies_converted {env : Env} {p : Prog} :
    ∀ {ast : Ast.Program} {ids : List FId} {scs : List Scope} {s s' : St} {u : Unit},
      passBodies env p ast ids scs s = .ok (u, s') → ids.length = (plainNames ast).length →
      scs.length = ids.length → ∀ n args f, .type n args f ∈ ast → isRepType f = false →
        ∃ p sc id s s' u, convBody env p sc n f id s = .ok (u, s') := by
  intro ast
  induction ast with
  | nil => intro ids scs s s' u h hl hs n args f hm; cases hm
  | cons d rest ih =>
    intro ids scs s s' u h hl hs
    cases d with
    | type name args f =>
      cases hr : isRepType f with
      | true =>
        simp only [plainNames, hr, if_true] at hl
        have h' : passBodies env p rest ids scs s = .ok (u, s') := by
          cases ids with
          | nil => rw [passBodies] at h; exact h; all_goals simp
          | cons id ids =>
            cases scs with
            | nil => cases hs
            | cons sc scs => rw [passBodies, if_pos hr] at h; exact h
        intro n as f' hm hf'
        rcases List.mem_cons.1 hm with hm | hm
        · cases hm; rw [hr] at hf'; cases hf'
        · exact ih h' hl hs n as f' hm hf'
      | false =>
        cases ids with
        | nil => simp [plainNames, hr] at hl
        | cons id ids =>
          cases scs with
          | nil => cases hs
          | cons sc scs =>
            rw [passBodies, hr] at h
            simp only [Bool.false_eq_true, if_false, bind_run_ok] at h
            obtain ⟨u', s1, h1, h2⟩ := h
            simp only [plainNames, hr, Bool.false_eq_true, if_false, List.length_cons,
              Nat.add_right_cancel_iff] at hl
            intro n as f' hm hf'
            rcases List.mem_cons.1 hm with hm | hm
            · cases hm; exact ⟨_, _, _, _, _, _, h1⟩
            · exact ih h2 hl (by simpa using hs) n as f' hm hf'
    | const name ty v =>
      rw [passBodies] at h
      · exact fun n as f hm => ih h hl hs n as f (by simpa using hm)
      all_goals simp
    | import_ items src =>
      rw [passBodies] at h
      · exact fun n as f hm => ih h hl hs n as f (by simpa using hm)
      all_goals simp
    | ffi n k =>
      rw [passBodies] at h
      · exact fun n as f hm => ih h hl hs n as f (by simpa using hm)
      all_goals simp

/-- A module that converts has all its declarations converted. -/
theorem all_converted {env : Env} {mods : List (String × Prog)} {ast : Ast.Program}
    {p : Prog} {s s' : St} (h : fromAstImported env mods ast s = .ok (p, s')) :
    ∀ d ∈ ast, Converted env d := by
  obtain ⟨p1, s1, p2, s2, p3, s3, ids, s4, scs, s5, s6, hf, hi, hc, hd, ha, hb, -⟩ :=
    fromAstImported_ok h
  obtain ⟨c1, c2⟩ := passConsts_converted hc
  obtain ⟨-, d2, -⟩ := passDeclare_keys hd
  have a1 := passArguments_converted ha d2
  have b1 := passBodies_converted hb d2 (passArguments_distinct ha d2).1
  intro d hm
  cases d with
  | type n args f =>
    cases hr : isRepType f with
    | true => exact c1 n args f hm hr
    | false => exact ⟨a1 n args f hm hr, b1 n args f hm hr⟩
  | const n t v => exact c2 n t v hm
  | import_ _ _ => trivial
  | ffi _ _ => trivial

theorem convTypeArgs_placed {env : Env} {p : Prog} {outer : Scope} :
    ∀ {args : List Ast.TypeArg} {inputs : List (String × AType)} {done : List AArg} {s s' : St}
      {r}, convTypeArgs env p outer args inputs done s = .ok (r, s') →
      ∀ a ∈ args, PlacedTy .inside a.type ∧ PlacedOpt a.default
  | [], _, _, _, _, _, _ => by simp
  | a :: rest, inputs, done, s, s', r, h => by
    rw [convTypeArgs] at h
    simp only [bind_run_ok] at h
    obtain ⟨t, s1, h1, _, _, _, _, _, h3, h4⟩ := h
    intro b hb
    rcases List.mem_cons.1 hb with rfl | hb
    · exact ⟨convTy_placed env p _ _ .expression _ _ _ h1, convOpt_placed env p _ _ _ _ _ _ h3⟩
    · exact convTypeArgs_placed h4 b hb

theorem converted_placed {env : Env} {d : Ast.Decl} (h : Converted env d) : PlacedDecl d := by
  cases d with
  | type n args f =>
    obtain ⟨⟨p, sc, r, id, s, s', ha⟩, ⟨p', sc', id', s1, s1', u, hb⟩⟩ := h
    constructor
    · unfold convArguments at ha
      simp only [bind_run_ok] at ha
      obtain ⟨⟨i, a⟩, s1, h1, _⟩ := ha
      exact convTypeArgs_placed h1
    · unfold convBody at hb
      simp only [bind_run_ok] at hb
      obtain ⟨b, s1, h1, h2⟩ := hb
      exact convMid_placed env p' f _ (.typeDefinition n) _ _ _ _ h1 (convEnd_placed env p' f _ _ _ h2)
  | const n t v =>
    obtain ⟨p, p', s, s', h⟩ := h
    obtain ⟨-, t', s1, P, e, ht, hc, -, hv, -⟩ := convConst_ok h
    refine ⟨?_, convE_placed env p _ _ _ _ _ _ hv⟩
    have hi : inlinable t = true := by
      cases t with
      | container len fl items =>
        rw [convTy] at ht
        simp only [bind_run_ok, pure_run_ok] at ht
        obtain ⟨_, _, _, _, _, _, _, _, _, _, _, _, _, _, _, _, _, _, _, _, _, rfl, _⟩ := ht
        cases hc
      | enum rep items =>
        rw [convTy] at ht
        simp only [bind_run_ok, pure_run_ok] at ht
        obtain ⟨_, _, h, _⟩ := ht
        cases h
      | bitfield rep items =>
        rw [convTy] at ht
        simp only [bind_run_ok, pure_run_ok] at ht
        obtain ⟨_, _, h, _⟩ := ht
        cases h
      | _ => rfl
    exact placed_inlinable hi (convTy_placed env p _ _ _ _ _ _ ht)
  | import_ _ _ => trivial
  | ffi _ _ => trivial

/-- C50. Whatever module is accepted, in it enums and bitfields are written only as the whole
right-hand side of a type declaration, containers only there and as the types of fields and type
arguments, `tagged_enum` only on the right-hand side of a declaration; no field has flags; a tagged
enum has no paddings and nothing after an alternative without a condition; an enum has nothing
after its default variant. -/
theorem misplaced_rejected (env : Env) (mods : List (String × Prog)) (ast : Ast.Program)
    (p : Prog) (s s' : St) (h : (fromAstImported env mods ast).run s = .ok (p, s')) :
    ∀ d ∈ ast, PlacedDecl d := fun d hd => converted_placed (all_converted h d hd)

/-! ## Nothing else is rejected on that account -/

open Sem.Mis

theorem np_found {α} {x : R (Option α)} {e : AsgError} (hx : Mis.NRr x) (he : ¬ Misplacement e) :
    Mis.NRr (found x e) := by
  unfold found
  refine Mis.nrr_bind hx fun o => ?_
  cases o
  · exact Mis.nrr_asg he
  · exact Mis.nrr_ok

theorem passFfi_np {env : Env} (he : Mis.EnvNR env) : ∀ {ast : Ast.Program} {p : Prog},
    Mis.NR (passFfi env ast p)
  | [], p => Mis.nr_pure _
  | .ffi n k :: rest, p => by
    rw [passFfi]
    refine Mis.nr_bind ?_ fun _ => passFfi_np he
    cases k with
    | type =>
      exact Mis.nr_bind (Mis.nr_liftR (np_found (he.ffiType n) (by simp [Misplacement]))) fun _ =>
        Mis.nr_bind (Mis.nr_check (by simp [Misplacement])) fun _ =>
        Mis.nr_bind Mis.nr_alloc fun _ => Mis.nr_pure _
    | transform =>
      exact Mis.nr_bind (Mis.nr_liftR (np_found (he.ffiTransform n) (by simp [Misplacement])))
        fun _ => Mis.nr_bind (Mis.nr_check (by simp [Misplacement])) fun _ => Mis.nr_pure _
    | function =>
      exact Mis.nr_bind (Mis.nr_liftR (np_found (he.ffiFunction n) (by simp [Misplacement])))
        fun _ => Mis.nr_bind (Mis.nr_check (by simp [Misplacement])) fun _ => Mis.nr_pure _
  | .type .. :: rest, p => by rw [passFfi]; exact passFfi_np he; all_goals simp
  | .const .. :: rest, p => by rw [passFfi]; exact passFfi_np he; all_goals simp
  | .import_ .. :: rest, p => by rw [passFfi]; exact passFfi_np he; all_goals simp

theorem bindItems_np {mn : String} {m : Prog} : ∀ {items : List Ast.ImportItem} {p : Prog},
    Mis.NRr (bindItems mn m items p) := by
  intro items
  induction items with
  | nil => intro p; exact Mis.nrr_ok
  | cons i rest ih =>
    intro p
    rcases bindItems_cons (mn := mn) (m := m) (i := i) (rest := rest) (p := p) with
      ⟨x, hx, he⟩ | ⟨hx, he⟩
    · rw [he]; exact ih
    · rw [he]; exact Mis.nrr_asg (by simp [Misplacement])

theorem passImports_np {env : Env} (he : Mis.EnvNR env) {mods : List (String × Prog)} :
    ∀ {ast : Ast.Program} {p : Prog}, Mis.NR (passImports env mods ast p) := by
  intro ast
  induction ast with
  | nil => intro p; exact Mis.nr_pure _
  | cons d rest ih =>
    intro p
    cases d with
    | import_ items src =>
      rw [passImports]
      refine Mis.nr_bind ?_ fun _ => ih
      exact Mis.nr_bind (Mis.nr_liftR (he.normalize src)) fun _ =>
        Mis.nr_bind (Mis.nr_lookup (by simp [Misplacement])) fun _ => Mis.nr_liftR bindItems_np
    | type _ _ _ => exact ih
    | const _ _ _ => exact ih
    | ffi _ _ => exact ih

theorem declareType_np {n : String} {p : Prog} : Mis.NR (declareType n p) :=
  Mis.nr_bind (Mis.nr_check (by simp [Misplacement])) fun _ => Mis.nr_bind Mis.nr_alloc fun _ =>
    Mis.nr_pure _

theorem convArguments_np {env : Env} (he : Mis.EnvNR env) {p : Prog} {sc : Scope}
    {args : List Ast.TypeArg} {id : FId}
    (h : ∀ a ∈ args, PlacedTy .inside a.type ∧ PlacedOpt a.default) :
    Mis.NR (convArguments env p sc args id) :=
  Mis.nr_bind (convTypeArgs_np he p sc args [] [] h) fun _ => Mis.nr_bind Mis.nr_update fun _ =>
    Mis.nr_pure _

theorem convBody_np {env : Env} (he : Mis.EnvNR env) {p : Prog} {sc : Scope} {n : String}
    {f : Ast.Field} {id : FId} (h : PlacedField .body f) :
    Mis.NR (convBody env p sc n f id) :=
  Mis.nr_bind (convMid_np he p f sc _ id .body trivial h) fun _ => convEnd_np he p f sc id .body h

theorem convTy_constable {env : Env} {p : Prog} {sc : Scope} {ty : Ast.Ty} {pu : Purpose} {s s' : St}
    {t : AType} (hi : inlinable ty = true) (h : convTy env p sc ty pu s = .ok (t, s')) :
    constable t = true := by
  cases ty with
  | container len fl items => cases hi
  | enum rep items => cases hi
  | bitfield rep items => cases hi
  | array el x len =>
    rw [convTy] at h
    simp only [bind_run_ok, pure_run_ok] at h
    obtain ⟨_, _, _, _, _, _, _, _, _, rfl, _⟩ := h
    rfl
  | ref n args =>
    rw [convTy] at h
    simp only [bind_run_ok, pure_run_ok] at h
    obtain ⟨_, _, _, _, _, _, _, _, _, _, _, _, rfl, _⟩ := h
    rfl
  | _ =>
    rw [convTy, pure_run_ok] at h
    rw [← h.1]; rfl

theorem convConst_np {env : Env} (he : Mis.EnvNR env) {p : Prog} {sc : Scope} {n : String}
    {t : Ast.Ty} {v : Ast.Expression} (h1 : PlacedTy .mention t) (h2 : PlacedE v) :
    Mis.NR (convConst env sc n t v p) :=
  Mis.nr_bind (Mis.nr_check (by simp [Misplacement])) fun _ =>
    Mis.nr_bind' (convTy_np he p t sc .constDefinition .mention trivial h1) fun _ _ _ hc =>
    Mis.nr_bind (Mis.nr_check_true (convTy_constable (mention_inlinable h1) hc)) fun _ =>
    Mis.nr_bind (Mis.nr_withHeap fun _ => Mis.nrr_toPartial) fun _ =>
    Mis.nr_bind (convE_np he p v sc _ h2) fun _ => Mis.nr_pure _

theorem passConsts_np {env : Env} (he : Mis.EnvNR env) : ∀ {ast : Ast.Program} {p : Prog},
    (∀ d ∈ ast, PlacedDecl d) → Mis.NR (passConsts env ast p) := by
  intro ast
  induction ast with
  | nil => intro p _; exact Mis.nr_pure _
  | cons d rest ih =>
    intro p hc
    have hr := fun d hd => hc d (List.mem_cons_of_mem _ hd)
    have h0 := hc _ List.mem_cons_self
    cases d with
    | type n args f =>
      rw [passConsts]
      split
      · exact Mis.nr_bind declareType_np fun q => Mis.nr_bind (convArguments_np he h0.1) fun sc =>
          Mis.nr_bind (convBody_np he h0.2) fun _ => ih hr
      · exact ih hr
    | const n t v =>
      rw [passConsts]
      exact Mis.nr_bind (convConst_np he h0.1 h0.2) fun _ => ih hr
    | import_ _ _ => exact ih hr
    | ffi _ _ => exact ih hr

theorem passDeclare_np : ∀ {ast : Ast.Program} {p : Prog}, Mis.NR (passDeclare ast p) := by
  intro ast
  induction ast with
  | nil => intro p; exact Mis.nr_pure _
  | cons d rest ih =>
    intro p
    cases d with
    | type n args f =>
      rw [passDeclare]
      split
      · exact ih
      · exact Mis.nr_bind declareType_np fun _ => Mis.nr_bind ih fun _ => Mis.nr_pure _
    | const _ _ _ => exact ih
    | import_ _ _ => exact ih
    | ffi _ _ => exact ih

theorem passArguments_np {env : Env} (he : Mis.EnvNR env) {p : Prog} :
    ∀ {ast : Ast.Program} {ids : List FId}, (∀ d ∈ ast, PlacedDecl d) →
    Mis.NR (passArguments env p ast ids) := by
  intro ast
  induction ast with
  | nil => intro ids _; rw [passArguments]; exact Mis.nr_pure _
  | cons d rest ih =>
    intro ids hc
    have hr := fun d hd => hc d (List.mem_cons_of_mem _ hd)
    have h0 := hc _ List.mem_cons_self
    cases d with
    | type n args f =>
      cases ids with
      | nil => rw [passArguments]; exact ih hr; all_goals simp
      | cons id ids =>
        rw [passArguments]
        split
        · exact ih hr
        · exact Mis.nr_bind (convArguments_np he h0.1) fun _ => Mis.nr_bind (ih hr) fun _ =>
            Mis.nr_pure _
    | const _ _ _ => rw [passArguments]; exact ih hr; all_goals simp
    | import_ _ _ => rw [passArguments]; exact ih hr; all_goals simp
    | ffi _ _ => rw [passArguments]; exact ih hr; all_goals simp

theorem passBodies_np {env : Env} (he : Mis.EnvNR env) {p : Prog} :
    ∀ {ast : Ast.Program} {ids : List FId} {scs : List Scope}, (∀ d ∈ ast, PlacedDecl d) →
    Mis.NR (passBodies env p ast ids scs) := by
  intro ast
  induction ast with
  | nil => intro ids scs _; rw [passBodies]; exact Mis.nr_pure _
  | cons d rest ih =>
    intro ids scs hc
    have hr := fun d hd => hc d (List.mem_cons_of_mem _ hd)
    have h0 := hc _ List.mem_cons_self
    cases d with
    | type n args f =>
      cases ids with
      | nil => rw [passBodies]; exact ih hr; all_goals simp
      | cons id ids =>
        cases scs with
        | nil => rw [passBodies]; exact ih hr; all_goals simp
        | cons sc scs =>
          rw [passBodies]
          split
          · exact ih hr
          · exact Mis.nr_bind (convBody_np he h0.2) fun _ => ih hr
    | const _ _ _ => rw [passBodies]; exact ih hr; all_goals simp
    | import_ _ _ => rw [passBodies]; exact ih hr; all_goals simp
    | ffi _ _ => rw [passBodies]; exact ih hr; all_goals simp

theorem npr_visit {h : Heap} {g : AField → List String → R (List String)}
    (hg : ∀ x l, Mis.NRr (g x l)) {f : FId} {l : List String} : Mis.NRr (visit h g f l) := by
  refine Mis.nrr_bind Mis.nrr_deref fun x => ?_
  split
  · exact Mis.nrr_ok
  · exact hg _ _

theorem npr_visitAll {h : Heap} {g : AField → List String → R (List String)}
    (hg : ∀ x l, Mis.NRr (g x l)) : ∀ {fs : List (String × FId)} {l : List String},
    Mis.NRr (visitAll h g fs l)
  | [], _ => Mis.nrr_ok
  | (_, _) :: _, _ => Mis.nrr_bind (npr_visit hg) fun _ => npr_visitAll hg

theorem npr_containedWith {h : Heap} {g : AField → List String → R (List String)}
    (hg : ∀ x l, Mis.NRr (g x l)) : ∀ (t : AType) {l : List String}, Mis.NRr (containedWith h g t l)
  | .array _ el _ _, _ => by rw [containedWith]; exact npr_containedWith hg el
  | .container .., _ => by rw [containedWith]; exact npr_visitAll hg
  | .ref .., _ => by rw [containedWith]; exact npr_visit hg
  | .enum .., _ => Mis.nrr_ok
  | .bitfield .., _ => Mis.nrr_ok
  | .scalar _, _ => Mis.nrr_ok
  | .foreign _, _ => Mis.nrr_ok
  | .f32, _ => Mis.nrr_ok
  | .f64, _ => Mis.nrr_ok
  | .bool, _ => Mis.nrr_ok

theorem npr_containedN {h : Heap} : ∀ (n : Nat) (t : AType) (l : List String),
    Mis.NRr (containedN h n t l)
  | 0, t, _ => npr_containedWith (fun _ _ => Mis.nrr_diverge) t
  | n + 1, t, _ => npr_containedWith (fun x l => npr_containedN n x.type l) t

theorem npr_scanCycles : ∀ {ts : List (String × FId)} {h : Heap}, Mis.NRr (scanCycles ts h)
  | [], _ => Mis.nrr_ok
  | (_, _) :: _, _ => by
    rw [scanCycles]
    refine Mis.nrr_bind ?_ fun _ => npr_scanCycles
    refine Mis.nrr_bind Mis.nrr_deref fun x => Mis.nrr_bind (npr_containedN _ _ _) fun _ => ?_
    split <;> exact Mis.nrr_ok

theorem np_scanM {p : Prog} : Mis.NR (scanM p) := by
  intro s e h
  unfold scanM at h
  cases hr : scanCycles p.types s.heap with
  | error x => rw [hr] at h; cases h; exact npr_scanCycles e hr
  | ok x => rw [hr] at h; cases h

/-- C50. Conversely a module in which everything stands where it may is never rejected with one of
the errors that say otherwise (provided the import resolver and the foreign objects do not answer
with such an error themselves). -/
theorem placed_not_rejected (env : Env) (he : Mis.EnvNR env) (mods : List (String × Prog))
    (ast : Ast.Program) (hp : ∀ d ∈ ast, PlacedDecl d) (s : St) (e : AsgError)
    (h : (fromAstImported env mods ast).run s = .error (.asg e)) : ¬ Misplacement e := by
  have key : Mis.NR (fromAstImported env mods ast) := by
    unfold fromAstImported
    exact Mis.nr_bind (passFfi_np he) fun _ => Mis.nr_bind (passImports_np he) fun _ =>
      Mis.nr_bind (passConsts_np he hp) fun _ => Mis.nr_bind passDeclare_np fun _ =>
      Mis.nr_bind (passArguments_np he hp) fun _ => Mis.nr_bind (passBodies_np he hp) fun _ =>
      Mis.nr_bind np_scanM fun _ => Mis.nr_pure _
  exact key s e h

theorem npr_scalarFrom {k : Scalar} {h : Heap} {t : AType} : Mis.NRr (scalarFrom k h t) := by
  refine Mis.nrr_bind Mis.nrr_resolve fun x => ?_
  split <;> exact Mis.nrr_ok

theorem npr_preludeFrom {n : String} {h : Heap} {t : AType} : Mis.NRr (preludeFrom n h t) := by
  unfold preludeFrom
  split <;> first | exact npr_scalarFrom | exact Mis.nrr_ok

theorem npr_preludeTo {n : String} {h : Heap} {t : AType} : Mis.NRr (preludeTo n h t) := by
  unfold preludeTo
  split <;> first | exact npr_preludeFrom | exact Mis.nrr_ok

/-- The builtin resolver answers with no such error. -/
theorem preludeEnv_np (modules : List (String × Ast.Program)) : Mis.EnvNR (preludeEnv modules) where
  same _ _ _ := Mis.nrr_ok
  ftFrom n h t := npr_preludeFrom
  ftTo n h t := npr_preludeTo
  ftToPartial n h P := by
    show Mis.NRr (preludeToPartial n h P)
    unfold preludeToPartial
    split <;> first
      | exact Mis.nrr_ok
      | exact npr_preludeTo
      | (split <;> first | exact Mis.nrr_ok | exact npr_preludeTo | exact npr_preludeFrom)
  normalize _ := Mis.nrr_ok
  load _ := Mis.nrr_ok
  ffiType _ := Mis.nrr_ok
  ffiTransform _ := Mis.nrr_ok
  ffiFunction _ := Mis.nrr_ok

/-- C50, for programs with imports. -/
theorem program_misplaced_rejected (env : Env) (n : Nat) (ast : Ast.Program)
    (r : Prog × Heap × List String) (h : convert env n ast = .ok r) : ∀ d ∈ ast, PlacedDecl d := by
  unfold convert at h
  rw [rmap_ok] at h
  obtain ⟨⟨⟨p, l⟩, s⟩, h, -⟩ := h
  unfold fromAst at h
  have h := bind_run_ok.1 h
  obtain ⟨c, s1, -, h⟩ := h
  obtain ⟨p', s2, h, -⟩ := bind_run_ok.1 h
  exact misplaced_rejected env c.mods ast p' s1 s2 h

/-- A declaration of a container with the given flags. -/
def containerDecl (flags : List String) (items : List Ast.Item) : Ast.Program :=
  [.type "a" [] (.mk (.container none flags items) [] none none [])]

/-- An enum as a field, a container in an array, in a cast and as a constant, a tagged enum inside
a container, a padding in a tagged enum, an alternative after an unconditional one, unknown flags. -/
example :
    errorOf (containerDecl [] [.field "x" (.mk (.enum Scalar.u8.toE [.mk "p" (.expr (.int "1" none))])
      [] none none [])]) = some (.asg .mustBeToplevel) ∧
    errorOf (containerDecl [] [.field "x" (.mk (.array (.container none [] []) false
      (some (.int "2" none))) [] none none [])]) = some (.asg .inlineRepetition) ∧
    errorOf [.const "k" (.container none [] []) (.bool true)] =
      some (.asg (.constTypeDefinition "k")) ∧
    errorOf (containerDecl [] [.pad (.cast (.int "1" none) (.container none [] []))]) =
      some (.asg .castTypeDefinition) ∧
    errorOf (containerDecl [] [.field "x" (.mk (.container none ["tagged_enum"] []) [] none none [])]) =
      some (.asg .mustBeToplevel) ∧
    errorOf (containerDecl ["tagged_enum"] [.pad (.int "1" none)]) =
      some (.asg .enumContainerPad) ∧
    errorOf (containerDecl ["tagged_enum"] [.field "x" (.mk .bool [] none none []),
      .field "y" (.mk .bool [] none none [])]) =
      some (.asg .enumContainerFieldAfterUnconditional) ∧
    errorOf (containerDecl ["packed"] []) = some (.asg (.invalidFlag "packed")) ∧
    errorOf (containerDecl [] [.field "x" (.mk .bool ["auto"] none none [])]) =
      some (.asg (.invalidFlag "auto")) := by
  decide +kernel

/-- Definitions in all the places they may stand in. -/
def placedProgram : Ast.Program :=
  [.type "e" [] (.mk (.enum Scalar.u8.toE [.mk "p" (.expr (.int "1" none)), .mk "q" .none,
     .mk "other" .default]) [] none none []),
   .type "t" [⟨"n", .container none [] [], none⟩] (.mk (.container none ["tagged_enum"]
     [.field "x" (.mk .bool [] none (some (.bool true)) []), .field "y" (.mk (.container none []
       [.pad (.cast (.int "1" (some .u8)) (.scalar Scalar.u64.toE))]) [] none none [])])
     [] none none [])]

example : (∀ d ∈ placedProgram, PlacedDecl d) ∧ errorOf placedProgram = none := by
  refine ⟨?_, by decide +kernel⟩
  intro d hd
  simp only [placedProgram, List.mem_cons, List.not_mem_nil, or_false] at hd
  rcases hd with rfl | rfl <;>
    simp [PlacedDecl, PlacedField, PlacedTy, PlacedOpt, PlacedE, PlacedItems, PlacedVariants,
      PlacedXforms, DefaultLast, ArmItems, conditional, Place.takesContainer]

end Verif.Props
