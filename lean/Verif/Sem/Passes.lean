import Verif.Sem.IMap
import Verif.Sem.Program
import Verif.Sem.Lemmas
/-!
# What the passes over the declarations of a module add to it
-/
namespace Verif.Sem
open Verif

theorem alloc_ok {f : AField} {s s' : St} {id : FId} :
    alloc f s = .ok (id, s') ↔ id = s.heap.length ∧ s' = { s with heap := s.heap ++ [f] } := by
  unfold alloc
  simp [eq_comm]

theorem update_ok {id : FId} {g : AField → AField} {s s' : St} {u : Unit} :
    update id g s = .ok (u, s') ↔ s' = { s with heap := s.heap.modify id g } := by
  unfold update
  simp [eq_comm]

theorem found_ok {α} {x : R (Option α)} {e : AsgError} {a : α} :
    found x e = .ok a ↔ x = .ok (some a) := by
  unfold found
  rw [rbind_ok]
  constructor
  · rintro ⟨o, rfl, h⟩
    cases o with
    | none => cases h
    | some b => cases h; rfl
  · rintro rfl; exact ⟨_, rfl, rfl⟩

/-- Every name bound in `p` is bound to the same thing in `q`. -/
structure Extends (p q : Prog) : Prop where
  types : ∀ n v, IMap.get p.types n = some v → IMap.get q.types n = some v
  consts : ∀ n v, IMap.get p.consts n = some v → IMap.get q.consts n = some v
  transforms : ∀ n v, IMap.get p.transforms n = some v → IMap.get q.transforms n = some v
  functions : ∀ n v, IMap.get p.functions n = some v → IMap.get q.functions n = some v

theorem Extends.refl (p : Prog) : Extends p p := ⟨fun _ _ h => h, fun _ _ h => h, fun _ _ h => h, fun _ _ h => h⟩
theorem Extends.trans {p q r : Prog} (a : Extends p q) (b : Extends q r) : Extends p r :=
  ⟨fun _ _ h => b.types _ _ (a.types _ _ h), fun _ _ h => b.consts _ _ (a.consts _ _ h),
   fun _ _ h => b.transforms _ _ (a.transforms _ _ h),
   fun _ _ h => b.functions _ _ (a.functions _ _ h)⟩

theorem get_append_some {α} {m : List (String × α)} {k n : String} {v w : α}
    (h : IMap.get m n = some v) : IMap.get (m ++ [(k, w)]) n = some v := by
  induction m with
  | nil => cases h
  | cons x m ih =>
    obtain ⟨a, b⟩ := x
    simp only [IMap.get, List.cons_append] at h ⊢
    split
    · rename_i e; rw [if_pos e] at h; exact h
    · rename_i e; rw [if_neg e] at h; exact ih h

theorem declareType_ok {name : String} {p : Prog} {s s' : St} {r : FId × Prog} :
    declareType name p s = .ok (r, s') ↔ IMap.get p.types name = none ∧ r.1 = s.heap.length ∧
      r.2 = { p with types := p.types ++ [(name, s.heap.length)] } ∧
      s' = { s with heap := s.heap ++ [blankField name true] } := by
  unfold declareType
  simp only [bind_run_ok, check_ok, alloc_ok, pure_run_ok, Option.isNone_iff_eq_none]
  constructor
  · rintro ⟨u, s1, ⟨h, rfl⟩, id, s2, ⟨rfl, rfl⟩, rfl, rfl⟩
    exact ⟨h, rfl, by simp [IMap.insert_new h], rfl⟩
  · rintro ⟨h, h1, h2, rfl⟩
    refine ⟨(), s, ⟨h, rfl⟩, _, _, ⟨rfl, rfl⟩, ?_, rfl⟩
    obtain ⟨a, b⟩ := r
    simp only at h1 h2
    rw [h1, h2, IMap.insert_new h]

theorem convConst_ok {env : Env} {sc : Scope} {name : String} {ty : Ast.Ty} {v : Ast.Expression}
    {p p' : Prog} {s s' : St} (h : convConst env sc name ty v p s = .ok (p', s')) :
    IMap.get p.consts name = none ∧ ∃ t s1 P e,
      convTy env p sc ty .constDefinition s = .ok (t, s1) ∧ constable t = true ∧
      toPartial s1.heap t = .ok P ∧ convE env p sc v P s1 = .ok (e, s') ∧
      p' = { p with consts := p.consts ++ [(name, .mk name t e)] } := by
  unfold convConst at h
  simp only [bind_run_ok, check_ok, withHeap_ok, pure_run_ok, Option.isNone_iff_eq_none] at h
  obtain ⟨u, s1, ⟨h0, rfl⟩, t, s2, h1, u', s3, ⟨h2, rfl⟩, P, s4, ⟨h3, rfl⟩, e, s5, h4, rfl, rfl⟩ := h
  exact ⟨h0, t, s2, P, e, h1, h2, h3, h4, by rw [IMap.insert_new h0]⟩

/-- What a foreign import adds. -/
theorem convFfi_ok {env : Env} {name : String} {k : Ast.FfiKind} {p p' : Prog} {s s' : St}
    (h : convFfi env name k p s = .ok (p', s')) :
    match k with
    | .type => ∃ arguments, env.ffiType name = .ok (some arguments) ∧
        IMap.get p.types name = none ∧
        p' = { p with types := p.types ++ [(name, s.heap.length)] } ∧
        s' = { s with heap := s.heap ++
          [{ blankField name true with arguments, type := .foreign name }] }
    | .transform => ∃ params, env.ffiTransform name = .ok (some params) ∧
        IMap.get p.transforms name = none ∧
        p' = { p with transforms := p.transforms ++ [(name, params)] } ∧ s' = s
    | .function => ∃ sig, env.ffiFunction name = .ok (some sig) ∧
        IMap.get p.functions name = none ∧
        p' = { p with functions := p.functions ++ [(name, sig)] } ∧ s' = s := by
  cases k <;> unfold convFfi at h <;>
    simp only [bind_run_ok, check_ok, liftR_ok, found_ok, alloc_ok, pure_run_ok,
      Option.isNone_iff_eq_none] at h
  · obtain ⟨x, s1, ⟨h1, rfl⟩, u, s2, ⟨h2, rfl⟩, rfl, rfl⟩ := h
    exact ⟨x, h1, h2, by rw [IMap.insert_new h2], rfl⟩
  · obtain ⟨x, s1, ⟨h1, rfl⟩, u, s2, ⟨h2, rfl⟩, id, s3, ⟨rfl, rfl⟩, rfl, rfl⟩ := h
    exact ⟨x, h1, h2, by rw [IMap.insert_new h2], rfl⟩
  · obtain ⟨x, s1, ⟨h1, rfl⟩, u, s2, ⟨h2, rfl⟩, rfl, rfl⟩ := h
    exact ⟨x, h1, h2, by rw [IMap.insert_new h2], rfl⟩

theorem extends_types {p : Prog} {n : String} {f : FId} :
    Extends p { p with types := p.types ++ [(n, f)] } :=
  ⟨fun _ _ h => get_append_some h, fun _ _ h => h, fun _ _ h => h, fun _ _ h => h⟩

theorem extends_consts {p : Prog} {n : String} {c : AConst} :
    Extends p { p with consts := p.consts ++ [(n, c)] } :=
  ⟨fun _ _ h => h, fun _ _ h => get_append_some h, fun _ _ h => h, fun _ _ h => h⟩

theorem passConsts_extends {env : Env} : ∀ {ast : Ast.Program} {p p' : Prog} {s s' : St},
    passConsts env ast p s = .ok (p', s') →
      Extends p p' ∧ p'.transforms = p.transforms ∧ p'.functions = p.functions := by
  intro ast
  induction ast with
  | nil =>
    intro p p' s s' h
    rw [passConsts, pure_run_ok] at h
    rw [h.1]; exact ⟨.refl _, rfl, rfl⟩
  | cons d rest ih =>
    intro p p' s s' h
    cases d with
    | type name args f =>
      rw [passConsts] at h
      split at h
      · simp only [bind_run_ok] at h
        obtain ⟨⟨id, q⟩, s1, h1, sc, s2, -, u, s3, -, h4⟩ := h
        rw [declareType_ok] at h1
        obtain ⟨-, -, hq, -⟩ := h1
        obtain ⟨e, ht, hf⟩ := ih h4
        simp only at hq
        subst hq
        exact ⟨.trans extends_types e, ht, hf⟩
      · exact ih h
    | const name ty v =>
      rw [passConsts] at h
      simp only [bind_run_ok] at h
      obtain ⟨q, s1, h1, h2⟩ := h
      obtain ⟨-, t, s2, P, e, -, -, -, -, rfl⟩ := convConst_ok h1
      obtain ⟨e', ht, hf⟩ := ih h2
      exact ⟨.trans extends_consts e', ht, hf⟩
    | import_ items src => exact ih h
    | ffi n k => exact ih h

theorem passDeclare_extends : ∀ {ast : Ast.Program} {p : Prog} {r : List FId × Prog} {s s' : St},
    passDeclare ast p s = .ok (r, s') →
      Extends p r.2 ∧ r.2.transforms = p.transforms ∧ r.2.functions = p.functions ∧
      r.2.consts = p.consts := by
  intro ast
  induction ast with
  | nil =>
    intro p r s s' h
    rw [passDeclare, pure_run_ok] at h
    rw [← h.1]; exact ⟨.refl _, rfl, rfl, rfl⟩
  | cons d rest ih =>
    intro p r s s' h
    cases d with
    | type name args f =>
      rw [passDeclare] at h
      split at h
      · exact ih h
      · simp only [bind_run_ok, pure_run_ok] at h
        obtain ⟨⟨id, q⟩, s1, h1, ⟨ids, q'⟩, s2, h2, rfl, rfl⟩ := h
        rw [declareType_ok] at h1
        obtain ⟨-, -, hq, -⟩ := h1
        simp only at hq
        subst hq
        obtain ⟨e, ht, hf, hc⟩ := ih h2
        exact ⟨.trans extends_types e, ht, hf, hc⟩
    | const name ty v => exact ih h
    | import_ items src => exact ih h
    | ffi n k => exact ih h

/-- The passes of `fromAstImported`, one by one. -/
theorem fromAstImported_ok {env : Env} {mods : List (String × Prog)} {ast : Ast.Program}
    {p : Prog} {s s' : St} (h : fromAstImported env mods ast s = .ok (p, s')) :
    ∃ p1 s1 p2 s2 p3 s3 ids s4 scs s5 s6,
      passFfi env ast (addPrelude env.prelude ⟨[], [], [], []⟩) s = .ok (p1, s1) ∧
      passImports env mods ast p1 s1 = .ok (p2, s2) ∧
      passConsts env ast p2 s2 = .ok (p3, s3) ∧
      passDeclare ast p3 s3 = .ok ((ids, p), s4) ∧
      passArguments env p ast ids s4 = .ok (scs, s5) ∧
      passBodies env p ast ids scs s5 = .ok ((), s6) ∧
      scanM p s6 = .ok ((), s') := by
  unfold fromAstImported at h
  simp only [bind_run_ok, pure_run_ok] at h
  obtain ⟨p1, s1, h1, p2, s2, h2, p3, s3, h3, ⟨ids, p'⟩, s4, h4, scs, s5, h5, u, s6, h6, u', s7, h7,
    rfl, rfl⟩ := h
  exact ⟨p1, s1, p2, s2, p3, s3, ids, s4, scs, s5, s6, h1, h2, h3, h4, h5, h6, h7⟩

end Verif.Sem
