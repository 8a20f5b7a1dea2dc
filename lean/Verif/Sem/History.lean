import Verif.Sem.ElabProgram
import Verif.Sem.Closed
/-!
# How a program came about: the modules it was made from, and where each of its types was declared
-/
namespace Verif.Sem
open Verif

/-! ## Converting a module keeps what was there -/

theorem passFfi_later {env : Env} : ∀ {ast : Ast.Program} {p p' : Prog} {s s' : St},
    passFfi env ast p s = .ok (p', s') → Later s.heap s'.heap ∧ ∀ (n : String) (id : FId), (n, id) ∈ p'.types →
      (n, id) ∈ p.types ∨ .ffi n .type ∈ ast ∧ ∃ (x : AField), s'.heap[id]? = some x ∧ x.type = .foreign n := by
  intro ast
  induction ast with
  | nil =>
    intro p p' s s' h
    rw [passFfi, pure_run_ok] at h
    rw [h.1, h.2]
    exact ⟨.refl _, fun _ _ hn => .inl hn⟩
  | cons d rest ih =>
    intro p p' s s' h
    cases d with
    | ffi name k =>
      rw [passFfi] at h
      simp only [bind_run_ok] at h
      obtain ⟨q, s1, h1, h2⟩ := h
      obtain ⟨l2, o2⟩ := ih h2
      have h1 := convFfi_ok h1
      cases k with
      | type =>
        obtain ⟨arguments, -, -, rfl, rfl⟩ := h1
        have l1 : Later s.heap (s.heap ++ [{ blankField name true with arguments, type := .foreign name }]) :=
          fun f x hx => ⟨x, by rw [List.getElem?_append_left (heap_lt hx)]; exact hx, rfl⟩
        refine ⟨l1.trans l2, fun n id hn => ?_⟩
        rcases o2 n id hn with hn | hn
        · rcases List.mem_append.1 hn with hn | hn
          · exact .inl hn
          · right
            cases List.mem_singleton.1 hn
            obtain ⟨y, hy, hf⟩ := l2 s.heap.length { blankField name true with arguments, type := .foreign name }
              (by simp)
            refine ⟨List.mem_cons_self, y, hy, ?_⟩
            unfold Flagged at hf
            rw [hf]
        · exact .inr (hn.imp_left (List.mem_cons_of_mem _))
      | transform =>
        obtain ⟨params, -, -, rfl, rfl⟩ := h1
        exact ⟨l2, fun n id hn => (o2 n id hn).imp_right (And.imp_left (List.mem_cons_of_mem _))⟩
      | function =>
        obtain ⟨sig, -, -, rfl, rfl⟩ := h1
        exact ⟨l2, fun n id hn => (o2 n id hn).imp_right (And.imp_left (List.mem_cons_of_mem _))⟩
    | type _ _ _ =>
      exact ⟨(ih h).1, fun n id hn => ((ih h).2 n id hn).imp_right (And.imp_left (List.mem_cons_of_mem _))⟩
    | const _ _ _ =>
      exact ⟨(ih h).1, fun n id hn => ((ih h).2 n id hn).imp_right (And.imp_left (List.mem_cons_of_mem _))⟩
    | import_ _ _ =>
      exact ⟨(ih h).1, fun n id hn => ((ih h).2 n id hn).imp_right (And.imp_left (List.mem_cons_of_mem _))⟩

/-- An item of an import that binds the name. -/
def Binds (items : List Ast.ImportItem) (n k : String) : Prop := ∃ i ∈ items, importedName i = n ∧ i.name = k

theorem Binds.cons {i : Ast.ImportItem} {items : List Ast.ImportItem} {n k : String} (h : Binds items n k) :
    Binds (i :: items) n k :=
  let ⟨j, hj, h⟩ := h
  ⟨j, List.mem_cons_of_mem _ hj, h⟩

theorem bindItems_types {module : String} {cached : Prog} : ∀ {items : List Ast.ImportItem} {p p' : Prog},
    bindItems module cached items p = .ok p' → ∀ (n : String) (id : FId), (n, id) ∈ p'.types →
      (n, id) ∈ p.types ∨ ∃ k, Binds items n k ∧ IMap.get cached.types k = some id := by
  intro items
  induction items with
  | nil => intro p p' h n id hn; cases h; exact .inl hn
  | cons i rest ih =>
    intro p p' h n id hn
    have up : ∀ {q : Prog}, ((n, id) ∈ q.types ∨ ∃ k, Binds rest n k ∧ IMap.get cached.types k = some id) →
        (n, id) ∈ q.types ∨ ∃ k, Binds (i :: rest) n k ∧ IMap.get cached.types k = some id :=
      fun h => h.imp_right fun ⟨k, hk, hg⟩ => ⟨k, hk.cons, hg⟩
    rw [bindItems] at h
    split at h
    · rename_i f hf
      rcases up (ih h n id hn) with hn | hn
      · rcases insert_mem hn with hn | hn
        · exact .inl hn
        · cases hn; exact .inr ⟨_, ⟨i, List.mem_cons_self, rfl, rfl⟩, hf⟩
      · exact .inr hn
    · split at h
      · exact up (ih h n id hn)
      · split at h
        · exact up (ih h n id hn)
        · cases h

theorem bindItems_consts {module : String} {cached : Prog} : ∀ {items : List Ast.ImportItem} {p p' : Prog},
    bindItems module cached items p = .ok p' → ∀ (n : String) (c : AConst), (n, c) ∈ p'.consts →
      (n, c) ∈ p.consts ∨ ∃ k, Binds items n k ∧ IMap.get cached.consts k = some c := by
  intro items
  induction items with
  | nil => intro p p' h n id hn; cases h; exact .inl hn
  | cons i rest ih =>
    intro p p' h n c hn
    have up : ∀ {q : Prog}, ((n, c) ∈ q.consts ∨ ∃ k, Binds rest n k ∧ IMap.get cached.consts k = some c) →
        (n, c) ∈ q.consts ∨ ∃ k, Binds (i :: rest) n k ∧ IMap.get cached.consts k = some c :=
      fun h => h.imp_right fun ⟨k, hk, hg⟩ => ⟨k, hk.cons, hg⟩
    rw [bindItems] at h
    split at h
    · exact up (ih h n c hn)
    · split at h
      · rename_i f hf
        rcases up (ih h n c hn) with hn | hn
        · rcases insert_mem hn with hn | hn
          · exact .inl hn
          · cases hn; exact .inr ⟨_, ⟨i, List.mem_cons_self, rfl, rfl⟩, hf⟩
        · exact .inr hn
      · split at h
        · exact up (ih h n c hn)
        · cases h

/-- An import of the text that binds the name to what the module `m` calls `k`. -/
def Imports (env : Env) (ast : Ast.Program) (n module k : String) : Prop :=
  ∃ items src, .import_ items src ∈ ast ∧ env.normalize src = .ok module ∧ Binds items n k

theorem Imports.cons {env : Env} {d : Ast.Decl} {ast : Ast.Program} {n m k : String} (h : Imports env ast n m k) :
    Imports env (d :: ast) n m k :=
  let ⟨a, b, hm, h⟩ := h
  ⟨a, b, List.mem_cons_of_mem _ hm, h⟩

theorem passImports_types {env : Env} {mods : List (String × Prog)} : ∀ {ast : Ast.Program} {p p' : Prog} {s s' : St},
    passImports env mods ast p s = .ok (p', s') → s = s' ∧
      (∀ (n : String) (id : FId), (n, id) ∈ p'.types → (n, id) ∈ p.types ∨
        ∃ x ∈ mods, ∃ k, Imports env ast n x.1 k ∧ IMap.get x.2.types k = some id) ∧
      ∀ (n : String) (c : AConst), (n, c) ∈ p'.consts → (n, c) ∈ p.consts ∨
        ∃ x ∈ mods, ∃ k, Imports env ast n x.1 k ∧ IMap.get x.2.consts k = some c := by
  intro ast
  induction ast with
  | nil =>
    intro p p' s s' h
    rw [passImports, pure_run_ok] at h
    rw [h.1, h.2]
    exact ⟨rfl, fun _ _ hn => .inl hn, fun _ _ hn => .inl hn⟩
  | cons d rest ih =>
    intro p p' s s' h
    have skip : passImports env mods rest p s = .ok (p', s') → s = s' ∧
      (∀ (n : String) (id : FId), (n, id) ∈ p'.types → (n, id) ∈ p.types ∨
        ∃ x ∈ mods, ∃ k, Imports env (d :: rest) n x.1 k ∧ IMap.get x.2.types k = some id) ∧
      ∀ (n : String) (c : AConst), (n, c) ∈ p'.consts → (n, c) ∈ p.consts ∨
        ∃ x ∈ mods, ∃ k, Imports env (d :: rest) n x.1 k ∧ IMap.get x.2.consts k = some c := fun h =>
      ⟨(ih h).1, fun n id hn => ((ih h).2.1 n id hn).imp_right fun ⟨x, hx, k, hk, hg⟩ => ⟨x, hx, k, hk.cons, hg⟩,
        fun n id hn => ((ih h).2.2 n id hn).imp_right fun ⟨x, hx, k, hk, hg⟩ => ⟨x, hx, k, hk.cons, hg⟩⟩
    cases d with
    | import_ items src =>
      rw [passImports] at h
      simp only [bind_run_ok] at h
      obtain ⟨q, s1, h1, h2⟩ := h
      unfold convImport at h1
      simp only [bind_run_ok, liftR_ok, lookup_ok] at h1
      obtain ⟨name, _, ⟨hno, rfl⟩, c, _, ⟨hc, rfl⟩, h1, rfl⟩ := h1
      obtain ⟨rfl, o2, o3⟩ := ih h2
      refine ⟨rfl, fun n id hn => ?_, fun n id hn => ?_⟩
      · rcases o2 n id hn with hn | ⟨x, hx, k, hk, hg⟩
        · rcases bindItems_types h1 n id hn with hn | ⟨k, hb, hg⟩
          · exact .inl hn
          · exact .inr ⟨(name, c), IMap.get_mem hc, k, ⟨items, src, List.mem_cons_self, hno, hb⟩, hg⟩
        · exact .inr ⟨x, hx, k, hk.cons, hg⟩
      · rcases o3 n id hn with hn | ⟨x, hx, k, hk, hg⟩
        · rcases bindItems_consts h1 n id hn with hn | ⟨k, hb, hg⟩
          · exact .inl hn
          · exact .inr ⟨(name, c), IMap.get_mem hc, k, ⟨items, src, List.mem_cons_self, hno, hb⟩, hg⟩
        · exact .inr ⟨x, hx, k, hk.cons, hg⟩
    | type _ _ _ => exact skip h
    | const _ _ _ => exact skip h
    | ffi _ _ => exact skip h

theorem passFfi_consts {env : Env} : ∀ {ast : Ast.Program} {p p' : Prog} {s s' : St},
    passFfi env ast p s = .ok (p', s') → p'.consts = p.consts := by
  intro ast
  induction ast with
  | nil =>
    intro p p' s s' h
    rw [passFfi, pure_run_ok] at h
    rw [h.1]
  | cons d rest ih =>
    intro p p' s s' h
    cases d with
    | ffi name k =>
      rw [passFfi] at h
      simp only [bind_run_ok] at h
      obtain ⟨q, s1, h1, h2⟩ := h
      rw [ih h2]
      have h1 := convFfi_ok h1
      cases k with
      | type => obtain ⟨arguments, -, -, rfl, -⟩ := h1; rfl
      | transform => obtain ⟨arguments, -, -, rfl, -⟩ := h1; rfl
      | function => obtain ⟨arguments, -, -, rfl, -⟩ := h1; rfl
    | type _ _ _ => exact ih h
    | const _ _ _ => exact ih h
    | import_ _ _ => exact ih h

theorem passConsts_consts {env : Env} : ∀ {ast : Ast.Program} {p p' : Prog} {s s' : St},
    passConsts env ast p s = .ok (p', s') → ∀ (n : String) (c : AConst), (n, c) ∈ p'.consts →
      (n, c) ∈ p.consts ∨ ∃ ty v, .const n ty v ∈ ast := by
  intro ast
  induction ast with
  | nil =>
    intro p p' s s' h n c hn
    rw [passConsts, pure_run_ok] at h
    rw [h.1]; exact .inl hn
  | cons d rest ih =>
    intro p p' s s' h n c hn
    have up : ∀ {q : Prog}, ((n, c) ∈ q.consts ∨ ∃ ty v, .const n ty v ∈ rest) →
        (n, c) ∈ q.consts ∨ ∃ ty v, .const n ty v ∈ d :: rest :=
      fun h => h.imp_right fun ⟨ty, v, hm⟩ => ⟨ty, v, List.mem_cons_of_mem _ hm⟩
    cases d with
    | type name args f =>
      rw [passConsts] at h
      split at h
      · simp only [bind_run_ok] at h
        obtain ⟨⟨fid, q⟩, s1, h1, sc, s2, -, u, s3, -, h4⟩ := h
        rw [declareType_ok] at h1
        obtain ⟨hnone, -, hq, -⟩ := h1
        simp only at hq
        subst hq
        exact up (ih h4 n c hn)
      · exact up (ih h n c hn)
    | const name ty v =>
      rw [passConsts] at h
      simp only [bind_run_ok] at h
      obtain ⟨q, s1, h1, h2⟩ := h
      obtain ⟨-, t, s2, P, e, -, -, -, -, rfl⟩ := convConst_ok h1
      rcases up (ih h2 n c hn) with hn | hn
      · rcases List.mem_append.1 hn with hn | hn
        · exact .inl hn
        · cases List.mem_singleton.1 hn
          exact .inr ⟨ty, v, List.mem_cons_self⟩
      · exact .inr hn
    | import_ items src => exact up (ih h n c hn)
    | ffi m k => exact up (ih h n c hn)

theorem passConsts_types {env : Env} : ∀ {ast : Ast.Program} {p p' : Prog} {s s' : St},
    passConsts env ast p s = .ok (p', s') → ∀ (n : String) (id : FId), (n, id) ∈ p'.types →
      (n, id) ∈ p.types ∨ ∃ args f, .type n args f ∈ ast ∧ IMap.get p'.types n = some id := by
  intro ast
  induction ast with
  | nil =>
    intro p p' s s' h n id hn
    rw [passConsts, pure_run_ok] at h
    rw [h.1]; exact .inl hn
  | cons d rest ih =>
    intro p p' s s' h n id hn
    have up : ∀ {q : Prog}, ((n, id) ∈ q.types ∨ ∃ args f, .type n args f ∈ rest ∧ IMap.get p'.types n = some id) →
        (n, id) ∈ q.types ∨ ∃ args f, .type n args f ∈ d :: rest ∧ IMap.get p'.types n = some id :=
      fun h => h.imp_right fun ⟨args, f, hm, hg⟩ => ⟨args, f, List.mem_cons_of_mem _ hm, hg⟩
    cases d with
    | type name args f =>
      rw [passConsts] at h
      split at h
      · simp only [bind_run_ok] at h
        obtain ⟨⟨fid, q⟩, s1, h1, sc, s2, -, u, s3, -, h4⟩ := h
        rw [declareType_ok] at h1
        obtain ⟨hnone, -, hq, -⟩ := h1
        simp only at hq
        subst hq
        rcases up (ih h4 n id hn) with hn | hn
        · rcases List.mem_append.1 hn with hn | hn
          · exact .inl hn
          · cases List.mem_singleton.1 hn
            refine .inr ⟨args, f, List.mem_cons_self, (passConsts_extends h4).1.types _ _ ?_⟩
            simp only
            rw [← IMap.insert_new hnone, IMap.get_insert_self]
        · exact .inr hn
      · exact up (ih h n id hn)
    | const name ty v =>
      rw [passConsts] at h
      simp only [bind_run_ok] at h
      obtain ⟨q, s1, h1, h2⟩ := h
      obtain ⟨-, t, s2, P, e, -, -, -, -, rfl⟩ := convConst_ok h1
      exact up (ih h2 n id hn)
    | import_ items src => exact up (ih h n id hn)
    | ffi n k => exact up (ih h _ id hn)

theorem passDeclare_types : ∀ {ast : Ast.Program} {p : Prog} {r : List FId × Prog} {s s' : St},
    passDeclare ast p s = .ok (r, s') → ∀ (n : String) (id : FId), (n, id) ∈ r.2.types →
      (n, id) ∈ p.types ∨ ∃ args f, .type n args f ∈ ast ∧ IMap.get r.2.types n = some id := by
  intro ast
  induction ast with
  | nil =>
    intro p r s s' h n id hn
    rw [passDeclare, pure_run_ok] at h
    rw [← h.1] at hn; exact .inl hn
  | cons d rest ih =>
    intro p r s s' h n id hn
    have up : ∀ {q : Prog}, ((n, id) ∈ q.types ∨ ∃ args f, .type n args f ∈ rest ∧ IMap.get r.2.types n = some id) →
        (n, id) ∈ q.types ∨ ∃ args f, .type n args f ∈ d :: rest ∧ IMap.get r.2.types n = some id :=
      fun h => h.imp_right fun ⟨args, f, hm, hg⟩ => ⟨args, f, List.mem_cons_of_mem _ hm, hg⟩
    cases d with
    | type name args f =>
      rw [passDeclare] at h
      split at h
      · exact up (ih h n id hn)
      · simp only [bind_run_ok, pure_run_ok] at h
        obtain ⟨⟨fid, q⟩, s1, h1, ⟨ids, q'⟩, s2, h2, rfl, rfl⟩ := h
        rw [declareType_ok] at h1
        obtain ⟨hnone, -, hq, -⟩ := h1
        simp only at hq
        subst hq
        simp only at hn up ⊢
        rcases up (ih h2 n id hn) with hn | hn
        · rcases List.mem_append.1 hn with hn | hn
          · exact .inl hn
          · cases List.mem_singleton.1 hn
            refine .inr ⟨args, f, List.mem_cons_self, (passDeclare_extends h2).1.types _ _ ?_⟩
            simp only
            rw [← IMap.insert_new hnone, IMap.get_insert_self]
        · exact .inr hn
    | const _ _ _ => exact up (ih h n id hn)
    | import_ _ _ => exact up (ih h n id hn)
    | ffi _ _ => exact up (ih h n id hn)

/-- Where the constants of a module come from. -/
theorem fromAstImported_consts {env : Env} {mods : List (String × Prog)} {ast : Ast.Program}
    {p : Prog} {s s' : St} (h : fromAstImported env mods ast s = .ok (p, s')) (n : String) (c : AConst)
    (hn : (n, c) ∈ p.consts) : (∃ x ∈ mods, ∃ k, Imports env ast n x.1 k ∧ IMap.get x.2.consts k = some c) ∨
      ∃ ty v, .const n ty v ∈ ast := by
  obtain ⟨p1, s1, p2, s2, p3, s3, ids, s4, scs, s5, s6, hf, hi, hc, hd, ha, hb, hs⟩ := fromAstImported_ok h
  have e := (passDeclare_extends hd).2.2.2
  simp only at e
  rw [e] at hn
  rcases passConsts_consts hc n c hn with hn | hn
  · rcases (passImports_types hi).2.2 n c hn with hn | hn
    · rw [passFfi_consts hf] at hn
      cases hn
    · exact .inl hn
  · exact .inr hn

/-- Where the types of a module come from, and that the graph only grows. -/
theorem fromAstImported_origin {env : Env} {mods : List (String × Prog)} {ast : Ast.Program}
    {p : Prog} {s s' : St} (h : fromAstImported env mods ast s = .ok (p, s')) : Later s.heap s'.heap ∧
      ∀ (n : String) (id : FId), (n, id) ∈ p.types →
        (.ffi n .type ∈ ast ∧ ∃ x : AField, s'.heap[id]? = some x ∧ x.type = .foreign n) ∨
        (∃ x ∈ mods, ∃ k, Imports env ast n x.1 k ∧ IMap.get x.2.types k = some id) ∨
        ∃ args f, .type n args f ∈ ast ∧ IMap.get p.types n = some id := by
  obtain ⟨p1, s1, p2, s2, p3, s3, ids, s4, scs, s5, s6, hf, hi, hc, hd, ha, hb, hs⟩ := fromAstImported_ok h
  have fl := scanM_flagged hs
  obtain ⟨lf, of⟩ := passFfi_later hf
  obtain ⟨rfl, oi, -⟩ := passImports_types hi
  obtain ⟨gc, -⟩ := passConsts_elab hc
  have oc := passConsts_types hc
  obtain ⟨gd, nd, bd, rd⟩ := passDeclare_elab hd
  have od := passDeclare_types hd
  simp only at nd bd rd od
  obtain ⟨la, oa, rows, r1, r2, r3, -⟩ := passArguments_elab ha nd (fun k hk => (bd k hk).2) rd.1
  subst r1 r2
  have cells5 : ∀ r ∈ rows, ∃ x : AField, s5.heap[r.id]? = some x ∧ x.calculated = none := by
    intro r hm
    obtain ⟨k, hk, hr⟩ := List.mem_iff_getElem.1 hm
    have hlen := rd.1
    simp only [List.length_map] at hlen
    have h1 : (plainDecls ast)[k]? = some _ := List.getElem?_eq_getElem (hlen ▸ hk)
    have h2 : (rows.map Row.id)[k]? = some r.id := by
      rw [List.getElem?_map, List.getElem?_eq_getElem hk, hr]; rfl
    exact ⟨_, r3 r hm _ (rd.2 k _ _ h1 h2).2, rfl⟩
  obtain ⟨lb, ob, -, -⟩ := passBodies_elab hb nd cells5 (by simpa using rd.1)
  have late : Later s1.heap s6.heap := by
    intro f x hx
    have f1 := heap_lt hx
    have f2 : f < s3.heap.length := Nat.lt_of_lt_of_le f1 gc.1
    have n4 : f ∉ rows.map Row.id := fun hm => Nat.not_lt.2 (bd f hm).1 f2
    refine ⟨x, ?_, rfl⟩
    rw [ob f (Nat.lt_of_lt_of_le (Nat.lt_of_lt_of_le f2 gd.1) la) n4, oa f (Nat.lt_of_lt_of_le f2 gd.1) n4,
      gd.2 f f2, gc.2 f f1, hx]
  refine ⟨(lf.trans late).trans fl, fun n id hn => ?_⟩
  rcases od n id hn with hn | hn
  · rcases oc n id hn with hn | ⟨args, f, hm, hg⟩
    · rcases oi n id hn with hn | hn
      · rcases of n id hn with hn | ⟨hm, x, hx, ht⟩
        · have e : (addPrelude env.prelude ⟨[], [], [], []⟩).types = [] := rfl
          rw [e] at hn; cases hn
        · left
          obtain ⟨y, hy, hxy⟩ := (late.trans fl) id x hx
          refine ⟨hm, y, hy, ?_⟩
          unfold Flagged at hxy
          rw [hxy]; exact ht
      · exact .inr (.inl hn)
    · exact .inr (.inr ⟨args, f, hm, (passDeclare_extends hd).1.types _ _ hg⟩)
  · exact .inr (.inr hn)

/-! ## The modules of a program -/

/-- The program is what the module with this text was converted to, in what became the graph `h`; the
modules it could import from were loaded under their names and converted likewise. -/
inductive Made (env : Env) (h : Heap) : Ast.Program → Prog → Prop
  | mk {mods : List (String × Prog)} {texts : String → Ast.Program} {ast : Ast.Program} {p : Prog} {s s' : St} :
      (∀ x ∈ mods, env.load x.1 = .ok (some (some (texts x.1)))) →
      (∀ x ∈ mods, Made env h (texts x.1) x.2) →
      fromAstImported env mods ast s = .ok (p, s') → Later s'.heap h → Made env h ast p

theorem Made.later {env : Env} {h h' : Heap} (hl : Later h h') {ast : Ast.Program} {p : Prog}
    (hc : Made env h ast p) : Made env h' ast p := by
  induction hc with
  | mk h1 h2 h3 h4 ih => exact .mk h1 ih h3 (h4.trans hl)

/-- The modules of the cache were loaded and converted. -/
def CacheOk (env : Env) (h : Heap) (c : Cache) : Prop :=
  ∀ x ∈ c.mods, ∃ ast, env.load x.1 = .ok (some (some ast)) ∧ Made env h ast x.2

theorem CacheOk.later {env : Env} {h h' : Heap} (hl : Later h h') {c : Cache} (hc : CacheOk env h c) :
    CacheOk env h' c :=
  fun x hx => (hc x hx).imp fun _ ha => ⟨ha.1, ha.2.later hl⟩

theorem CacheOk.made {env : Env} {c : Cache} {ast : Ast.Program} {p : Prog} {s s' : St}
    (hc : CacheOk env s.heap c) (h : fromAstImported env c.mods ast s = .ok (p, s')) :
    Made env s'.heap ast p := by
  have hc := hc.later (fromAstImported_origin h).1
  let texts : String → Ast.Program := fun n => match env.load n with
    | .ok (some (some a)) => a
    | _ => []
  have key : ∀ x ∈ c.mods, env.load x.1 = .ok (some (some (texts x.1))) ∧ Made env s'.heap (texts x.1) x.2 := by
    intro x hx
    obtain ⟨a, ha, hq⟩ := hc x hx
    have e : texts x.1 = a := by simp only [texts, ha]
    rw [e]; exact ⟨ha, hq⟩
  exact .mk (texts := texts) (fun x hx => (key x hx).1) (fun x hx => (key x hx).2) h (.refl _)

theorem loadDecls_ok {env : Env} {load : String → Cache → M Cache}
    (hl : ∀ name c c' s s', load name c s = .ok (c', s') → CacheOk env s.heap c → CacheOk env s'.heap c') :
    ∀ {ast : Ast.Program} {c c' : Cache} {s s' : St}, loadDecls env load ast c s = .ok (c', s') →
      CacheOk env s.heap c → CacheOk env s'.heap c' := by
  intro ast
  induction ast with
  | nil =>
    intro c c' s s' h hc
    rw [loadDecls, pure_run_ok] at h
    rw [← h.1, ← h.2]; exact hc
  | cons d rest ih =>
    intro c c' s s' h hc
    cases d with
    | import_ items src =>
      rw [loadDecls] at h
      simp only [bind_run_ok, liftR_ok] at h
      obtain ⟨name, _, ⟨-, rfl⟩, h⟩ := h
      split at h
      · exact ih h hc
      · simp only [bind_run_ok] at h
        obtain ⟨c1, s1, h1, h2⟩ := h
        exact ih h2 (hl _ _ _ _ _ h1 hc)
    | type _ _ _ => exact ih h hc
    | const _ _ _ => exact ih h hc
    | ffi _ _ => exact ih h hc

theorem loadImports_ok {env : Env} : ∀ (n : Nat) {ast : Ast.Program} {c c' : Cache} {s s' : St},
    loadImports env n ast c s = .ok (c', s') → CacheOk env s.heap c → CacheOk env s'.heap c'
  | 0, ast, c, c', s, s', h, hc => by
    rw [loadImports] at h
    exact loadDecls_ok (fun _ _ _ _ _ h => by cases h) h hc
  | n + 1, ast, c, c', s, s', h, hc => by
    rw [loadImports] at h
    refine loadDecls_ok (fun name c c' s s' h hc => ?_) h hc
    unfold loadModule at h
    simp only [bind_run_ok, liftR_ok, found_ok, pure_run_ok] at h
    obtain ⟨o, _, ⟨h1, rfl⟩, a, _, ⟨h2, rfl⟩, c1, s1, h3, p, s2, h4, rfl, rfl⟩ := h
    have hc1 : CacheOk env s1.heap c1 := loadImports_ok n h3 hc
    have hp := hc1.made h4
    intro x hx
    simp only at hx
    rcases insert_mem hx with hx | rfl
    · exact hc1.later (fromAstImported_origin h4).1 x hx
    · refine ⟨a, ?_, hp⟩
      cases h2
      exact h1

/-- A program is what its text was converted to. -/
theorem convert_made {env : Env} {n : Nat} {ast : Ast.Program} {p : Prog} {h : Heap} {loads : List String}
    (hc : convert env n ast = .ok (p, h, loads)) : Made env h ast p := by
  unfold convert at hc
  rw [rmap_ok] at hc
  obtain ⟨⟨⟨p', l'⟩, s'⟩, hr, he⟩ := hc
  cases he
  unfold fromAst at hr
  rw [StateT.run] at hr
  simp only [bind_run_ok, pure_run_ok] at hr
  obtain ⟨c, s1, h1, q, s2, h2, e, rfl⟩ := hr
  cases e
  exact (loadImports_ok n h1 (fun x hx => by cases hx)).made h2

/-- Every type of a program is foreign, or is declared in the text of a module: its own, or one that was
loaded. -/
theorem Made.origin {env : Env} {h : Heap} {ast : Ast.Program} {p : Prog} (hc : Made env h ast p) :
    ∀ (n : String) (id : FId), (n, id) ∈ p.types →
      (∃ (x : AField) (t : String), h[id]? = some x ∧ x.type = .foreign t) ∨
      ∃ (text : Ast.Program) (q : Prog) (m : String) (args : List Ast.TypeArg) (f : Ast.Field),
        (text = ast ∨ ∃ module, env.load module = .ok (some (some text))) ∧ Made env h text q ∧
        .type m args f ∈ text ∧ IMap.get q.types m = some id := by
  induction hc with
  | mk h1 h2 h3 h4 ih =>
    intro n id hn
    rcases (fromAstImported_origin h3).2 n id hn with ⟨-, x, hx, ht⟩ | ⟨x, hx, k, -, hk⟩ | ⟨args, f, hm, hg⟩
    · left
      obtain ⟨y, hy, hxy⟩ := h4 id x hx
      refine ⟨y, n, hy, ?_⟩
      unfold Flagged at hxy
      rw [hxy]; exact ht
    · rcases ih x hx k id (IMap.get_mem hk) with hf | ⟨text, q, m, args, f, ho, hq, hm, hg⟩
      · exact .inl hf
      · refine .inr ⟨text, q, m, args, f, .inr ?_, hq, hm, hg⟩
        rcases ho with rfl | ho
        · exact ⟨_, h1 x hx⟩
        · exact ho
    · exact .inr ⟨_, _, n, args, f, .inl rfl, .mk h1 h2 h3 h4, hm, hg⟩

theorem Made.elab {env : Env} {h : Heap} {ast : Ast.Program} {p : Prog} (hc : Made env h ast p) :
    ∀ d ∈ ast, ElabDecl p h d := by
  cases hc with
  | mk h1 h2 h3 h4 => exact fromAstImported_later h3 h4

end Verif.Sem
