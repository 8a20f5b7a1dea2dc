import Verif.Sem.Dups
import Verif.Props.Imports
import Verif.Props.Cycles
/-!
# C41: duplicate declarations are rejected
-/
namespace Verif.Props
open Verif Sem

/-! ## Specification -/

/-- The names declared by `type`. -/
def typeNames : Ast.Program → List String
  | [] => []
  | .type n _ _ :: rest => n :: typeNames rest
  | _ :: rest => typeNames rest

/-- The names declared by `const`. -/
def constNames : Ast.Program → List String
  | [] => []
  | .const n _ _ :: rest => n :: constNames rest
  | _ :: rest => constNames rest

/-- The names declared by `import_ffi … as type`. -/
def ffiTypes : Ast.Program → List String
  | [] => []
  | .ffi n .type :: rest => n :: ffiTypes rest
  | _ :: rest => ffiTypes rest

/-- The names declared by `import_ffi … as transform`. -/
def ffiTransforms : Ast.Program → List String
  | [] => []
  | .ffi n .transform :: rest => n :: ffiTransforms rest
  | _ :: rest => ffiTransforms rest

/-- The names declared by `import_ffi … as function`. -/
def ffiFunctions : Ast.Program → List String
  | [] => []
  | .ffi n .function :: rest => n :: ffiFunctions rest
  | _ :: rest => ffiFunctions rest

/-- An import of the program makes `n` the name of a type. -/
def ImportedType (env : Env) (mods : List (String × Prog)) (ast : Ast.Program) (n : String) : Prop :=
  ∃ items src name m, .import_ items src ∈ ast ∧ env.normalize src = .ok name ∧
    IMap.get mods name = some m ∧ ∃ i ∈ items, localName i = n ∧ ∃ f, Exports m i.name (.type f)

/-- An import of the program makes `n` the name of a constant. -/
def ImportedConst (env : Env) (mods : List (String × Prog)) (ast : Ast.Program) (n : String) : Prop :=
  ∃ items src name m, .import_ items src ∈ ast ∧ env.normalize src = .ok name ∧
    IMap.get mods name = some m ∧ ∃ i ∈ items, localName i = n ∧ ∃ c, Exports m i.name (.const c)

/-- Inside one declaration, no two sibling fields, variants or flags have the same name. -/
def DistinctDecl : Ast.Decl → Prop
  | .type _ args f => (∀ a ∈ args, DistinctTy a.type) ∧ DistinctField f
  | .const _ ty _ => DistinctTy ty
  | _ => True

/-- Inside one declaration, no field has the name of a padding. -/
def PadFreeDecl : Ast.Decl → Prop
  | .type _ args f => (∀ a ∈ args, PadFreeTy a.type) ∧ PadFreeField f
  | .const _ ty _ => PadFreeTy ty
  | _ => True

/-- The names of a module are declared once each. -/
structure DistinctNames (env : Env) (mods : List (String × Prog)) (ast : Ast.Program) : Prop where
  types : (typeNames ast).Nodup
  consts : (constNames ast).Nodup
  ffiTypes : (ffiTypes ast).Nodup
  ffiTransforms : (ffiTransforms ast).Nodup
  ffiFunctions : (ffiFunctions ast).Nodup
  foreign : ∀ n ∈ typeNames ast, n ∉ Props.ffiTypes ast
  prelude : ∀ n ∈ Props.ffiFunctions ast, n ∉ env.prelude.map Prod.fst
  importedTypes : ∀ n ∈ typeNames ast, ¬ ImportedType env mods ast n
  importedConsts : ∀ n ∈ constNames ast, ¬ ImportedConst env mods ast n
  inside : ∀ d ∈ ast, DistinctDecl d

/-! ## Keys -/

def keys {α} (m : List (String × α)) : List String := m.map Prod.fst

theorem keys_append {α} (m : List (String × α)) (n : String) (v : α) :
    keys (m ++ [(n, v)]) = keys m ++ [n] := by simp [keys]

theorem nodup_snoc {l : List String} {n : String} (h : l.Nodup) (hn : n ∉ l) :
    (l ++ [n]).Nodup := by
  rw [List.nodup_append]
  refine ⟨h, by simp, ?_⟩
  intro a ha b hb
  simp only [List.mem_singleton] at hb
  subst hb; rintro rfl; exact hn ha

theorem addPrelude_keys (fns : List (String × FnSig)) (p : Prog) :
    (∀ n, n ∈ keys (addPrelude fns p).functions ↔ n ∈ keys p.functions ∨ n ∈ fns.map Prod.fst) ∧
    ((keys p.functions).Nodup → (keys (addPrelude fns p).functions).Nodup) := by
  unfold addPrelude
  simp only
  generalize p.functions = m
  induction fns generalizing m with
  | nil => exact ⟨by simp, fun h => h⟩
  | cons x fns ih =>
    rw [List.foldl_cons]
    obtain ⟨a, b⟩ := ih (IMap.insert m x.1 x.2)
    refine ⟨?_, fun h => b (IMap.nodup_insert h)⟩
    intro n
    rw [a n]
    unfold keys
    rw [IMap.mem_keys_insert, List.map_cons, List.mem_cons]
    constructor
    · rintro ((h | h) | h)
      · exact .inr (.inl h)
      · exact .inl h
      · exact .inr (.inr h)
    · rintro (h | h | h)
      · exact .inl (.inr h)
      · exact .inl (.inl h)
      · exact .inr h

theorem passFfi_keys {env : Env} : ∀ {ast : Ast.Program} {p p' : Prog} {s s' : St},
    passFfi env ast p s = .ok (p', s') →
      keys p'.types = keys p.types ++ ffiTypes ast ∧
      keys p'.transforms = keys p.transforms ++ ffiTransforms ast ∧
      keys p'.functions = keys p.functions ++ ffiFunctions ast ∧ p'.consts = p.consts ∧
      ((keys p.types).Nodup → (keys p'.types).Nodup) ∧
      ((keys p.transforms).Nodup → (keys p'.transforms).Nodup) ∧
      ((keys p.functions).Nodup → (keys p'.functions).Nodup) := by
  intro ast
  induction ast with
  | nil =>
    intro p p' s s' h
    rw [passFfi, pure_run_ok] at h
    rw [h.1]; simp [ffiTypes, ffiTransforms, ffiFunctions]
  | cons d rest ih =>
    intro p p' s s' h
    cases d with
    | ffi n k =>
      rw [passFfi] at h
      simp only [bind_run_ok] at h
      obtain ⟨q, s1, h1, h2⟩ := h
      obtain ⟨a, b, c, d, e, f, g⟩ := ih h2
      have := convFfi_ok h1
      cases k with
      | type =>
        obtain ⟨x, -, hn, rfl, -⟩ := this
        rw [IMap.get_none_iff] at hn
        simp only [keys_append] at a b c d e f g
        refine ⟨by rw [a]; simp [ffiTypes], b, c, d, fun h => e (nodup_snoc h hn), f, g⟩
      | transform =>
        obtain ⟨x, -, hn, rfl, -⟩ := this
        rw [IMap.get_none_iff] at hn
        simp only [keys_append] at a b c d e f g
        refine ⟨a, by rw [b]; simp [ffiTransforms], c, d, e, fun h => f (nodup_snoc h hn), g⟩
      | function =>
        obtain ⟨x, -, hn, rfl, -⟩ := this
        rw [IMap.get_none_iff] at hn
        simp only [keys_append] at a b c d e f g
        refine ⟨a, b, by rw [c]; simp [ffiFunctions], d, e, f, fun h => g (nodup_snoc h hn)⟩
    | type _ _ _ => exact ih h
    | const _ _ _ => exact ih h
    | import_ _ _ => exact ih h

theorem bindItems_keys {mn : String} {m : Prog} : ∀ {items : List Ast.ImportItem} {p p' : Prog},
    bindItems mn m items p = .ok p' →
      (∀ n ∈ keys p.types, n ∈ keys p'.types) ∧ (∀ n ∈ keys p.consts, n ∈ keys p'.consts) ∧
      p'.functions = p.functions ∧
      ((keys p.types).Nodup → (keys p'.types).Nodup) ∧
      ((keys p.consts).Nodup → (keys p'.consts).Nodup) ∧
      (∀ i ∈ items, ∀ f, Exports m i.name (.type f) → localName i ∈ keys p'.types) ∧
      (∀ i ∈ items, ∀ c, Exports m i.name (.const c) → localName i ∈ keys p'.consts) := by
  intro items
  induction items with
  | nil =>
    intro p p' h
    rw [bindItems] at h
    cases h
    exact ⟨fun _ h => h, fun _ h => h, rfl, fun h => h, fun h => h, by simp, by simp⟩
  | cons i rest ih =>
    intro p p' h
    rcases bindItems_cons (mn := mn) (m := m) (i := i) (rest := rest) (p := p) with
      ⟨x, hx, he⟩ | ⟨hx, he⟩
    · rw [he] at h
      obtain ⟨a, b, c, d, e, f, g⟩ := ih h
      cases x with
      | type v =>
        refine ⟨fun n hn => a n (IMap.mem_keys_insert.2 (.inr hn)), b, c,
          fun h => d (IMap.nodup_insert h), e, ?_, ?_⟩
        · intro j hj f' hf'
          rcases List.mem_cons.1 hj with rfl | hj
          · exact a _ (IMap.mem_keys_insert.2 (.inl rfl))
          · exact f j hj f' hf'
        · intro j hj c' hc'
          rcases List.mem_cons.1 hj with rfl | hj
          · cases exports_unique hx hc'
          · exact g j hj c' hc'
      | const v =>
        refine ⟨a, fun n hn => b n (IMap.mem_keys_insert.2 (.inr hn)), c, d,
          fun h => e (IMap.nodup_insert h), ?_, ?_⟩
        · intro j hj f' hf'
          rcases List.mem_cons.1 hj with rfl | hj
          · cases exports_unique hx hf'
          · exact f j hj f' hf'
        · intro j hj c' hc'
          rcases List.mem_cons.1 hj with rfl | hj
          · exact b _ (IMap.mem_keys_insert.2 (.inl rfl))
          · exact g j hj c' hc'
      | transform v =>
        refine ⟨a, b, c, d, e, ?_, ?_⟩
        · intro j hj f' hf'
          rcases List.mem_cons.1 hj with rfl | hj
          · cases exports_unique hx hf'
          · exact f j hj f' hf'
        · intro j hj c' hc'
          rcases List.mem_cons.1 hj with rfl | hj
          · cases exports_unique hx hc'
          · exact g j hj c' hc'
    · rw [he] at h; cases h

theorem passImports_keys {env : Env} {mods : List (String × Prog)} :
    ∀ {ast : Ast.Program} {p p' : Prog} {s s' : St},
    passImports env mods ast p s = .ok (p', s') →
      (∀ n ∈ keys p.types, n ∈ keys p'.types) ∧ (∀ n ∈ keys p.consts, n ∈ keys p'.consts) ∧
      p'.functions = p.functions ∧
      ((keys p.types).Nodup → (keys p'.types).Nodup) ∧
      ((keys p.consts).Nodup → (keys p'.consts).Nodup) ∧
      (∀ n, ImportedType env mods ast n → n ∈ keys p'.types) ∧
      (∀ n, ImportedConst env mods ast n → n ∈ keys p'.consts) := by
  intro ast
  induction ast with
  | nil =>
    intro p p' s s' h
    rw [passImports, pure_run_ok] at h
    rw [h.1]
    refine ⟨fun _ h => h, fun _ h => h, rfl, fun h => h, fun h => h, ?_, ?_⟩
    · rintro n ⟨_, _, _, _, h, _⟩; cases h
    · rintro n ⟨_, _, _, _, h, _⟩; cases h
  | cons d rest ih =>
    intro p p' s s' h
    have other : (∀ items src, d ≠ .import_ items src) →
        passImports env mods rest p s = .ok (p', s') → _ := fun hd h => by
      obtain ⟨a, b, c, d', e, f, g⟩ := ih h
      refine (⟨a, b, c, d', e, ?_, ?_⟩ :
        (∀ n ∈ keys p.types, n ∈ keys p'.types) ∧ (∀ n ∈ keys p.consts, n ∈ keys p'.consts) ∧
        p'.functions = p.functions ∧
        ((keys p.types).Nodup → (keys p'.types).Nodup) ∧
        ((keys p.consts).Nodup → (keys p'.consts).Nodup) ∧
        (∀ n, ImportedType env mods (d :: rest) n → n ∈ keys p'.types) ∧
        (∀ n, ImportedConst env mods (d :: rest) n → n ∈ keys p'.consts))
      · rintro n ⟨items, src, nm, m, hm, r⟩
        rcases List.mem_cons.1 hm with rfl | hm
        · exact absurd rfl (hd _ _)
        · exact f n ⟨items, src, nm, m, hm, r⟩
      · rintro n ⟨items, src, nm, m, hm, r⟩
        rcases List.mem_cons.1 hm with rfl | hm
        · exact absurd rfl (hd _ _)
        · exact g n ⟨items, src, nm, m, hm, r⟩
    cases d with
    | import_ items src =>
      rw [passImports] at h
      simp only [bind_run_ok] at h
      obtain ⟨q, s1, h1, h2⟩ := h
      obtain ⟨name, c, hnm, hc, hb, -⟩ := convImport_ok h1
      obtain ⟨a1, b1, c1, d1, e1, f1, g1⟩ := bindItems_keys hb
      obtain ⟨a2, b2, c2, d2, e2, f2, g2⟩ := ih h2
      refine ⟨fun n h => a2 n (a1 n h), fun n h => b2 n (b1 n h), c2.trans c1,
        fun h => d2 (d1 h), fun h => e2 (e1 h), ?_, ?_⟩
      · rintro n ⟨items', src', nm, m, hm, hnm', hm', i, hi, rfl, f, hf⟩
        rcases List.mem_cons.1 hm with hm | hm
        · cases hm
          rw [hnm] at hnm'; cases hnm'
          rw [hc] at hm'; cases hm'
          exact a2 _ (f1 i hi f hf)
        · exact f2 _ ⟨items', src', nm, m, hm, hnm', hm', i, hi, rfl, f, hf⟩
      · rintro n ⟨items', src', nm, m, hm, hnm', hm', i, hi, rfl, f, hf⟩
        rcases List.mem_cons.1 hm with hm | hm
        · cases hm
          rw [hnm] at hnm'; cases hnm'
          rw [hc] at hm'; cases hm'
          exact b2 _ (g1 i hi f hf)
        · exact g2 _ ⟨items', src', nm, m, hm, hnm', hm', i, hi, rfl, f, hf⟩
    | type _ _ _ => exact other (by simp) h
    | const _ _ _ => exact other (by simp) h
    | ffi _ _ => exact other (by simp) h

/-- The enums and bitfields among the declared types. -/
def repNames : Ast.Program → List String
  | [] => []
  | .type n _ f :: rest => if isRepType f then n :: repNames rest else repNames rest
  | _ :: rest => repNames rest

/-- The other declared types. -/
def plainNames : Ast.Program → List String
  | [] => []
  | .type n _ f :: rest => if isRepType f then plainNames rest else n :: plainNames rest
  | _ :: rest => plainNames rest

theorem names_perm : ∀ ast, List.Perm (typeNames ast) (repNames ast ++ plainNames ast)
  | [] => .nil
  | .type n _ f :: rest => by
    simp only [typeNames, repNames, plainNames]
    split
    · exact .cons _ (names_perm rest)
    · exact (List.Perm.cons _ (names_perm rest)).trans List.perm_middle.symm
  | .const .. :: rest => names_perm rest
  | .ffi .. :: rest => names_perm rest
  | .import_ .. :: rest => names_perm rest

theorem convTypeArgs_distinct {env : Env} {p : Prog} {outer : Scope} :
    ∀ {args : List Ast.TypeArg} {inputs : List (String × AType)} {done : List AArg} {s s' : St}
      {r}, convTypeArgs env p outer args inputs done s = .ok (r, s') →
      ∀ a ∈ args, DistinctTy a.type
  | [], _, _, _, _, _, _ => by simp
  | a :: rest, inputs, done, s, s', r, h => by
    rw [convTypeArgs] at h
    simp only [bind_run_ok] at h
    obtain ⟨t, s1, h1, _, _, _, _, _, _, h4⟩ := h
    intro b hb
    rcases List.mem_cons.1 hb with rfl | hb
    · exact convTy_distinct env p _ _ _ _ _ _ h1
    · exact convTypeArgs_distinct h4 b hb

theorem convArguments_distinct {env : Env} {p : Prog} {sc r : Scope} {args : List Ast.TypeArg}
    {id : FId} {s s' : St} (h : convArguments env p sc args id s = .ok (r, s')) :
    ∀ a ∈ args, DistinctTy a.type := by
  unfold convArguments at h
  simp only [bind_run_ok] at h
  obtain ⟨⟨i, a⟩, s1, h1, _⟩ := h
  exact convTypeArgs_distinct h1

theorem convBody_distinct {env : Env} {p : Prog} {sc : Scope} {n : String} {f : Ast.Field}
    {id : FId} {s s' : St} {u : Unit} (h : convBody env p sc n f id s = .ok (u, s')) :
    DistinctField f := by
  unfold convBody at h
  simp only [bind_run_ok] at h
  obtain ⟨b, s1, h1, _⟩ := h
  exact convMid_distinct env p f _ _ _ _ _ _ h1

theorem passConsts_keys {env : Env} : ∀ {ast : Ast.Program} {p p' : Prog} {s s' : St},
    passConsts env ast p s = .ok (p', s') →
      keys p'.types = keys p.types ++ repNames ast ∧
      keys p'.consts = keys p.consts ++ constNames ast ∧
      ((keys p.types).Nodup → (keys p'.types).Nodup) ∧
      ((keys p.consts).Nodup → (keys p'.consts).Nodup) ∧
      (∀ n args f, .type n args f ∈ ast → isRepType f = true →
        DistinctDecl (.type n args f)) ∧
      (∀ n t v, .const n t v ∈ ast → DistinctDecl (.const n t v)) := by
  intro ast
  induction ast with
  | nil =>
    intro p p' s s' h
    rw [passConsts, pure_run_ok] at h
    rw [h.1]
    simp [repNames, constNames]
  | cons d rest ih =>
    intro p p' s s' h
    cases d with
    | type name args f =>
      rw [passConsts] at h
      split at h
      · rename_i hr
        simp only [bind_run_ok] at h
        obtain ⟨⟨id, q⟩, s1, h1, sc, s2, h2, u, s3, h3, h4⟩ := h
        rw [declareType_ok] at h1
        obtain ⟨hn, -, hq, -⟩ := h1
        simp only at hq
        rw [IMap.get_none_iff] at hn
        subst hq
        obtain ⟨a, b, c, d, e, g⟩ := ih h4
        simp only [keys_append] at a b c d
        refine ⟨by rw [a]; simp [repNames, hr], b, fun h => c (nodup_snoc h hn), d, ?_, ?_⟩
        · intro n as f' hm hr'
          rcases List.mem_cons.1 hm with hm | hm
          · cases hm
            exact ⟨convArguments_distinct h2, convBody_distinct h3⟩
          · exact e n as f' hm hr'
        · intro n t v hm
          rcases List.mem_cons.1 hm with hm | hm
          · cases hm
          · exact g n t v hm
      · rename_i hr
        obtain ⟨a, b, c, d, e, g⟩ := ih h
        refine ⟨by rw [a]; simp [repNames, hr], b, c, d, ?_, ?_⟩
        · intro n as f' hm hr'
          rcases List.mem_cons.1 hm with hm | hm
          · cases hm; exact absurd hr' hr
          · exact e n as f' hm hr'
        · intro n t v hm
          rcases List.mem_cons.1 hm with hm | hm
          · cases hm
          · exact g n t v hm
    | const name ty v =>
      rw [passConsts] at h
      simp only [bind_run_ok] at h
      obtain ⟨q, s1, h1, h2⟩ := h
      obtain ⟨hn, t, s2, P, e, ht, -, -, -, rfl⟩ := convConst_ok h1
      rw [IMap.get_none_iff] at hn
      obtain ⟨a, b, c, d, e, g⟩ := ih h2
      simp only [keys_append] at a b c d
      refine ⟨a, by rw [b]; simp [constNames], c, fun h => d (nodup_snoc h hn), ?_, ?_⟩
      · intro n as f' hm hr'
        rcases List.mem_cons.1 hm with hm | hm
        · cases hm
        · exact e n as f' hm hr'
      · intro n t v hm
        rcases List.mem_cons.1 hm with hm | hm
        · cases hm
          exact convTy_distinct env p _ _ _ _ _ _ ht
        · exact g n t v hm
    | import_ items src =>
      obtain ⟨a, b, c, d, e, g⟩ := ih h
      exact ⟨a, b, c, d, fun n as f hm => e n as f (by simpa using hm),
        fun n t v hm => g n t v (by simpa using hm)⟩
    | ffi n k =>
      obtain ⟨a, b, c, d, e, g⟩ := ih h
      exact ⟨a, b, c, d, fun n as f hm => e n as f (by simpa using hm),
        fun n t v hm => g n t v (by simpa using hm)⟩

theorem passDeclare_keys : ∀ {ast : Ast.Program} {p : Prog} {r : List FId × Prog} {s s' : St},
    passDeclare ast p s = .ok (r, s') →
      keys r.2.types = keys p.types ++ plainNames ast ∧
      r.1.length = (plainNames ast).length ∧
      ((keys p.types).Nodup → (keys r.2.types).Nodup) := by
  intro ast
  induction ast with
  | nil =>
    intro p r s s' h
    rw [passDeclare, pure_run_ok] at h
    rw [← h.1]
    simp [plainNames]
  | cons d rest ih =>
    intro p r s s' h
    cases d with
    | type name args f =>
      rw [passDeclare] at h
      split at h
      · rename_i hr
        obtain ⟨a, b, c⟩ := ih h
        exact ⟨by rw [a]; simp [plainNames, hr], by rw [b]; simp [plainNames, hr], c⟩
      · rename_i hr
        simp only [bind_run_ok, pure_run_ok] at h
        obtain ⟨⟨id, q⟩, s1, h1, ⟨ids, q'⟩, s2, h2, rfl, rfl⟩ := h
        rw [declareType_ok] at h1
        obtain ⟨hn, -, hq, -⟩ := h1
        simp only at hq
        rw [IMap.get_none_iff] at hn
        subst hq
        obtain ⟨a, b, c⟩ := ih h2
        simp only [keys_append] at a b c
        refine ⟨by rw [a]; simp [plainNames, hr], by simp [plainNames, hr, b],
          fun h => c (nodup_snoc h hn)⟩
    | const name ty v => exact ih h
    | import_ items src => exact ih h
    | ffi n k => exact ih h

theorem passArguments_distinct {env : Env} {p : Prog} :
    ∀ {ast : Ast.Program} {ids : List FId} {scs : List Scope} {s s' : St},
      passArguments env p ast ids s = .ok (scs, s') → ids.length = (plainNames ast).length →
      scs.length = ids.length ∧ ∀ n args f, .type n args f ∈ ast → isRepType f = false →
        ∀ a ∈ args, DistinctTy a.type := by
  intro ast
  induction ast with
  | nil =>
    intro ids scs s s' h hl
    rw [passArguments] at h
    simp only [plainNames, List.length_nil, List.length_eq_zero_iff] at hl
    rw [pure_run_ok] at h
    rw [← h.1, hl]; simp
  | cons d rest ih =>
    intro ids scs s s' h hl
    cases d with
    | type name args f =>
      cases hr : isRepType f with
      | true =>
        simp only [plainNames, hr, if_true] at hl
        have h' : passArguments env p rest ids s = .ok (scs, s') := by
          cases ids with
          | nil => rw [passArguments] at h; exact h; all_goals simp
          | cons id ids => rw [passArguments, if_pos hr] at h; exact h
        obtain ⟨a, b⟩ := ih h' hl
        refine ⟨a, ?_⟩
        intro n as f' hm hf'
        rcases List.mem_cons.1 hm with hm | hm
        · cases hm; rw [hr] at hf'; cases hf'
        · exact b n as f' hm hf'
      | false =>
        cases ids with
        | nil => simp [plainNames, hr] at hl
        | cons id ids =>
          rw [passArguments, hr] at h
          simp only [Bool.false_eq_true, if_false, bind_run_ok, pure_run_ok] at h
          obtain ⟨sc, s1, h1, scs', s2, h2, rfl, rfl⟩ := h
          simp only [plainNames, hr, Bool.false_eq_true, if_false, List.length_cons,
            Nat.add_right_cancel_iff] at hl
          obtain ⟨a, b⟩ := ih h2 hl
          refine ⟨by simp [a], ?_⟩
          intro n as f' hm hf'
          rcases List.mem_cons.1 hm with hm | hm
          · cases hm; exact convArguments_distinct h1
          · exact b n as f' hm hf'
    | const name ty v =>
      rw [passArguments] at h
      · obtain ⟨a, b⟩ := ih h hl
        exact ⟨a, fun n as f hm => b n as f (by simpa using hm)⟩
      all_goals simp
    | import_ items src =>
      rw [passArguments] at h
      · obtain ⟨a, b⟩ := ih h hl
        exact ⟨a, fun n as f hm => b n as f (by simpa using hm)⟩
      all_goals simp
    | ffi n k =>
      rw [passArguments] at h
      · obtain ⟨a, b⟩ := ih h hl
        exact ⟨a, fun n as f hm => b n as f (by simpa using hm)⟩
      all_goals simp

theorem passBodies_distinct {env : Env} {p : Prog} :
    ∀ {ast : Ast.Program} {ids : List FId} {scs : List Scope} {s s' : St} {u : Unit},
      passBodies env p ast ids scs s = .ok (u, s') → ids.length = (plainNames ast).length →
      scs.length = ids.length → ∀ n args f, .type n args f ∈ ast → isRepType f = false →
        DistinctField f := by
  intro ast
  induction ast with
  | nil => intro ids scs s s' u h hl hs n args f hm; cases hm
  | cons d rest ih =>
    intro ids scs s s' u h hl hs
    cases d with
    | type name args f =>
      cases hr : isRepType f with
      | true =>
        simp only [plainNames, hr, if_true] at hl
        have h' : passBodies env p rest ids scs s = .ok (u, s') := by
          cases ids with
          | nil => rw [passBodies] at h; exact h; all_goals simp
          | cons id ids =>
            cases scs with
            | nil => cases hs
            | cons sc scs => rw [passBodies, if_pos hr] at h; exact h
        have b := ih h' hl hs
        intro n as f' hm hf'
        rcases List.mem_cons.1 hm with hm | hm
        · cases hm; rw [hr] at hf'; cases hf'
        · exact b n as f' hm hf'
      | false =>
        cases ids with
        | nil => simp [plainNames, hr] at hl
        | cons id ids =>
          cases scs with
          | nil => cases hs
          | cons sc scs =>
            rw [passBodies, hr] at h
            simp only [Bool.false_eq_true, if_false, bind_run_ok] at h
            obtain ⟨u', s1, h1, h2⟩ := h
            simp only [plainNames, hr, Bool.false_eq_true, if_false, List.length_cons,
              Nat.add_right_cancel_iff] at hl
            have b := ih h2 hl (by simpa using hs)
            intro n as f' hm hf'
            rcases List.mem_cons.1 hm with hm | hm
            · cases hm; exact convBody_distinct h1
            · exact b n as f' hm hf'
    | const name ty v =>
      rw [passBodies] at h
      · have b := ih h hl hs
        exact fun n as f hm => b n as f (by simpa using hm)
      all_goals simp
    | import_ items src =>
      rw [passBodies] at h
      · have b := ih h hl hs
        exact fun n as f hm => b n as f (by simpa using hm)
      all_goals simp
    | ffi n k =>
      rw [passBodies] at h
      · have b := ih h hl hs
        exact fun n as f hm => b n as f (by simpa using hm)
      all_goals simp

/-- C41. A module that converts declares every type, constant, foreign type, transform and function
once, none of its types is also a foreign or an imported type, none of its constants an imported
one, and no two sibling fields, variants or flags anywhere in it share a name. Hence a module with
such a duplicate is always rejected. -/
theorem duplicates_rejected (env : Env) (mods : List (String × Prog)) (ast : Ast.Program)
    (p : Prog) (s s' : St) (h : (fromAstImported env mods ast).run s = .ok (p, s')) :
    DistinctNames env mods ast := by
  obtain ⟨p1, s1, p2, s2, p3, s3, ids, s4, scs, s5, s6, hf, hi, hc, hd, ha, hb, -⟩ :=
    fromAstImported_ok h
  obtain ⟨pk, pn⟩ := addPrelude_keys env.prelude ⟨[], [], [], []⟩
  have pn := pn (by simp [keys])
  obtain ⟨f1, f2, f3, f4, f5, f6, f7⟩ := passFfi_keys hf
  have f5 := f5 (by simp [keys, addPrelude])
  have f6 := f6 (by simp [keys, addPrelude])
  have f7 := f7 pn
  obtain ⟨i1, i2, i3, i4, i5, i6, i7⟩ := passImports_keys hi
  have i4 := i4 f5
  have i5 := i5 (by rw [f4]; simp [keys, addPrelude])
  obtain ⟨c1, c2, c3, c4, c5, c6⟩ := passConsts_keys hc
  have c3 := c3 i4
  have c4 := c4 i5
  obtain ⟨d1, d2, d3⟩ := passDeclare_keys hd
  have d3 := d3 c3
  obtain ⟨a1, a2⟩ := passArguments_distinct ha d2
  have b1 := passBodies_distinct hb d2 a1
  simp only at d1 d3
  rw [c1, List.append_assoc] at d1
  rw [d1, List.nodup_append] at d3
  rw [c2, List.nodup_append] at c4
  rw [f3, List.nodup_append] at f7
  have hmem : ∀ {n}, n ∈ typeNames ast → n ∈ keys p2.types → False := fun {n} h1 h2 =>
    d3.2.2 n h2 n ((names_perm ast).mem_iff.1 h1) rfl
  refine ⟨(names_perm ast).nodup_iff.2 d3.2.1, c4.2.1, ?_, ?_, f7.2.1, ?_, ?_, ?_, ?_, ?_⟩
  · rw [f1] at f5; simpa [keys, addPrelude] using f5
  · rw [f2] at f6; simpa [keys, addPrelude] using f6
  · intro n hn hm
    exact hmem hn (i1 n (by rw [f1]; exact List.mem_append_right _ hm))
  · intro n hn hm
    exact f7.2.2 n ((pk n).2 (.inr hm)) n hn rfl
  · intro n hn hm; exact hmem hn (i6 n hm)
  · intro n hn hm; exact c4.2.2 n (i7 n hm) n hn rfl
  · intro d hm
    cases d with
    | type n args f =>
      cases hr : isRepType f with
      | true => exact c5 n args f hm hr
      | false => exact ⟨a2 n args f hm hr, b1 n args f hm hr⟩
    | const n t v => exact c6 n t v hm
    | import_ _ _ => trivial
    | ffi _ _ => trivial

/-! ## Nothing else is rejected on that account -/

theorem nrr_found {α} {x : R (Option α)} {e : AsgError} (hx : NRr x) (he : ¬ Redefinition e) :
    NRr (found x e) := by
  unfold found
  refine nrr_bind hx fun o => ?_
  cases o
  · exact nrr_asg he
  · exact nrr_ok

theorem check_none {α} {m : List (String × α)} {n : String} {e : AsgError} (h : n ∉ keys m) :
    NR (check (IMap.get m n).isNone e) := by
  refine nr_check_true ?_
  rw [Option.isNone_iff_eq_none, IMap.get_none_iff]
  exact h

theorem passFfi_nr {env : Env} (he : EnvNR env) : ∀ {ast : Ast.Program} {p : Prog},
    (ffiTypes ast).Nodup → (ffiTransforms ast).Nodup → (ffiFunctions ast).Nodup →
    (∀ n ∈ ffiTypes ast, n ∉ keys p.types) → (∀ n ∈ ffiTransforms ast, n ∉ keys p.transforms) →
    (∀ n ∈ ffiFunctions ast, n ∉ keys p.functions) → NR (passFfi env ast p) := by
  intro ast
  induction ast with
  | nil => intro p _ _ _ _ _ _; exact nr_pure _
  | cons d rest ih =>
    intro p n1 n2 n3 k1 k2 k3
    cases d with
    | ffi n k =>
      rw [passFfi]
      cases k with
      | type =>
        rw [ffiTypes, List.nodup_cons] at n1
        simp only [ffiTypes, List.mem_cons, forall_eq_or_imp] at k1
        refine nr_bind' ?_ fun s q s' h => ?_
        · exact nr_bind (nr_liftR (nrr_found (he.ffiType n) (by simp [Redefinition]))) fun _ =>
            nr_bind (check_none k1.1) fun _ => nr_bind nr_alloc fun _ => nr_pure _
        · obtain ⟨x, -, hn, rfl, -⟩ := convFfi_ok h
          refine ih n1.2 n2 n3 ?_ k2 k3
          intro m hm
          rw [keys_append, List.mem_append, List.mem_singleton]
          rintro (h | rfl)
          · exact k1.2 m hm h
          · exact n1.1 hm
      | transform =>
        rw [ffiTransforms, List.nodup_cons] at n2
        simp only [ffiTransforms, List.mem_cons, forall_eq_or_imp] at k2
        refine nr_bind' ?_ fun s q s' h => ?_
        · exact nr_bind (nr_liftR (nrr_found (he.ffiTransform n) (by simp [Redefinition]))) fun _ =>
            nr_bind (check_none k2.1) fun _ => nr_pure _
        · obtain ⟨x, -, hn, rfl, -⟩ := convFfi_ok h
          refine ih n1 n2.2 n3 k1 ?_ k3
          intro m hm
          rw [keys_append, List.mem_append, List.mem_singleton]
          rintro (h | rfl)
          · exact k2.2 m hm h
          · exact n2.1 hm
      | function =>
        rw [ffiFunctions, List.nodup_cons] at n3
        simp only [ffiFunctions, List.mem_cons, forall_eq_or_imp] at k3
        refine nr_bind' ?_ fun s q s' h => ?_
        · exact nr_bind (nr_liftR (nrr_found (he.ffiFunction n) (by simp [Redefinition]))) fun _ =>
            nr_bind (check_none k3.1) fun _ => nr_pure _
        · obtain ⟨x, -, hn, rfl, -⟩ := convFfi_ok h
          refine ih n1 n2 n3.2 k1 k2 ?_
          intro m hm
          rw [keys_append, List.mem_append, List.mem_singleton]
          rintro (h | rfl)
          · exact k3.2 m hm h
          · exact n3.1 hm
    | type _ _ _ => exact ih n1 n2 n3 k1 k2 k3
    | const _ _ _ => exact ih n1 n2 n3 k1 k2 k3
    | import_ _ _ => exact ih n1 n2 n3 k1 k2 k3

theorem bindItems_nr {mn : String} {m : Prog} : ∀ {items : List Ast.ImportItem} {p : Prog},
    NRr (bindItems mn m items p) := by
  intro items
  induction items with
  | nil => intro p; exact nrr_ok
  | cons i rest ih =>
    intro p
    rcases bindItems_cons (mn := mn) (m := m) (i := i) (rest := rest) (p := p) with
      ⟨x, hx, he⟩ | ⟨hx, he⟩
    · rw [he]; exact ih
    · rw [he]; exact nrr_asg (by simp [Redefinition])

theorem passImports_nr {env : Env} (he : EnvNR env) {mods : List (String × Prog)} :
    ∀ {ast : Ast.Program} {p : Prog}, NR (passImports env mods ast p) := by
  intro ast
  induction ast with
  | nil => intro p; exact nr_pure _
  | cons d rest ih =>
    intro p
    cases d with
    | import_ items src =>
      rw [passImports]
      refine nr_bind ?_ fun _ => ih
      exact nr_bind (nr_liftR (he.normalize src)) fun _ =>
        nr_bind (nr_lookup (by simp [Redefinition])) fun _ => nr_liftR bindItems_nr
    | type _ _ _ => exact ih
    | const _ _ _ => exact ih
    | ffi _ _ => exact ih

theorem bindItems_keys_only {mn : String} {m : Prog} :
    ∀ {items : List Ast.ImportItem} {p p' : Prog}, bindItems mn m items p = .ok p' →
      (∀ n ∈ keys p'.types, n ∈ keys p.types ∨
        ∃ i ∈ items, localName i = n ∧ ∃ f, Exports m i.name (.type f)) ∧
      (∀ n ∈ keys p'.consts, n ∈ keys p.consts ∨
        ∃ i ∈ items, localName i = n ∧ ∃ c, Exports m i.name (.const c)) := by
  intro items
  induction items with
  | nil =>
    intro p p' h
    rw [bindItems] at h
    cases h
    exact ⟨fun _ h => .inl h, fun _ h => .inl h⟩
  | cons i rest ih =>
    intro p p' h
    rcases bindItems_cons (mn := mn) (m := m) (i := i) (rest := rest) (p := p) with
      ⟨x, hx, he⟩ | ⟨hx, he⟩
    · rw [he] at h
      obtain ⟨a, b⟩ := ih h
      have lift : ∀ {Q : Ast.ImportItem → Prop}, (∃ j ∈ rest, Q j) → ∃ j ∈ i :: rest, Q j :=
        fun ⟨j, hj, q⟩ => ⟨j, List.mem_cons_of_mem _ hj, q⟩
      constructor
      · intro n hn
        rcases a n hn with h | h
        · cases x with
          | type f =>
            rcases IMap.mem_keys_insert.1 h with rfl | h
            · exact .inr ⟨i, List.mem_cons_self, rfl, f, hx⟩
            · exact .inl h
          | const c => exact .inl h
          | transform t => exact .inl h
        · exact .inr (lift h)
      · intro n hn
        rcases b n hn with h | h
        · cases x with
          | const f =>
            rcases IMap.mem_keys_insert.1 h with rfl | h
            · exact .inr ⟨i, List.mem_cons_self, rfl, f, hx⟩
            · exact .inl h
          | type c => exact .inl h
          | transform t => exact .inl h
        · exact .inr (lift h)
    · rw [he] at h; cases h

theorem passImports_keys_only {env : Env} {mods : List (String × Prog)} :
    ∀ {ast : Ast.Program} {p p' : Prog} {s s' : St},
    passImports env mods ast p s = .ok (p', s') →
      (∀ n ∈ keys p'.types, n ∈ keys p.types ∨ ImportedType env mods ast n) ∧
      (∀ n ∈ keys p'.consts, n ∈ keys p.consts ∨ ImportedConst env mods ast n) := by
  intro ast
  induction ast with
  | nil =>
    intro p p' s s' h
    rw [passImports, pure_run_ok] at h
    rw [h.1]
    exact ⟨fun _ h => .inl h, fun _ h => .inl h⟩
  | cons d rest ih =>
    intro p p' s s' h
    have t1 : ∀ {n}, ImportedType env mods rest n → ImportedType env mods (d :: rest) n :=
      fun ⟨items, src, nm, m, hm, r⟩ => ⟨items, src, nm, m, List.mem_cons_of_mem _ hm, r⟩
    have t2 : ∀ {n}, ImportedConst env mods rest n → ImportedConst env mods (d :: rest) n :=
      fun ⟨items, src, nm, m, hm, r⟩ => ⟨items, src, nm, m, List.mem_cons_of_mem _ hm, r⟩
    cases d with
    | import_ items src =>
      rw [passImports] at h
      simp only [bind_run_ok] at h
      obtain ⟨q, s1, h1, h2⟩ := h
      obtain ⟨name, c, hnm, hc, hb, -⟩ := convImport_ok h1
      obtain ⟨a1, b1⟩ := bindItems_keys_only hb
      obtain ⟨a2, b2⟩ := ih h2
      constructor
      · intro n hn
        rcases a2 n hn with h | h
        · exact (a1 n h).imp id fun h => ⟨items, src, name, c, List.mem_cons_self, hnm, hc, h⟩
        · exact .inr (t1 h)
      · intro n hn
        rcases b2 n hn with h | h
        · exact (b1 n h).imp id fun h => ⟨items, src, name, c, List.mem_cons_self, hnm, hc, h⟩
        · exact .inr (t2 h)
    | type _ _ _ =>
      obtain ⟨a, b⟩ := ih h
      exact ⟨fun n hn => (a n hn).imp id t1, fun n hn => (b n hn).imp id t2⟩
    | const _ _ _ =>
      obtain ⟨a, b⟩ := ih h
      exact ⟨fun n hn => (a n hn).imp id t1, fun n hn => (b n hn).imp id t2⟩
    | ffi _ _ =>
      obtain ⟨a, b⟩ := ih h
      exact ⟨fun n hn => (a n hn).imp id t1, fun n hn => (b n hn).imp id t2⟩

theorem declareType_nr {n : String} {p : Prog} (h : n ∉ keys p.types) : NR (declareType n p) :=
  nr_bind (check_none h) fun _ => nr_bind nr_alloc fun _ => nr_pure _

theorem convArguments_nr {env : Env} (he : EnvNR env) {p : Prog} {sc : Scope}
    {args : List Ast.TypeArg} {id : FId} (h : ∀ a ∈ args, DistinctTy a.type ∧ PadFreeTy a.type) :
    NR (convArguments env p sc args id) :=
  nr_bind (convTypeArgs_nr he p sc args [] [] h) fun _ => nr_bind nr_update fun _ => nr_pure _

theorem convBody_nr {env : Env} (he : EnvNR env) {p : Prog} {sc : Scope} {n : String}
    {f : Ast.Field} {id : FId} (h1 : DistinctField f) (h2 : PadFreeField f) :
    NR (convBody env p sc n f id) :=
  nr_bind (convMid_nr he p f sc _ id h1 h2) fun _ => convEnd_nr he p f sc id

theorem convConst_nr {env : Env} (he : EnvNR env) {p : Prog} {sc : Scope} {n : String}
    {t : Ast.Ty} {v : Ast.Expression} (hn : n ∉ keys p.consts) (h1 : DistinctTy t)
    (h2 : PadFreeTy t) : NR (convConst env sc n t v p) :=
  nr_bind (check_none hn) fun _ => nr_bind (convTy_nr he p t sc _ (.inr (.inr ⟨h1, h2⟩))) fun _ =>
    nr_bind (nr_check (by simp [Redefinition])) fun _ =>
    nr_bind (nr_withHeap fun _ => nrr_toPartial) fun _ => nr_bind (convE_nr he p v sc _) fun _ =>
    nr_pure _

/-- A declaration without duplicates or fields named like paddings in it. -/
def CleanDecl (d : Ast.Decl) : Prop := DistinctDecl d ∧ PadFreeDecl d

theorem cleanArgs {n : String} {args : List Ast.TypeArg} {f : Ast.Field}
    (h : CleanDecl (.type n args f)) : ∀ a ∈ args, DistinctTy a.type ∧ PadFreeTy a.type :=
  fun a ha => ⟨h.1.1 a ha, h.2.1 a ha⟩

theorem passConsts_nr {env : Env} (he : EnvNR env) : ∀ {ast : Ast.Program} {p : Prog},
    (repNames ast).Nodup → (constNames ast).Nodup → (∀ n ∈ repNames ast, n ∉ keys p.types) →
    (∀ n ∈ constNames ast, n ∉ keys p.consts) → (∀ d ∈ ast, CleanDecl d) →
    NR (passConsts env ast p) := by
  intro ast
  induction ast with
  | nil => intro p _ _ _ _ _; exact nr_pure _
  | cons d rest ih =>
    intro p n1 n2 k1 k2 hc
    have hr := fun d hd => hc d (List.mem_cons_of_mem _ hd)
    cases d with
    | type n args f =>
      have h0 := hc _ List.mem_cons_self
      rw [passConsts]
      split
      · rename_i hrep
        simp only [repNames, hrep, if_true, List.nodup_cons] at n1
        simp only [repNames, hrep, if_true, List.mem_cons, forall_eq_or_imp] at k1
        refine nr_bind' (declareType_nr k1.1) fun s q s' h => ?_
        rw [declareType_ok] at h
        obtain ⟨-, -, hq, -⟩ := h
        refine nr_bind (convArguments_nr he (cleanArgs h0)) fun sc => nr_bind
          (convBody_nr he h0.1.2 h0.2.2) fun _ => ?_
        rw [hq]
        refine ih n1.2 n2 ?_ k2 hr
        intro m hm
        rw [keys_append, List.mem_append, List.mem_singleton]
        rintro (h | rfl)
        · exact k1.2 m hm h
        · exact n1.1 hm
      · rename_i hrep
        simp only [repNames, hrep] at n1 k1
        exact ih n1 n2 k1 k2 hr
    | const n t v =>
      have h0 := hc _ List.mem_cons_self
      rw [passConsts]
      rw [constNames, List.nodup_cons] at n2
      simp only [constNames, List.mem_cons, forall_eq_or_imp] at k2
      refine nr_bind' (convConst_nr he k2.1 h0.1 h0.2) fun s q s' h => ?_
      obtain ⟨hn, t, s2, P, e, ht, -, -, -, rfl⟩ := convConst_ok h
      refine ih n1 n2.2 k1 ?_ hr
      intro m hm
      rw [keys_append, List.mem_append, List.mem_singleton]
      rintro (h | rfl)
      · exact k2.2 m hm h
      · exact n2.1 hm
    | import_ _ _ => exact ih n1 n2 k1 k2 hr
    | ffi _ _ => exact ih n1 n2 k1 k2 hr

theorem passDeclare_nr : ∀ {ast : Ast.Program} {p : Prog},
    (plainNames ast).Nodup → (∀ n ∈ plainNames ast, n ∉ keys p.types) →
    NR (passDeclare ast p) := by
  intro ast
  induction ast with
  | nil => intro p _ _; exact nr_pure _
  | cons d rest ih =>
    intro p n1 k1
    cases d with
    | type n args f =>
      rw [passDeclare]
      split
      · rename_i hrep
        simp only [plainNames, hrep, if_true] at n1 k1
        exact ih n1 k1
      · rename_i hrep
        simp only [plainNames, hrep, Bool.false_eq_true, if_false, List.nodup_cons] at n1
        simp only [plainNames, hrep, Bool.false_eq_true, if_false, List.mem_cons,
          forall_eq_or_imp] at k1
        refine nr_bind' (declareType_nr k1.1) fun s q s' h => ?_
        rw [declareType_ok] at h
        obtain ⟨-, -, hq, -⟩ := h
        obtain ⟨id, q⟩ := q
        simp only at hq
        subst hq
        refine nr_bind (ih n1.2 ?_) fun _ => nr_pure _
        intro m hm
        rw [keys_append, List.mem_append, List.mem_singleton]
        rintro (h | rfl)
        · exact k1.2 m hm h
        · exact n1.1 hm
    | const _ _ _ => exact ih n1 k1
    | import_ _ _ => exact ih n1 k1
    | ffi _ _ => exact ih n1 k1

theorem passArguments_nr {env : Env} (he : EnvNR env) {p : Prog} :
    ∀ {ast : Ast.Program} {ids : List FId}, (∀ d ∈ ast, CleanDecl d) →
    NR (passArguments env p ast ids) := by
  intro ast
  induction ast with
  | nil => intro ids _; rw [passArguments]; exact nr_pure _
  | cons d rest ih =>
    intro ids hc
    have hr := fun d hd => hc d (List.mem_cons_of_mem _ hd)
    cases d with
    | type n args f =>
      have h0 := hc _ List.mem_cons_self
      cases ids with
      | nil => rw [passArguments]; exact ih hr; all_goals simp
      | cons id ids =>
        rw [passArguments]
        split
        · exact ih hr
        · exact nr_bind (convArguments_nr he (cleanArgs h0)) fun _ => nr_bind (ih hr) fun _ =>
            nr_pure _
    | const _ _ _ => rw [passArguments]; exact ih hr; all_goals simp
    | import_ _ _ => rw [passArguments]; exact ih hr; all_goals simp
    | ffi _ _ => rw [passArguments]; exact ih hr; all_goals simp

theorem passBodies_nr {env : Env} (he : EnvNR env) {p : Prog} :
    ∀ {ast : Ast.Program} {ids : List FId} {scs : List Scope}, (∀ d ∈ ast, CleanDecl d) →
    NR (passBodies env p ast ids scs) := by
  intro ast
  induction ast with
  | nil => intro ids scs _; rw [passBodies]; exact nr_pure _
  | cons d rest ih =>
    intro ids scs hc
    have hr := fun d hd => hc d (List.mem_cons_of_mem _ hd)
    cases d with
    | type n args f =>
      have h0 := hc _ List.mem_cons_self
      cases ids with
      | nil => rw [passBodies]; exact ih hr; all_goals simp
      | cons id ids =>
        cases scs with
        | nil => rw [passBodies]; exact ih hr; all_goals simp
        | cons sc scs =>
          rw [passBodies]
          split
          · exact ih hr
          · exact nr_bind (convBody_nr he h0.1.2 h0.2.2) fun _ => ih hr
    | const _ _ _ => rw [passBodies]; exact ih hr; all_goals simp
    | import_ _ _ => rw [passBodies]; exact ih hr; all_goals simp
    | ffi _ _ => rw [passBodies]; exact ih hr; all_goals simp

theorem nrr_visit {h : Heap} {g : AField → List String → R (List String)}
    (hg : ∀ x l, NRr (g x l)) {f : FId} {l : List String} : NRr (visit h g f l) := by
  refine nrr_bind nrr_deref fun x => ?_
  split
  · exact nrr_ok
  · exact hg _ _

theorem nrr_visitAll {h : Heap} {g : AField → List String → R (List String)}
    (hg : ∀ x l, NRr (g x l)) : ∀ {fs : List (String × FId)} {l : List String},
    NRr (visitAll h g fs l)
  | [], _ => nrr_ok
  | (_, _) :: _, _ => nrr_bind (nrr_visit hg) fun _ => nrr_visitAll hg

theorem nrr_containedWith {h : Heap} {g : AField → List String → R (List String)}
    (hg : ∀ x l, NRr (g x l)) : ∀ (t : AType) {l : List String}, NRr (containedWith h g t l)
  | .array _ el _ _, _ => by rw [containedWith]; exact nrr_containedWith hg el
  | .container .., _ => by rw [containedWith]; exact nrr_visitAll hg
  | .ref .., _ => by rw [containedWith]; exact nrr_visit hg
  | .enum .., _ => nrr_ok
  | .bitfield .., _ => nrr_ok
  | .scalar _, _ => nrr_ok
  | .foreign _, _ => nrr_ok
  | .f32, _ => nrr_ok
  | .f64, _ => nrr_ok
  | .bool, _ => nrr_ok

theorem nrr_containedN {h : Heap} : ∀ (n : Nat) (t : AType) (l : List String),
    NRr (containedN h n t l)
  | 0, t, _ => nrr_containedWith (fun _ _ => nrr_diverge) t
  | n + 1, t, _ => nrr_containedWith (fun x l => nrr_containedN n x.type l) t

theorem nrr_scanCycles : ∀ {ts : List (String × FId)} {h : Heap}, NRr (scanCycles ts h)
  | [], _ => nrr_ok
  | (_, _) :: _, _ => by
    rw [scanCycles]
    refine nrr_bind ?_ fun _ => nrr_scanCycles
    refine nrr_bind nrr_deref fun x => nrr_bind (nrr_containedN _ _ _) fun _ => ?_
    split <;> exact nrr_ok

theorem nr_scanM {p : Prog} : NR (scanM p) := by
  intro s e h
  unfold scanM at h
  cases hr : scanCycles p.types s.heap with
  | error x => rw [hr] at h; cases h; exact nrr_scanCycles e hr
  | ok x => rw [hr] at h; cases h

/-- C41. Conversely a module that declares every name once, with no field named like a padding, is
never rejected as having a redefinition (provided the import resolver and the foreign objects do
not answer with such an error themselves). -/
theorem distinct_not_rejected (env : Env) (he : EnvNR env) (mods : List (String × Prog))
    (ast : Ast.Program) (hd : DistinctNames env mods ast) (hp : ∀ d ∈ ast, PadFreeDecl d)
    (s : St) (e : AsgError) (h : (fromAstImported env mods ast).run s = .error (.asg e)) :
    ¬ Redefinition e := by
  have hclean : ∀ d ∈ ast, CleanDecl d := fun d hm => ⟨hd.inside d hm, hp d hm⟩
  have hn := (names_perm ast).nodup_iff.1 hd.types
  rw [List.nodup_append] at hn
  obtain ⟨pk, -⟩ := addPrelude_keys env.prelude ⟨[], [], [], []⟩
  have key : NR (fromAstImported env mods ast) := by
    unfold fromAstImported
    refine nr_bind' (passFfi_nr he hd.ffiTypes hd.ffiTransforms hd.ffiFunctions
      (by simp [keys, addPrelude]) (by simp [keys, addPrelude]) ?_) fun s1 p1 s1' hf => ?_
    · intro n hn hm
      rcases (pk n).1 hm with h | h
      · simp [keys] at h
      · exact hd.prelude n hn h
    obtain ⟨f1, f2, f3, f4, -⟩ := passFfi_keys hf
    refine nr_bind' (passImports_nr he) fun s2 p2 s2' hi => ?_
    obtain ⟨i1, i2⟩ := passImports_keys_only hi
    have k1 : ∀ n ∈ typeNames ast, n ∉ keys p2.types := by
      intro n hn hm
      rcases i1 n hm with h | h
      · rw [f1] at h
        rcases List.mem_append.1 h with h | h
        · simp [keys, addPrelude] at h
        · exact hd.foreign n hn h
      · exact hd.importedTypes n hn h
    have k2 : ∀ n ∈ constNames ast, n ∉ keys p2.consts := by
      intro n hn hm
      rcases i2 n hm with h | h
      · rw [f4] at h
        simp [keys, addPrelude] at h
      · exact hd.importedConsts n hn h
    refine nr_bind' (passConsts_nr he hn.1 hd.consts ?_ k2 hclean) fun s3 p3 s3' hc => ?_
    · intro n hn'
      exact k1 n ((names_perm ast).mem_iff.2 (List.mem_append_left _ hn'))
    obtain ⟨c1, -⟩ := passConsts_keys hc
    refine nr_bind (passDeclare_nr hn.2.1 ?_) fun q => nr_bind (passArguments_nr he hclean)
      fun _ => nr_bind (passBodies_nr he hclean) fun _ => nr_bind nr_scanM fun _ => nr_pure _
    intro n hn' hm
    rw [c1] at hm
    rcases List.mem_append.1 hm with h | h
    · exact k1 n ((names_perm ast).mem_iff.2 (List.mem_append_right _ hn')) h
    · exact hn.2.2 n h n hn' rfl
  exact key s e h

theorem nrr_scalarFrom {k : Scalar} {h : Heap} {t : AType} : NRr (scalarFrom k h t) := by
  refine nrr_bind nrr_resolve fun x => ?_
  split <;> exact nrr_ok

theorem nrr_preludeFrom {n : String} {h : Heap} {t : AType} : NRr (preludeFrom n h t) := by
  unfold preludeFrom
  split <;> first | exact nrr_scalarFrom | exact nrr_ok

theorem nrr_preludeTo {n : String} {h : Heap} {t : AType} : NRr (preludeTo n h t) := by
  unfold preludeTo
  split <;> first | exact nrr_preludeFrom | exact nrr_ok

/-- The builtin resolver answers with no such error. -/
theorem preludeEnv_nr (modules : List (String × Ast.Program)) : EnvNR (preludeEnv modules) where
  same _ _ _ := nrr_ok
  ftFrom n h t := nrr_preludeFrom
  ftTo n h t := nrr_preludeTo
  ftToPartial n h P := by
    show NRr (preludeToPartial n h P)
    unfold preludeToPartial
    split <;> first
      | exact nrr_ok
      | exact nrr_preludeTo
      | (split <;> first | exact nrr_ok | exact nrr_preludeTo | exact nrr_preludeFrom)
  normalize _ := nrr_ok
  load _ := nrr_ok
  ffiType _ := nrr_ok
  ffiTransform _ := nrr_ok
  ffiFunction _ := nrr_ok

/-- C41, for programs with imports: what `compile` accepts declares every name once. -/
theorem program_duplicates_rejected (env : Env) (n : Nat) (ast : Ast.Program)
    (r : Prog × Heap × List String) (h : convert env n ast = .ok r) :
    (typeNames ast).Nodup ∧ (constNames ast).Nodup ∧ (∀ m ∈ typeNames ast, m ∉ ffiTypes ast) ∧
      ∀ d ∈ ast, DistinctDecl d := by
  unfold convert at h
  rw [rmap_ok] at h
  obtain ⟨⟨⟨p, l⟩, s⟩, h, -⟩ := h
  unfold fromAst at h
  have h := bind_run_ok.1 h
  obtain ⟨c, s1, -, h⟩ := h
  obtain ⟨p', s2, h, -⟩ := bind_run_ok.1 h
  have := duplicates_rejected env c.mods ast p' s1 s2 h
  exact ⟨this.types, this.consts, this.foreign, this.inside⟩

/-- What conversion of a program with the builtin resolver answers. -/
def errorOf (ast : Ast.Program) : Option SFault :=
  match convert (preludeEnv []) 0 ast with
  | .ok _ => none
  | .error e => some e

/-- Whether the items of the named type are paddings, by name. -/
def itemsOf (ast : Ast.Program) (n : String) : Option (List (String × Option Bool)) :=
  match convert (preludeEnv []) 0 ast with
  | .ok (p, h, _) => (IMap.get p.types n).bind fun f => h[f]?.bind fun (x : AField) =>
    match x.type with
    | .container _ _ items _ =>
      some (items.map fun (y : String × FId) => (y.1, h[y.2]?.map fun (z : AField) => z.pad))
    | _ => none
  | .error _ => none

/-- Two types, two constants, two sibling fields, two variants of one name. -/
example :
    errorOf [.type "a" [] (plainContainer []), .type "a" [] (plainContainer [])] =
      some (.asg (.typeRedefinition "a")) ∧
    errorOf [.const "k" .bool (.bool true), .const "k" .bool (.bool true)] =
      some (.asg (.constRedefinition "k")) ∧
    errorOf [.type "a" [] (plainContainer [("x", .bool), ("x", .f32)])] =
      some (.asg (.containerFieldRedefinition "x")) ∧
    errorOf [.ffi "v32" .type, .type "v32" [] (plainContainer [])] =
      some (.asg (.typeRedefinition "v32")) ∧
    errorOf [.type "e" [] (.mk (.enum Scalar.u8.toE [.mk "p" (.expr (.int "1" none)),
      .mk "p" .none]) [] none none [])] = some (.asg (.enumVariantRedefinition "p")) := by
  decide +kernel

/-- The same names at different levels are no duplicates: the hypotheses of `distinct_not_rejected`
are met, and the program converts. -/
def nestedNames : Ast.Program :=
  [.type "a" [] (plainContainer [("a", .bool), ("x", .container none []
    [.field "x" (.mk .bool [] none none []), .field "a" (.mk .bool [] none none [])])]),
   .type "b" [] (plainContainer [("x", .bool)]), .const "a" .bool (.bool true)]

example : DistinctNames (preludeEnv []) [] nestedNames ∧ (∀ d ∈ nestedNames, PadFreeDecl d) ∧
    errorOf nestedNames = none := by
  refine ⟨⟨by decide, by decide, by decide, by decide, by decide, by decide, by decide, ?_, ?_, ?_⟩,
    ?_, by decide +kernel⟩
  · rintro n - ⟨_, _, _, _, _, _, h, _⟩; cases h
  · rintro n - ⟨_, _, _, _, _, _, h, _⟩; cases h
  · intro d hd
    simp only [nestedNames, List.mem_cons, List.not_mem_nil, or_false] at hd
    rcases hd with rfl | rfl | rfl <;>
      simp [DistinctDecl, plainContainer, plainField, DistinctField, DistinctTy, DistinctItems,
        fieldNames]
  · intro d hd
    have : ∀ (n : String) (k : Nat), n.toList.length = 1 → n ≠ padName k := by
      rintro n k h rfl
      simp [padName] at h
    simp only [nestedNames, List.mem_cons, List.not_mem_nil, or_false] at hd
    rcases hd with rfl | rfl | rfl <;>
      simp [PadFreeDecl, plainContainer, plainField, PadFreeField, PadFreeTy, PadFreeItems,
        fieldNames] <;>
      (first | (refine ⟨⟨?_, ?_⟩, ?_, ?_⟩ <;> intro k <;> exact this _ k rfl) | (intro k; exact this _ k rfl))

/-- Finding: a field `_pad0` written before a padding is silently lost; its place is taken by the
padding. Written after the padding it is rejected as a duplicate of a name nobody wrote. -/
theorem pad_name_finding :
    itemsOf [.type "a" [] (.mk (.container none [] [.field "_pad0" (.mk .bool [] none none []),
      .pad (.int "3" none)]) [] none none [])] "a" = some [("_pad0", some true)] ∧
    errorOf [.type "a" [] (.mk (.container none [] [.pad (.int "3" none),
      .field "_pad0" (.mk .bool [] none none [])]) [] none none [])] =
      some (.asg (.containerFieldRedefinition "_pad0")) := by decide +kernel

/-- Finding: two arguments of a type may have the same name; the later one hides the earlier. -/
theorem duplicate_argument_finding :
    errorOf [.type "a" [⟨"n", .bool, none⟩, ⟨"n", .scalar Scalar.u8.toE, none⟩]
      (plainContainer [])] = none := by decide +kernel

end Verif.Props
