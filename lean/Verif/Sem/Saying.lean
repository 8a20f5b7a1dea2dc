import Verif.Sem.Origin
import Verif.Sem.Scoping
import Verif.Sem.Grounded
import Verif.Props.Const
/-!
# What the generators are given is what the text says
-/
namespace Verif.Sem
open Verif Props

/-- The functions of the prelude return what the prelude says. -/
class Builtins (env : Env) : Prop where
  prelude : ∀ n ∈ ["len", "blen", "sum", "bits", "pad"], ∀ sig, (n, sig) ∈ env.prelude →
    sig.ret = .scalar (returned n).toE
  ffi : ∀ n ∈ ["len", "blen", "sum", "bits", "pad"], ∀ sig, env.ffiFunction n = .ok (some sig) →
    sig.ret = .scalar (returned n).toE

theorem passFfi_functions {env : Env} : ∀ {ast : Ast.Program} {p p' : Prog} {s s' : St},
    passFfi env ast p s = .ok (p', s') → ∀ x ∈ p'.functions, x ∈ p.functions ∨ env.ffiFunction x.1 = .ok (some x.2)
  | [], p, p', s, s', h, x, hx => by
    rw [passFfi, pure_run_ok] at h
    rw [h.1]; exact .inl hx
  | .ffi name k :: rest, p, p', s, s', h, x, hx => by
    simp only [passFfi, bind_run_ok] at h
    obtain ⟨p1, s1, h1, h2⟩ := h
    rcases passFfi_functions h2 x hx with hx | hx
    · have := convFfi_ok h1
      cases k with
      | type => obtain ⟨_, _, _, rfl, _⟩ := this; exact .inl hx
      | transform => obtain ⟨_, _, _, rfl, _⟩ := this; exact .inl hx
      | function =>
        obtain ⟨sig, h3, _, rfl, _⟩ := this
        rcases List.mem_append.1 hx with hx | hx
        · exact .inl hx
        · cases List.mem_singleton.1 hx
          exact .inr h3
    · exact .inr hx
  | .type .. :: rest, p, p', s, s', h, x, hx => passFfi_functions (ast := rest) h x hx
  | .const .. :: rest, p, p', s, s', h, x, hx => passFfi_functions (ast := rest) h x hx
  | .import_ .. :: rest, p, p', s, s', h, x, hx => passFfi_functions (ast := rest) h x hx

theorem mem_put {α} {k : String} {v : α} {x : String × α} : ∀ {m : List (String × α)},
    x ∈ IMap.insert m k v → x ∈ m ∨ x = (k, v)
  | [], h => by simpa [IMap.insert] using h
  | (k', v') :: m, h => by
    rw [IMap.insert] at h
    split at h
    · rcases List.mem_cons.1 h with h | h
      · exact .inr (by simp_all)
      · exact .inl (List.mem_cons_of_mem _ h)
    · rcases List.mem_cons.1 h with h | h
      · exact .inl (h ▸ List.mem_cons_self)
      · rcases mem_put h with h | h
        · exact .inl (List.mem_cons_of_mem _ h)
        · exact .inr h

theorem insertFns_mem : ∀ (fns m : List (String × FnSig)) (x : String × FnSig),
    x ∈ fns.foldl (fun m x => IMap.insert m x.1 x.2) m → x ∈ m ∨ x ∈ fns
  | [], m, x, h => .inl h
  | y :: fns, m, x, h => by
    rcases insertFns_mem fns _ x h with h | h
    · rcases mem_put h with h | h
      · exact .inl h
      · subst h; exact .inr List.mem_cons_self
    · exact .inr (List.mem_cons_of_mem _ h)

/-- What a function of the prelude returns in a module. -/
theorem Made.builtin {env : Env} [hb : Builtins env] {h : Heap} {ast : Ast.Program} {p : Prog} (hm : Made env h ast p)
    {n : String} {sig : FnSig} (hn : n ∈ ["len", "blen", "sum", "bits", "pad"])
    (hg : IMap.get p.functions n = some sig) : sig.ret = .scalar (returned n).toE := by
  cases hm with
  | mk _ _ h3 _ =>
    obtain ⟨p1, s1, p2, s2, p3, s3, ids, s4, scs, s5, s6, hf, hi, hc, hd, -⟩ := fromAstImported_ok h3
    have e1 := (passImports_keys hi).2.2.1
    have e2 := (passConsts_extends hc).2.2
    have e3 := (passDeclare_extends hd).2.2.1
    have hx := IMap.get_mem hg
    rw [e3, e2, e1] at hx
    rcases passFfi_functions hf _ hx with hx | hx
    · rcases insertFns_mem _ _ _ hx with hx | hx
      · cases hx
      · exact hb.prelude n hn sig hx
    · exact hb.ffi n hn sig hx

/-- A type of the graph is one that a module's text has, up to lengths. -/
inductive TyIs (q : Prog) : Ast.Ty → AType → Prop
  | scalar {s} : TyIs q (.scalar s) (.scalar s)
  | f32 : TyIs q .f32 .f32
  | f64 : TyIs q .f64 .f64
  | bool : TyIs q .bool .bool
  | array {el el' x x' len len' tag} : TyIs q el el' → TyIs q (.array el x len) (.array tag el' x' len')
  | ref {n f args args'} : IMap.get q.types n = some f → TyIs q (.ref n args) (.ref f args')
  | container {len flags items tag len' its isEnum} :
      TyIs q (.container len flags items) (.container tag len' its isEnum)
  | enum {rep items tag name vs} : TyIs q (.enum rep items) (.enum tag name rep vs)
  | bitfield {rep items tag name cs} : (∀ c ∈ cs, c.name ∈ items.map flagName) →
      TyIs q (.bitfield rep items) (.bitfield tag name rep cs)

theorem elabFlags_names {p : Prog} {h : Heap} : ∀ {items : List Ast.BitItem} {sc : Scope} {rep : EScalar}
    {last : Option AConst} {k : Nat} {vs : List AConst}, ElabFlags p h sc rep last k items vs →
    ∀ c ∈ vs, c.name ∈ items.map flagName
  | [], _, _, _, _, _, he, c, hc => by cases he; cases hc
  | .mk n (some s) :: rest, _, _, _, _, _, he, c, hc => by
    cases he with
    | value h1 he =>
      rcases List.mem_cons.1 hc with hc | hc
      · cases hc; exact List.mem_cons_self
      · exact List.mem_cons_of_mem _ (elabFlags_names he c hc)
  | .mk n none :: rest, _, _, _, _, _, he, c, hc => by
    cases he with
    | implicit h1 he =>
      rcases List.mem_cons.1 hc with hc | hc
      · cases hc; exact List.mem_cons_self
      · exact List.mem_cons_of_mem _ (elabFlags_names he c hc)

theorem elabTy_is {q : Prog} {h : Heap} : ∀ {ty : Ast.Ty} {sc : Scope} {t : AType}, ElabTy q h sc ty t → TyIs q ty t
  | .container _ _ _, _, _, he => by cases he; exact .container
  | .enum _ _, _, _, he => by cases he; exact .enum
  | .bitfield _ _, _, _, he => by cases he with | bitfield he => exact .bitfield (elabFlags_names he)
  | .scalar _, _, _, he => by cases he; exact .scalar
  | .f32, _, _, he => by cases he; exact .f32
  | .f64, _, _, he => by cases he; exact .f64
  | .bool, _, _, he => by cases he; exact .bool
  | .array el x len, _, _, he => by cases he with | array he _ => exact .array (elabTy_is he)
  | .ref n args, _, _, he => by cases he with | ref hf _ => exact .ref hf

/-- The scope shows what is in view. -/
structure Sees (q : Prog) (h : Heap) (sc : Scope) (V : InView) : Prop where
  named : ∀ (n : String) (f : FId) (x : AField), FieldVisible sc n f → h[f]? = some x → x.name = n
  fields : ∀ n, (∃ ty, nearest n V.fields = some ty) ↔ ∃ f, FieldVisible sc n f
  typed : ∀ (n : String) (f : FId) (x : AField) (ty : Ast.Ty), FieldVisible sc n f → h[f]? = some x →
    nearest n V.fields = some ty → TyIs q ty x.type
  params : ∀ n, (∃ ty, nearest n V.params = some ty) ↔ ∃ t, InputVisible sc n t
  inputs : ∀ (n : String) (t : AType) (ty : Ast.Ty), InputVisible sc n t → nearest n V.params = some ty → TyIs q ty t

theorem Sees.noField {q : Prog} {h : Heap} {sc : Scope} {V : InView} (s : Sees q h sc V) {n : String}
    (hn : ∀ f, ¬ FieldVisible sc n f) : nearest n V.fields = none := by
  cases he : nearest n V.fields with
  | none => rfl
  | some ty =>
    obtain ⟨f, hf⟩ := (s.fields n).1 ⟨ty, he⟩
    exact absurd hf (hn f)

theorem Sees.noParam {q : Prog} {h : Heap} {sc : Scope} {V : InView} (s : Sees q h sc V) {n : String}
    (hn : ∀ t, ¬ InputVisible sc n t) : nearest n V.params = none := by
  cases he : nearest n V.params with
  | none => rfl
  | some ty =>
    obtain ⟨f, hf⟩ := (s.params n).1 ⟨ty, he⟩
    exact absurd hf (hn f)

theorem no_field_top {n : String} {f : FId} : ¬ FieldVisible topScope n f := by
  intro hv
  cases hv with
  | here hg => simp [IMap.get] at hg
  | outer _ hv => cases hv

theorem no_input_top {n : String} {t : AType} : ¬ InputVisible topScope n t := by
  intro hv
  cases hv with
  | here hg => simp [IMap.get] at hg
  | outer _ hv => cases hv

theorem Sees.top {q : Prog} {h : Heap} : Sees q h topScope .top := by
  refine ⟨fun n f x hv => absurd hv no_field_top, fun n => ⟨?_, ?_⟩, fun n f x ty hv => absurd hv no_field_top,
    fun n => ⟨?_, ?_⟩, fun n t ty hv => absurd hv no_input_top⟩
  · rintro ⟨ty, h⟩; cases h
  · rintro ⟨f, hv⟩; exact absurd hv no_field_top
  · rintro ⟨ty, h⟩; cases h
  · rintro ⟨f, hv⟩; exact absurd hv no_input_top

/-- The fields of a frame, with what the text says of them. -/
inductive Frames (q : Prog) (h : Heap) : List (String × FId) → List (String × Ast.Ty) → Prop
  | nil : Frames q h [] []
  | cons {n f ty fs tys} : (∀ x : AField, h[f]? = some x → x.name = n ∧ TyIs q ty x.type) → Frames q h fs tys →
      Frames q h ((n, f) :: fs) ((n, ty) :: tys)

theorem Frames.none {q : Prog} {h : Heap} {fs : List (String × FId)} {tys : List (String × Ast.Ty)} (F : Frames q h fs tys)
    {n : String} {rest : List (String × Ast.Ty)} (hg : IMap.get fs n = none) :
    nearest n (tys ++ rest) = nearest n rest := by
  induction F with
  | nil => rfl
  | @cons m f ty fs tys h1 h2 ih =>
    simp only [IMap.get] at hg
    split at hg
    · cases hg
    · rename_i e
      rw [List.cons_append, nearest, if_neg e]
      exact ih hg

theorem Frames.some {q : Prog} {h : Heap} {fs : List (String × FId)} {tys : List (String × Ast.Ty)} (F : Frames q h fs tys)
    {n : String} {g : FId} {rest : List (String × Ast.Ty)} (hg : IMap.get fs n = some g) :
    ∃ ty, nearest n (tys ++ rest) = some ty ∧ ∀ x : AField, h[g]? = some x → x.name = n ∧ TyIs q ty x.type := by
  induction F with
  | nil => cases hg
  | @cons m f ty fs tys h1 h2 ih =>
    simp only [IMap.get] at hg
    rw [List.cons_append, nearest]
    split at hg
    · rename_i e
      cases hg
      subst e
      rw [if_pos rfl]
      exact ⟨ty, rfl, h1⟩
    · rename_i e
      rw [if_neg e]
      exact ih hg

/-- A frame of fields on top. -/
theorem Sees.cons {q : Prog} {h : Heap} {sc : Scope} {V : InView} (s : Sees q h sc V) {fs : List (String × FId)}
    {tys : List (String × Ast.Ty)} (F : Frames q h fs tys) : Sees q h (⟨fs, []⟩ :: sc) (V.with tys) := by
  refine ⟨fun n f x hv hx => ?_, fun n => ?_, fun n f x ty hv hx hn => ?_, fun n => (s.params n).trans ⟨?_, ?_⟩,
    fun n t ty hv hn => ?_⟩
  · cases hv with
    | here hg =>
      obtain ⟨ty, -, h2⟩ := F.some (rest := []) hg
      exact (h2 x hx).1
    | outer _ hv => exact s.named n f x hv hx
  · cases hg : IMap.get fs n with
    | some f =>
      obtain ⟨ty, h1, -⟩ := F.some (rest := V.fields) hg
      exact ⟨fun _ => ⟨f, .here hg⟩, fun _ => ⟨ty, h1⟩⟩
    | none =>
      simp only [InView.with, F.none (rest := V.fields) hg]
      rw [s.fields n]
      constructor
      · rintro ⟨f, hv⟩; exact ⟨f, .outer hg hv⟩
      · rintro ⟨f, hv⟩
        cases hv with
        | here hg' => simp only at hg'; rw [hg] at hg'; cases hg'
        | outer _ hv => exact ⟨f, hv⟩
  · cases hv with
    | here hg =>
      obtain ⟨ty', h1, h2⟩ := F.some (rest := V.fields) hg
      simp only [InView.with] at hn
      rw [h1] at hn
      cases hn
      exact (h2 x hx).2
    | outer hg hv =>
      simp only [InView.with, F.none (rest := V.fields) hg] at hn
      exact s.typed n f x ty hv hx hn
  · rintro ⟨f, hv⟩; exact ⟨f, .outer rfl hv⟩
  · rintro ⟨f, hv⟩
    cases hv with
    | here hg => simp [IMap.get] at hg
    | outer _ hv => exact ⟨f, hv⟩
  · cases hv with
    | here hg => simp [IMap.get] at hg
    | outer _ hv => exact s.inputs n t ty hv hn

theorem Sees.empty {q : Prog} {h : Heap} {sc : Scope} {V : InView} (s : Sees q h sc V) : Sees q h (⟨[], []⟩ :: sc) V :=
  s.cons .nil

/-- One more field declared. -/
theorem Sees.append {q : Prog} {h : Heap} {sc : Scope} {V : InView} {before : List (String × FId)} {n : String} {f : FId}
    {ty : Ast.Ty} (s : Sees q h (⟨before, []⟩ :: sc) V) {x : AField} (hx : h[f]? = some x) (hn : x.name = n)
    (ht : TyIs q ty x.type) (hnew : n ∉ before.map Prod.fst) :
    Sees q h (⟨before ++ [(n, f)], []⟩ :: sc) (V.and n ty) := by
  have hnone : IMap.get before n = none := IMap.get_none_iff.2 hnew
  have at_n : ∀ g, FieldVisible (⟨before ++ [(n, f)], []⟩ :: sc) n g → g = f := by
    intro g hv
    have hga : IMap.get (before ++ [(n, f)]) n = some f := by rw [get_concat, hnone]; exact if_pos rfl
    cases hv with
    | here h1 => simp only at h1; rw [hga] at h1; cases h1; rfl
    | outer h1 _ => simp only at h1; rw [hga] at h1; cases h1
  have else_n : ∀ m, m ≠ n → IMap.get (before ++ [(n, f)]) m = IMap.get before m := by
    intro m hm
    rw [get_concat]
    cases IMap.get before m with
    | some g => rfl
    | none => exact if_neg fun e => hm e.symm
  have other : ∀ m g, m ≠ n → (FieldVisible (⟨before ++ [(n, f)], []⟩ :: sc) m g ↔ FieldVisible (⟨before, []⟩ :: sc) m g) := by
    intro m g hm
    constructor
    · intro hv
      cases hv with
      | here h1 => simp only at h1; rw [else_n m hm] at h1; exact .here h1
      | outer h1 hv => simp only at h1; rw [else_n m hm] at h1; exact .outer h1 hv
    · intro hv
      cases hv with
      | here h1 => exact .here (by simp only at h1 ⊢; rw [else_n m hm]; exact h1)
      | outer h1 hv => exact .outer (by simp only at h1 ⊢; rw [else_n m hm]; exact h1) hv
  refine ⟨fun m g y hv hy => ?_, fun m => ?_, fun m g y ty' hv hy hm => ?_, fun m => (s.params m).trans ⟨?_, ?_⟩,
    fun m t ty' hv hm => ?_⟩
  · by_cases e : m = n
    · subst e
      cases at_n g hv
      rw [hx] at hy; cases hy; exact hn
    · exact s.named m g y ((other m g e).1 hv) hy
  · simp only [InView.and, nearest]
    by_cases e : m = n
    · subst e
      rw [if_pos rfl]
      refine ⟨fun _ => ⟨f, .here ?_⟩, fun _ => ⟨ty, rfl⟩⟩
      simp only [get_concat, hnone, if_true]
    · rw [if_neg fun e' => e e'.symm, s.fields m]
      exact ⟨fun ⟨g, hv⟩ => ⟨g, (other m g e).2 hv⟩, fun ⟨g, hv⟩ => ⟨g, (other m g e).1 hv⟩⟩
  · simp only [InView.and, nearest] at hm
    by_cases e : m = n
    · subst e
      rw [if_pos rfl] at hm
      cases hm
      cases at_n g hv
      rw [hx] at hy; cases hy; exact ht
    · rw [if_neg fun e' => e e'.symm] at hm
      exact s.typed m g y ty' ((other m g e).1 hv) hy hm
  · rintro ⟨t, hv⟩
    cases hv with
    | here hg => simp [IMap.get] at hg
    | outer _ hv => exact ⟨t, .outer rfl hv⟩
  · rintro ⟨t, hv⟩
    cases hv with
    | here hg => simp [IMap.get] at hg
    | outer _ hv => exact ⟨t, .outer rfl hv⟩
  · cases hv with
    | here hg => simp [IMap.get] at hg
    | outer _ hv => exact s.inputs m t ty' (.outer rfl hv) hm

/-- What the parameters of a declaration are, with what the text says of them. -/
inductive Inputs (q : Prog) : List (String × AType) → List (String × Ast.Ty) → Prop
  | nil : Inputs q [] []
  | cons {n t ty l tys} : TyIs q ty t → Inputs q l tys → Inputs q ((n, t) :: l) ((n, ty) :: tys)

theorem elabParams_inputs {p : Prog} {h : Heap} {outer : Scope} {inputs : List (String × AType)} {args : List Ast.TypeArg}
    {as : List AArg} (he : ElabParams p h outer inputs args as) :
    Inputs p (as.map fun a => (a.name, a.type)) (args.map fun a => (a.name, a.type)) := by
  induction he with
  | nil => exact .nil
  | cons h1 _ _ ih => exact .cons (elabTy_is h1) ih

theorem nearest_append (n : String) : ∀ (a b : List (String × Ast.Ty)),
    nearest n (a ++ b) = (nearest n a).or (nearest n b)
  | [], b => rfl
  | (m, ty) :: a, b => by
    rw [List.cons_append, nearest, nearest]
    split
    · rfl
    · exact nearest_append n a b

/-- The map of the parameters has the later one of two of one name, like the view. -/
theorem inputs_match {q : Prog} {l : List (String × AType)} {tys : List (String × Ast.Ty)} (I : Inputs q l tys) (n : String) :
    ∀ (m : List (String × AType)),
    (nearest n tys.reverse = none ∧ IMap.get (insertAll m l) n = IMap.get m n) ∨
    ∃ ty t, nearest n tys.reverse = some ty ∧ IMap.get (insertAll m l) n = some t ∧ TyIs q ty t := by
  induction I with
  | nil => exact fun m => .inl ⟨rfl, rfl⟩
  | @cons k t ty l tys h1 h2 ih =>
    intro m
    show (_ ∧ IMap.get (insertAll (IMap.insert m k t) l) n = _) ∨ ∃ ty' t', _ ∧ IMap.get (insertAll (IMap.insert m k t) l) n = _ ∧ _
    rw [List.reverse_cons, nearest_append]
    rcases ih (IMap.insert m k t) with ⟨e1, e2⟩ | ⟨ty', t', e1, e2, e3⟩
    · rw [e1, e2, IMap.get_insert]
      by_cases e : k = n
      · exact .inr ⟨ty, t, by simp [nearest, e], by rw [if_pos e], h1⟩
      · exact .inl ⟨by simp [nearest, e], by rw [if_neg e]⟩
    · exact .inr ⟨ty', t', by rw [e1]; rfl, e2, e3⟩

/-- Inside a declaration the parameters are in view. -/
theorem Sees.params_only {q : Prog} {h : Heap} {outer : Scope} {args : List Ast.TypeArg} {as : List AArg}
    (he : ElabParams q h outer [] args as) : Sees q h (paramFrame as :: topScope) (.start args) := by
  have I := elabParams_inputs he
  have noF : ∀ n f, ¬ FieldVisible (paramFrame as :: topScope) n f := by
    intro n f hv
    cases hv with
    | here hg => simp [paramFrame, IMap.get] at hg
    | outer _ hv => exact no_field_top hv
  refine ⟨fun n f x hv => absurd hv (noF n f), fun n => ⟨?_, ?_⟩, fun n f x ty hv => absurd hv (noF n f),
    fun n => ?_, fun n t ty hv hn => ?_⟩
  · rintro ⟨ty, h⟩; cases h
  · rintro ⟨f, hv⟩; exact absurd hv (noF n f)
  · rcases inputs_match I n [] with ⟨e1, e2⟩ | ⟨ty, t, e1, e2, -⟩
    · constructor
      · rintro ⟨ty, h1⟩
        rw [InView.start, e1] at h1; cases h1
      · rintro ⟨t, hv⟩
        cases hv with
        | here hg => simp only [paramFrame] at hg; rw [e2] at hg; cases hg
        | outer _ hv => exact absurd hv no_input_top
    · exact ⟨fun _ => ⟨t, .here e2⟩, fun _ => ⟨ty, e1⟩⟩
  · rcases inputs_match I n [] with ⟨e1, e2⟩ | ⟨ty', t', e1, e2, e3⟩
    · rw [InView.start, e1] at hn; cases hn
    · rw [InView.start, e1] at hn
      cases hn
      cases hv with
      | here hg => simp only [paramFrame] at hg; rw [e2] at hg; cases hg; exact e3
      | outer _ hv => exact absurd hv no_input_top

/-! ## Declarations -/

/-- What is known of a declared type. -/
theorem Made.cell {env : Env} {h : Heap} {ast : Ast.Program} {p : Prog} (hm : Made env h ast p)
    {name : String} {args : List Ast.TypeArg} {f : Ast.Field} (hd : .type name args f ∈ ast) {id : FId}
    (hg : IMap.get p.types name = some id) : ∃ x : AField, h[id]? = some x ∧ x.name = name ∧
      ElabParams p h topScope [] args x.arguments ∧ ElabMid p h (paramFrame x.arguments :: topScope) f x ∧
      ElabOpt p h (paramFrame x.arguments :: topScope) (calcOf f) x.calculated ∧ RepNamed name x.type ∧
      DistinctDecl (.type name args f) ∧ Deep h id := by
  have he := hm.elab _ hd
  have hdeep := hm.deep hd hg
  cases hm with
  | mk h1 h2 h3 h4 =>
    have hdi := (duplicates_rejected _ _ _ _ _ _ h3).inside _ hd
    cases he with
    | type g1 g2 g3 g4 g5 g6 g7 g8 =>
      rw [hg] at g1
      cases g1
      exact ⟨_, g2, g3, g5, g6, g7, g8, hdi, hdeep⟩

theorem elabParams_names {p : Prog} {h : Heap} {outer : Scope} {inputs : List (String × AType)} {args : List Ast.TypeArg}
    {as : List AArg} (he : ElabParams p h outer inputs args as) : as.map (·.name) = args.map (·.name) := by
  induction he with
  | nil => rfl
  | cons _ _ _ ih => simp [ih]

/-! ## Values of variants and flags -/

/-- The value of a variant or flag in the graph. -/
inductive ElabValue (p : Prog) (h : Heap) (sc : Scope) (op : BinOp) (rep : EScalar) : ValueSrc → AExpr → Prop
  | own {s v} : ElabE p h sc s v → Grounded h v → ElabValue p h sc op rep (.own s) v
  | after {m t s v k i} : ElabE p h sc s v → Grounded h v → CInt.parse rep.scalar (toString k).toList = some i →
      ElabValue p h sc op rep (.after m s k) (.binary op (.constRef (.mk m t v)) (.int i rep.scalar))

/-- The last explicit item. -/
def LastIs (p : Prog) (h : Heap) (sc : Scope) (last : Option AConst) (src : Option (String × Ast.Expression)) : Prop :=
  ∀ c, last = some c → ∃ s, src = some (c.name, s) ∧ ElabE p h sc s c.value ∧ Grounded h c.value

theorem LastIs.none {p : Prog} {h : Heap} {sc : Scope} : LastIs p h sc none none := fun _ h => by cases h

theorem elabVariants_names {p : Prog} {h : Heap} : ∀ {items : List Ast.EnumItem} {sc : Scope} {rep : EScalar}
    {last : Option AConst} {k : Nat} {vs : List AVariant}, ElabVariants p h sc rep last k items vs →
    ∀ c, .value c ∈ vs → c.name ∈ items.map itemName
  | [], _, _, _, _, _, he, c, hc => by cases he; cases hc
  | .mk n .default :: rest, _, _, _, _, _, he, c, hc => by
    cases he with
    | default he =>
      rcases List.mem_cons.1 hc with hc | hc
      · cases hc
      · exact List.mem_cons_of_mem _ (elabVariants_names he c hc)
  | .mk n (.expr s) :: rest, _, _, _, _, _, he, c, hc => by
    cases he with
    | value h1 he =>
      rcases List.mem_cons.1 hc with hc | hc
      · cases hc; exact List.mem_cons_self
      · exact List.mem_cons_of_mem _ (elabVariants_names he c hc)
  | .mk n .none :: rest, _, _, _, _, _, he, c, hc => by
    cases he with
    | implicit h1 he =>
      rcases List.mem_cons.1 hc with hc | hc
      · cases hc; exact List.mem_cons_self
      · exact List.mem_cons_of_mem _ (elabVariants_names he c hc)

theorem elabVariants_value {p : Prog} {h : Heap} : ∀ {items : List Ast.EnumItem} {sc : Scope} {rep : EScalar}
    {last : Option AConst} {k : Nat} {vs : List AVariant} {src : Option (String × Ast.Expression)},
    ElabVariants p h sc rep last k items vs → (items.map itemName).Nodup → LastIs p h sc last src →
    (∀ c, .value c ∈ vs → Grounded h c.value) → ∀ c, .value c ∈ vs → ∃ v, enumValue src k items c.name = some v ∧ ElabValue p h sc .add rep v c.value
  | [], _, _, _, _, _, _, he, _, _, _, c, hc => by cases he; cases hc
  | .mk n .default :: rest, _, _, _, _, _, _, he, hn, hl, hg, c, hc => by
    rw [List.map_cons, List.nodup_cons] at hn
    cases he with
    | default he =>
      rcases List.mem_cons.1 hc with hc | hc
      · cases hc
      · rw [enumValue]
        exact elabVariants_value he hn.2 hl (fun c hc => hg c (List.mem_cons_of_mem _ hc)) c hc
  | .mk n (.expr s) :: rest, _, _, _, _, _, _, he, hn, hl, hg, c, hc => by
    rw [List.map_cons, List.nodup_cons] at hn
    cases he with
    | value h1 he =>
      rcases List.mem_cons.1 hc with hc | hc
      · cases hc
        exact ⟨.own s, by rw [enumValue]; exact if_pos rfl, .own h1 (hg _ List.mem_cons_self)⟩
      · rw [enumValue, if_neg (fun (e : n = c.name) => hn.1 (show n ∈ _ from e ▸ elabVariants_names he c hc))]
        exact elabVariants_value he hn.2 (fun c hc => by cases hc; exact ⟨s, rfl, h1, hg _ List.mem_cons_self⟩)
          (fun c hc => hg c (List.mem_cons_of_mem _ hc)) c hc
  | .mk n .none :: rest, _, _, _, _, _, _, he, hn, hl, hg, c, hc => by
    rw [List.map_cons, List.nodup_cons] at hn
    cases he with
    | implicit h1 he =>
      rcases List.mem_cons.1 hc with hc | hc
      · cases hc
        obtain ⟨⟨m, t, v⟩, i, h2, -, h3, h4⟩ := h1
        obtain ⟨s, h5, h6, h7⟩ := hl _ h2
        subst h4 h5
        exact ⟨.after m s _, by rw [enumValue]; exact if_pos rfl, .after h6 h7 h3⟩
      · rw [enumValue, if_neg (fun (e : n = c.name) => hn.1 (show n ∈ _ from e ▸ elabVariants_names he c hc))]
        exact elabVariants_value he hn.2 hl (fun c hc => hg c (List.mem_cons_of_mem _ hc)) c hc

theorem elabFlags_value {p : Prog} {h : Heap} : ∀ {items : List Ast.BitItem} {sc : Scope} {rep : EScalar}
    {last : Option AConst} {k : Nat} {vs : List AConst} {src : Option (String × Ast.Expression)},
    ElabFlags p h sc rep last k items vs → (items.map flagName).Nodup → LastIs p h sc last src →
    (∀ c ∈ vs, Grounded h c.value) → ∀ c ∈ vs, ∃ v, flagValue src k items c.name = some v ∧ ElabValue p h sc .shl rep v c.value
  | [], _, _, _, _, _, _, he, _, _, _, c, hc => by cases he; cases hc
  | .mk n (some s) :: rest, _, _, _, _, _, _, he, hn, hl, hg, c, hc => by
    rw [List.map_cons, List.nodup_cons] at hn
    cases he with
    | value h1 he =>
      rcases List.mem_cons.1 hc with hc | hc
      · cases hc
        exact ⟨.own s, by rw [flagValue]; exact if_pos rfl, .own h1 (hg _ List.mem_cons_self)⟩
      · rw [flagValue, if_neg (fun (e : n = c.name) => hn.1 (show n ∈ _ from e ▸ elabFlags_names he c hc))]
        exact elabFlags_value he hn.2 (fun c hc => by cases hc; exact ⟨s, rfl, h1, hg _ List.mem_cons_self⟩)
          (fun c hc => hg c (List.mem_cons_of_mem _ hc)) c hc
  | .mk n none :: rest, _, _, _, _, _, _, he, hn, hl, hg, c, hc => by
    rw [List.map_cons, List.nodup_cons] at hn
    cases he with
    | implicit h1 he =>
      rcases List.mem_cons.1 hc with hc | hc
      · cases hc
        obtain ⟨⟨m, t, v⟩, i, h2, -, h3, h4⟩ := h1
        obtain ⟨s, h5, h6, h7⟩ := hl _ h2
        subst h4 h5
        exact ⟨.after m s _, by rw [flagValue]; exact if_pos rfl, .after h6 h7 h3⟩
      · rw [flagValue, if_neg (fun (e : n = c.name) => hn.1 (show n ∈ _ from e ▸ elabFlags_names he c hc))]
        exact elabFlags_value he hn.2 hl (fun c hc => hg c (List.mem_cons_of_mem _ hc)) c hc

theorem parse_count {k : Scalar} {n : Nat} {i : CInt} (h : CInt.parse k (toString n).toList = some i) : i = ⟨k, n⟩ := by
  have e : (toString n).toList = Nat.toDigits 10 n := Nat.toList_repr
  rw [e, decimal_literal_round_trip] at h
  split at h <;> cases h
  rfl

/-! ## Expressions -/

/-- What is known of the type of an expression. -/
def Known (env : Env) (h : Heap) (τ : Written) (e : AExpr) : Prop :=
  ∀ home ty, τ = some (home, ty) → ∀ o, getType h e = .ok o → ∃ t q, o = some t ∧ Made env h home q ∧ TyIs q ty t

theorem Known.none {env : Env} {h : Heap} {e : AExpr} : Known env h none e := fun _ _ h => by cases h

theorem Known.of {env : Env} {h : Heap} {home : Ast.Program} {q : Prog} {ty : Ast.Ty} {t : AType} {e : AExpr}
    (hm : Made env h home q) (ht : TyIs q ty t) (hg : ∀ o, getType h e = .ok o → o = some t) :
    Known env h (some (home, ty)) e := by
  intro home' ty' e' o ho
  cases e'
  exact ⟨t, q, hg o ho, hm, ht⟩

/-- What is found behind a type of the graph. -/
inductive FoundIs (env : Env) (h : Heap) : Found → AType → Prop
  | itself {q ty r} : TyIs q ty r → r.isRef = false → FoundIs env h (.itself ty) r
  | declared {home q m params ty flags cal cond xs f x} : Made env h home q →
      .type m params (.mk ty flags cal cond xs) ∈ home → IMap.get q.types m = some f → h[f]? = some x →
      ElabTy q h (paramFrame x.arguments :: topScope) ty x.type → FoundIs env h (.declared home params ty) x.type
  | foreign {m} : FoundIs env h .foreign (.foreign m)

theorem finds_says {env : Env} {h : Heap} : ∀ (N : Nat) {text : Ast.Program} {q : Prog} {ty : Ast.Ty} {t r : AType},
    Made env h text q → TyIs q ty t → resolvedN h N t = .ok r →
    ∃ fnd, Finds (modulesOf env) text ty fnd ∧ FoundIs env h fnd r := by
  intro N
  induction N with
  | zero =>
    intro text q ty t r hm ht hr
    cases ht with
    | ref => cases hr
    | scalar => cases hr; exact ⟨_, .itself (by simp), .itself (.scalar (q := q)) rfl⟩
    | f32 => cases hr; exact ⟨_, .itself (by simp), .itself (.f32 (q := q)) rfl⟩
    | f64 => cases hr; exact ⟨_, .itself (by simp), .itself (.f64 (q := q)) rfl⟩
    | bool => cases hr; exact ⟨_, .itself (by simp), .itself (.bool (q := q)) rfl⟩
    | array ht => cases hr; exact ⟨_, .itself (by simp), .itself (.array ht) rfl⟩
    | container => cases hr; exact ⟨_, .itself (by simp), .itself (.container (q := q)) rfl⟩
    | enum => cases hr; exact ⟨_, .itself (by simp), .itself (.enum (q := q)) rfl⟩
    | bitfield ht => cases hr; exact ⟨_, .itself (by simp), .itself (.bitfield (q := q) ht) rfl⟩
  | succ N ih =>
    intro text q ty t r hm ht hr
    cases ht with
    | scalar => cases hr; exact ⟨_, .itself (by simp), .itself (.scalar (q := q)) rfl⟩
    | f32 => cases hr; exact ⟨_, .itself (by simp), .itself (.f32 (q := q)) rfl⟩
    | f64 => cases hr; exact ⟨_, .itself (by simp), .itself (.f64 (q := q)) rfl⟩
    | bool => cases hr; exact ⟨_, .itself (by simp), .itself (.bool (q := q)) rfl⟩
    | array ht => cases hr; exact ⟨_, .itself (by simp), .itself (.array ht) rfl⟩
    | container => cases hr; exact ⟨_, .itself (by simp), .itself (.container (q := q)) rfl⟩
    | enum => cases hr; exact ⟨_, .itself (by simp), .itself (.enum (q := q)) rfl⟩
    | bitfield ht => cases hr; exact ⟨_, .itself (by simp), .itself (.bitfield (q := q) ht) rfl⟩
    | @ref n f args args' hn =>
      simp only [resolvedN, rbind_ok, deref_ok] at hr
      obtain ⟨x, hx, hr⟩ := hr
      rcases hm.typeOrigin n f hn with ⟨home, q', m, params, fld, ho, hm', hd, hg⟩ | ⟨home, m, ho, y, hy, hyt⟩
      · obtain ⟨y, g1, g2, g3, g4, g5, g6, g7, g8⟩ := hm'.cell hd hg
        rw [hx] at g1; cases g1
        cases fld with
        | mk ty flags cal cond xs =>
        cases g4 with
        | mk hf ht hc hxs =>
        by_cases hre : ∃ n' args', ty = .ref n' args'
        · obtain ⟨n', args', rfl⟩ := hre
          obtain ⟨fnd, h1, h2⟩ := ih hm' (elabTy_is ht) hr
          exact ⟨fnd, .alias ho h1, h2⟩
        · have hre : ∀ n' args', ty ≠ .ref n' args' := fun n' args' e => hre ⟨n', args', e⟩
          have hnr : x.type.isRef = false := by
            generalize x.type = t at ht
            cases ht <;> first | rfl | exact absurd rfl (hre _ _)
          rw [resolvedN_plain hnr] at hr
          cases hr
          exact ⟨_, .declared ho hre, .declared hm' hd hg hx ht⟩
      · rw [hx] at hy; cases hy
        rw [hyt] at hr
        cases N <;> cases hr <;> exact ⟨_, .foreign ho, .foreign⟩

theorem finds_resolve {env : Env} {h : Heap} {text : Ast.Program} {q : Prog} {ty : Ast.Ty} {t r : AType}
    (hm : Made env h text q) (ht : TyIs q ty t) (hr : resolve h t = .ok r) :
    ∃ fnd, Finds (modulesOf env) text ty fnd ∧ FoundIs env h fnd r := finds_says _ hm ht hr

theorem FoundIs.shape {env : Env} {h : Heap} {fnd : Found} {r : AType} (hf : FoundIs env h fnd r) :
    (fnd = .foreign ∧ ∃ m, r = .foreign m) ∨ ∃ q ty, TyIs q ty r ∧ fnd.source = sourceOf ty ∧ fnd.size = fixedSize ty := by
  cases hf with
  | itself ht => exact .inr ⟨_, _, ht, rfl, rfl⟩
  | declared _ _ _ _ ht => exact .inr ⟨_, _, elabTy_is ht, rfl, rfl⟩
  | foreign => exact .inl ⟨rfl, _, rfl⟩

theorem bind_ok' {α β : Type} {x : G α} {f : α → G β} {b : β} : x.bind f = .ok b ↔ ∃ a, x = .ok a ∧ f a = .ok b :=
  gbind_ok (x := x) (f := f)

theorem _root_.Verif.Finds.plain {ms : Modules} {text : Ast.Program} {ty : Ast.Ty} {fnd : Found} (hf : Finds ms text ty fnd) :
    ∀ ty', fnd = .itself ty' → ∀ n args, ty ≠ .ref n args := by
  induction hf with
  | itself h => exact fun _ _ => h
  | declared => intro _ e; cases e
  | alias _ _ ih => exact fun ty' e => absurd rfl (ih ty' e _ _)
  | foreign => intro _ e; cases e

theorem _root_.Verif.Finds.own {ms : Modules} {text : Ast.Program} {ty ty' : Ast.Ty} (hf : Finds ms text ty (.itself ty')) :
    ty' = ty := by
  have hp := hf.plain ty' rfl
  cases hf with
  | itself => rfl
  | alias => exact absurd rfl (hp _ _)

/-- How a value is converted is what the text says. -/
theorem castSource_says {env : Env} {h : Heap} {τ : Written} {e : AExpr} {src : CastSrc} (hk : Known env h τ e)
    (hl : castSource h e = .ok src) : Source (modulesOf env) τ src := by
  cases τ with
  | none => exact .unknown
  | some w =>
    obtain ⟨home, ty⟩ := w
    unfold castSource typeOfG at hl
    simp only [bind_ok', ofR_ok] at hl
    obtain ⟨t, ⟨o, ho, hl1⟩, r, hr, hl2⟩ := hl
    obtain ⟨t', q, e1, hm, ht⟩ := hk home ty rfl o ho
    subst e1
    cases hl1
    obtain ⟨fnd, h1, h2⟩ := finds_resolve hm ht hr
    suffices src = fnd.source by subst this; exact .known h1
    rcases h2.shape with ⟨rfl, m, rfl⟩ | ⟨q', ty', h3, h4, -⟩
    · cases hl2; rfl
    · rw [h4]
      cases h3 <;> cases hl2 <;> rfl

/-- The size of a value is what the text says. -/
theorem lenSize_says {env : Env} {h : Heap} {τ : Written} {e : AExpr} {t : AType} {size : Option Nat}
    (hk : Known env h τ e) (ht : typeOfG h e = .ok t) (hl : lenSize h t = .ok size) :
    Size (modulesOf env) τ size := by
  cases τ with
  | none => exact .unknown
  | some w =>
    obtain ⟨home, ty⟩ := w
    unfold typeOfG at ht
    unfold lenSize at hl
    simp only [bind_ok', ofR_ok] at hl ht
    obtain ⟨r, hr, hl2⟩ := hl
    obtain ⟨o, ho, hl1⟩ := ht
    obtain ⟨t', q, e1, hm, ht⟩ := hk home ty rfl o ho
    subst e1
    cases hl1
    obtain ⟨fnd, h1, h2⟩ := finds_resolve hm ht hr
    suffices size = fnd.size by subst this; exact .known h1
    rcases h2.shape with ⟨rfl, m, rfl⟩ | ⟨q', ty', h3, -, h4⟩
    · cases hl2; rfl
    · rw [h4]
      cases h3 <;> cases hl2 <;> rfl

/-- What is said of expressions of bounded size. -/
def SaysBelow (env : Env) (h : Heap) (N : Nat) : Prop :=
  ∀ {text : Ast.Program} {q : Prog} {sc : Scope} {V : InView} {src : Ast.Expression} {e : AExpr} {e' : Expr},
    sizeOf e < N → Made env h text q → Sees q h sc V → ElabE q h sc src e → Grounded h e → lowerE h e = .ok e' →
    ∃ τ, SaysE (modulesOf env) text V src e' τ ∧ Known env h τ e

theorem lowerValue_says {env : Env} {h : Heap} {N : Nat} (ih : SaysBelow env h N) {text : Ast.Program} {q : Prog}
    {sc : Scope} {V : InView} {op : BinOp} {rep : EScalar} {src : ValueSrc} {e : AExpr} {e' : Expr}
    (hN : sizeOf e < N) (hm : Made env h text q) (hs : Sees q h sc V) (he : ElabValue q h sc op rep src e)
    (hl : lowerE h e = .ok e') : SaysValue (modulesOf env) text V op rep src e' := by
  cases he with
  | own h1 hg =>
    obtain ⟨τ, h2, -⟩ := ih hN hm hs h1 hg hl
    exact .own h2
  | after h1 hg h2 =>
    cases parse_count h2
    simp only [lowerE, gbind_ok] at hl
    obtain ⟨l, ⟨v', hv, hl⟩, r, hr, hl'⟩ := hl
    cases hl; cases hr; cases hl'
    obtain ⟨τ, h3, -⟩ := ih (by simp at hN; omega) hm hs h1 hg hv
    exact .after h3

/-- A variant or flag of a type. -/
theorem lowerItem_says {env : Env} {h : Heap} {N : Nat} (ih : SaysBelow env h N) {text : Ast.Program} {q : Prog}
    {V : InView} {n v : String} {f : FId} {c : AConst} {x : AField} {e' : Expr} (hN : sizeOf c.value < N)
    (hm : Made env h text q) (hn : IMap.get q.types n = some f) (hv : c.name = v) (hi : HasItem h f c)
    (hx : h[f]? = some x) (hl : lowerE h c.value = .ok e') :
    ∃ τ, SaysC (modulesOf env) text V (.enumAccess n v) (.enumAccess x.name v e') τ ∧ Known env h τ (.enumAccess f c) := by
  obtain ⟨x', hx', hi⟩ := hi
  rw [hx] at hx'; cases hx'
  have typed : ∀ o, getType h (.enumAccess f c) = .ok o → o = some x.type := by
    intro o ho
    rw [getType, deref_some hx] at ho
    cases ho
    rfl
  rcases hm.typeOrigin n f hn with ⟨home, q', m, args, fld, ho, hm', hd, hg⟩ | ⟨home, m, -, y, hy, hyt⟩
  · obtain ⟨y, g1, g2, g3, g4, g5, g6, g7, g8⟩ := hm'.cell hd hg
    rw [hx] at g1; cases g1
    have hs := Sees.params_only g3
    have gt := (g8 x hx).1.type
    subst g2 hv
    cases fld with
    | mk ty flags cal cond xs =>
      cases g4 with
      | mk hf ht hc hxs =>
        have ht' := elabTy_is ht
        rcases hi with ⟨tg, nm, rep, items, e, hi⟩ | ⟨tg, nm, rep, items, e, hi⟩
        · rw [e] at ht gt
          cases ht with
          | enum he =>
            obtain ⟨src, h1, h2⟩ := elabVariants_value he g7.2 LastIs.none gt c hi
            exact ⟨_, .variant ho h1 (lowerValue_says ih hN hm' hs h2 hl), .of hm' ht' typed⟩
        · rw [e] at ht gt
          cases ht with
          | bitfield he =>
            obtain ⟨src, h1, h2⟩ := elabFlags_value he g7.2 LastIs.none gt c hi
            exact ⟨_, .flag ho h1 (lowerValue_says ih hN hm' hs h2 hl), .of hm' ht' typed⟩
  · rw [hx] at hy; cases hy
    rw [hyt] at hi
    rcases hi with ⟨_, _, _, _, h, _⟩ | ⟨_, _, _, _, h, _⟩ <;> cases h

/-- A flag of the type of an expression. -/
theorem lowerMember_says {env : Env} {h : Heap} {N : Nat} (ih : SaysBelow env h N) {text : Ast.Program} {q : Prog}
    {V : InView} {src : Ast.Expression} {m : String} {e : AExpr} {c : AConst} {τ : Written} {e' v' : Expr}
    (hN : sizeOf c.value < N) (hm : Made env h text q) (hv : c.name = m) (hk : Known env h τ e)
    (hf : HasFlag h e c) (h1 : SaysE (modulesOf env) text V src e' τ) (hl : lowerE h c.value = .ok v') :
    ∃ σ, SaysC (modulesOf env) text V (.member src m) (.member e' m v') σ ∧ Known env h σ (.member e c) := by
  obtain ⟨t, ht, tg, nm, rep, items, hr, hc⟩ := hf
  have typed : Known env h (some (text, .bool)) (.member e c) := by
    refine .of hm .bool fun o ho => ?_
    unfold HasType at ht
    rw [getType, ht] at ho
    replace ho : memberType h (some t) = .ok o := ho
    rw [memberType, hr] at ho
    cases ho
    rfl
  refine ⟨some (text, .bool), ?_, typed⟩
  cases τ with
  | none => exact .memberUnknown h1
  | some w =>
    obtain ⟨home, ty⟩ := w
    obtain ⟨t', q', e1, hm', ht'⟩ := hk home ty rfl _ ht
    cases e1
    obtain ⟨fnd, h2, h3⟩ := finds_resolve hm' ht' hr
    subst hv
    generalize e1 : AType.bitfield tg nm rep items = r at h3
    cases h3 with
    | foreign => cases e1
    | itself h3 h4 =>
      subst e1
      cases h2.own
      cases h3 with
      | bitfield h3 => exact .memberInside h1 (h3 c hc)
    | @declared home' q'' k params ty' flags cal cond xs f x hm'' hd hg hx hty =>
      obtain ⟨y, g1, g2, g3, g4, g5, g6, g7, g8⟩ := hm''.cell hd hg
      rw [hx] at g1; cases g1
      have hs := Sees.params_only g3
      have gt := (g8 x hx).1.type
      rw [← e1] at hty gt
      cases hty with
      | bitfield he =>
        obtain ⟨src', h4, h5⟩ := elabFlags_value he g7.2 LastIs.none gt c hc
        exact .member h1 h2 h4 (lowerValue_says ih hN hm'' hs h5 hl)

theorem castTarget_says {p : Prog} {h : Heap} {sc : Scope} {ty : Ast.Ty} {t : AType} {k : CastTy} (he : ElabTy p h sc ty t)
    (hl : castTarget t = .ok k) : k = targetOf ty := by
  unfold castTarget at hl
  split at hl
  · cases he <;> cases hl <;> rfl
  · cases hl

/-- A name. -/
theorem lowerName_says {env : Env} {h : Heap} {N : Nat} (ih : SaysBelow env h N) {text : Ast.Program} {q : Prog}
    {sc : Scope} {V : InView} {n : String} {e : AExpr} {e' : Expr} (hN : sizeOf e < N + 1)
    (hm : Made env h text q) (hs : Sees q h sc V) (hd : Denotes q sc n e) (hl : lowerE h e = .ok e') :
    ∃ τ, SaysC (modulesOf env) text V (.ref n) e' τ ∧ Known env h τ e := by
  cases hd with
  | @field f hv =>
    simp only [lowerE, gbind_ok, ofR_ok, deref_ok] at hl
    obtain ⟨x, hx, hl⟩ := hl
    split at hl
    · cases hl
    · cases hl
      rw [hs.named n _ x hv hx]
      obtain ⟨ty, hty⟩ := (hs.fields n).2 ⟨_, hv⟩
      refine ⟨_, .field hty, .of hm (hs.typed n f x ty hv hx hty) fun o ho => ?_⟩
      rw [getType, deref_some hx] at ho
      cases ho
      rfl
  | input h1 h2 =>
    rw [lowerE] at hl
    cases hl
    obtain ⟨ty, hty⟩ := (hs.params n).2 ⟨_, h2⟩
    exact ⟨_, .param (hs.noField h1) hty, .of hm (hs.inputs n _ ty h2 hty) fun o ho => by cases ho; rfl⟩
  | @const c h1 h2 h3 =>
    obtain ⟨home, q', m, ty, v, ho, hm', hd, hg⟩ := hm.constOrigin n c h3
    have gr := hm'.constGrounded hd hg
    have he := hm'.elab _ hd
    cases he with
    | const g1 g2 g3 =>
      rw [hg] at g1
      cases g1
      simp only [lowerE, gbind_ok] at hl
      obtain ⟨v', hv, hl⟩ := hl
      cases hl
      obtain ⟨τ, h4, -⟩ := ih (by simp at hN; omega) hm' Sees.top g3 gr hv
      exact ⟨_, .const (hs.noField h1) (hs.noParam h2) ho h4, .of hm' (elabTy_is g2) fun o ho => by cases ho; rfl⟩

theorem elabArgs_one {p : Prog} {h : Heap} {sc : Scope} {src : List Ast.Expression} {a : AExpr}
    (he : ElabArgs p h sc src [a]) : ∃ s, src = [s] ∧ ElabE p h sc s a := by
  cases he with
  | cons h1 h2 => cases h2; exact ⟨_, rfl, h1⟩

theorem truthOp_eq (op : BinOp) : truthOp op = boolOp op := by cases op <;> rfl

theorem lowerC_says {env : Env} [Builtins env] {h : Heap} {N : Nat} (ih : SaysBelow env h N) {text : Ast.Program} {q : Prog}
    {sc : Scope} {V : InView} {src : Ast.Expression} {e : AExpr} {e' : Expr} (hN : sizeOf e < N + 1)
    (hm : Made env h text q) (hs : Sees q h sc V) (he : ElabC q h sc src e) (hg : Grounded h e)
    (hl : lowerE h e = .ok e') : ∃ τ, SaysC (modulesOf env) text V src e' τ ∧ Known env h τ e := by
  cases he with
  | @binary _ op a b a' b' h1 h2 =>
    simp only [lowerE, gbind_ok] at hl
    obtain ⟨l, hl1, r, hr1, hl⟩ := hl
    cases hl
    simp at hN
    obtain ⟨τ, i1, k1⟩ := ih (by omega) hm hs h1 hg.1 hl1
    obtain ⟨σ, i2, -⟩ := ih (by omega) hm hs h2 hg.2 hr1
    refine ⟨_, .binary i1 i2, ?_⟩
    intro home ty e1 o ho
    rw [joined, truthOp_eq] at e1
    rw [getType] at ho
    split at e1
    · rename_i hb
      cases e1
      rw [if_pos hb] at ho
      cases ho
      exact ⟨_, q, rfl, hm, .bool⟩
    · rename_i hb
      rw [if_neg hb] at ho
      simp only [rbind_ok] at ho
      obtain ⟨t1, ht1, t2, -, ho⟩ := ho
      obtain ⟨t, q', rfl, hm', ht⟩ := k1 home ty e1 t1 ht1
      cases ho
      exact ⟨t, q', rfl, hm', ht⟩
  | unary h1 =>
    simp only [lowerE, gbind_ok] at hl
    obtain ⟨l, hl1, hl⟩ := hl
    cases hl
    simp at hN
    obtain ⟨τ, i1, k1⟩ := ih (by omega) hm hs h1 hg hl1
    exact ⟨τ, .unary i1, fun home ty e1 o ho => k1 home ty e1 o (by rw [getType] at ho; exact ho)⟩
  | cast h1 h2 =>
    simp only [lowerE, gbind_ok] at hl
    obtain ⟨l, hl1, k, hk, s, hsrc, hl⟩ := hl
    cases hl
    simp at hN
    rw [castTarget_says h2 hk]
    obtain ⟨τ, i1, k1⟩ := ih (by omega) hm hs h1 hg hl1
    exact ⟨_, .cast i1 (castSource_says k1 hsrc), .of hm (elabTy_is h2) fun o ho => by cases ho; rfl⟩
  | index h1 h2 =>
    simp only [lowerE, gbind_ok] at hl
    obtain ⟨l, hl1, r, hr1, hl⟩ := hl
    cases hl
    simp at hN
    obtain ⟨τ, i1, k1⟩ := ih (by omega) hm hs h1 hg.1 hl1
    obtain ⟨σ, i2, -⟩ := ih (by omega) hm hs h2 hg.2 hr1
    refine ⟨_, .index i1 i2, ?_⟩
    intro home ty e1 o ho
    unfold elementOf at e1
    split at e1
    · cases e1
      simp only [getType, rbind_ok] at ho
      obtain ⟨t1, ht1, ho⟩ := ho
      obtain ⟨t, q', rfl, hm', ht⟩ := k1 _ _ rfl t1 ht1
      cases ht with
      | array ht =>
        cases ho
        exact ⟨_, q', rfl, hm', ht⟩
    · cases e1
  | @enumAccess _ n v f c h1 h2 =>
    obtain ⟨m, t, w⟩ := c
    simp only [lowerE, gbind_ok, ofR_ok, deref_ok] at hl
    obtain ⟨x, hx, l, hl1, hl⟩ := hl
    cases hl
    simp at hN
    cases h2
    exact lowerItem_says ih (c := .mk m t w) (by simp only [AConst.value]; omega) hm h1 rfl hg hx hl1
  | int h1 h2 =>
    rw [lowerE] at hl
    cases hl
    exact ⟨_, .int h1 h2, .of hm .scalar fun o ho => by cases ho; rfl⟩
  | ref h1 => exact lowerName_says ih hN hm hs h1 hl
  | str =>
    rw [lowerE] at hl
    cases hl
    exact ⟨_, .str, .of hm (.array .scalar) fun o ho => by cases ho; rfl⟩
  | ternary h1 h2 h3 =>
    simp only [lowerE, gbind_ok] at hl
    obtain ⟨l, hl1, r, hr1, w, hw, hl⟩ := hl
    cases hl
    simp at hN
    obtain ⟨τ, i1, -⟩ := ih (by omega) hm hs h1 hg.1 hl1
    obtain ⟨σ, i2, k2⟩ := ih (by omega) hm hs h2 hg.2.1 hr1
    obtain ⟨ρ, i3, -⟩ := ih (by omega) hm hs h3 hg.2.2 hw
    refine ⟨_, .ternary i1 i2 i3, ?_⟩
    intro home ty e1 o ho
    simp only [getType, rbind_ok] at ho
    obtain ⟨t1, ht1, ho⟩ := ho
    obtain ⟨t, q', rfl, hm', ht⟩ := k2 home ty e1 t1 ht1
    cases ho
    exact ⟨t, q', rfl, hm', ht⟩
  | bool =>
    rw [lowerE] at hl
    cases hl
    exact ⟨_, .bool, .of hm .bool fun o ho => by cases ho; rfl⟩
  | @call _ fn sig _ args' h1 h2 =>
    have ret : ∀ n, fn = n → n ∈ ["len", "blen", "sum", "bits", "pad"] →
        Known env h (some (text, .scalar (returned n).toE)) (.call fn sig.ret args') := by
      intro n e hn
      subst e
      refine .of hm .scalar fun o ho => ?_
      cases ho
      rw [hm.builtin hn h1]
    unfold lowerE at hl
    split at hl
    all_goals try (rename_i hx; cases hx; done)
    all_goals (rename_i hx; injection hx with e1 e2 e3; subst e1 e3)
    · obtain ⟨s, rfl, h3⟩ := elabArgs_one h2
      simp only [gbind_ok] at hl
      obtain ⟨t, ht, k, hk, a', ha, hl⟩ := hl
      cases hl
      simp at hN
      obtain ⟨τ, i1, k1⟩ := ih (by omega) hm hs h3 hg.1 ha
      exact ⟨_, .len i1 (lenSize_says k1 ht hk), ret _ rfl (by simp)⟩
    · obtain ⟨s, rfl, h3⟩ := elabArgs_one h2
      simp only [gbind_ok] at hl
      obtain ⟨k, hk, hl⟩ := hl
      cases hl
      unfold blenTarget at hk
      split at hk
      · rename_i f
        simp only [gmap_ok, ofR_ok, deref_ok] at hk
        obtain ⟨x, hx, rfl⟩ := hk
        cases h3 with
        | exact h3 =>
          cases h3 with
          | ref h3 =>
            cases h3 with
            | field h3 =>
              rw [hs.named _ _ x h3 hx]
              obtain ⟨ty, hty⟩ := (hs.fields _).2 ⟨_, h3⟩
              exact ⟨_, .blen hty, ret _ rfl (by simp)⟩
      · cases hk
    · obtain ⟨s, rfl, h3⟩ := elabArgs_one h2
      simp only [gbind_ok] at hl
      obtain ⟨t, -, a', ha, hl⟩ := hl
      split at hl <;> cases hl
      simp at hN
      obtain ⟨τ, i1, -⟩ := ih (by omega) hm hs h3 hg.1 ha
      exact ⟨_, .sum i1, ret _ rfl (by simp)⟩
    · obtain ⟨s, rfl, h3⟩ := elabArgs_one h2
      simp only [gbind_ok] at hl
      obtain ⟨a', ha, hl⟩ := hl
      cases hl
      simp at hN
      obtain ⟨τ, i1, -⟩ := ih (by omega) hm hs h3 hg.1 ha
      exact ⟨_, .bits i1, ret _ rfl (by simp)⟩
    · cases h2 with
      | cons h3 h2 =>
        obtain ⟨s, rfl, h4⟩ := elabArgs_one h2
        simp only [gbind_ok] at hl
        obtain ⟨a', ha, b', hb, hl⟩ := hl
        cases hl
        simp at hN
        obtain ⟨τ, i1, -⟩ := ih (by omega) hm hs h3 hg.1 ha
        obtain ⟨σ, i2, -⟩ := ih (by omega) hm hs h4 hg.2.1 hb
        exact ⟨_, .pad i1 i2, ret _ rfl (by simp)⟩
    · cases hl
  | member h1 h2 =>
    rename_i c
    obtain ⟨m, t, w⟩ := c
    simp only [lowerE, gbind_ok] at hl
    obtain ⟨l, hl1, r, hr1, hl⟩ := hl
    cases hl
    simp at hN
    cases h2
    obtain ⟨τ, i1, k1⟩ := ih (by omega) hm hs h1 hg.1 hl1
    exact lowerMember_says ih (c := .mk m t w) (by simp only [AConst.value]; omega) hm rfl k1 hg.2 i1 hr1

theorem says_below (env : Env) [Builtins env] (h : Heap) : ∀ N, SaysBelow env h N
  | 0 => fun hN => absurd hN (Nat.not_lt_zero _)
  | N + 1 => by
    intro hN hm hs he hg hl
    have ih : SaysBelow env h N := says_below env h N
    cases he with
    | exact he =>
      obtain ⟨τ, h1, h2⟩ := lowerC_says ih hN hm hs he hg hl
      exact ⟨τ, .exact h1, h2⟩
    | @widened _ _ _ u he =>
      simp only [lowerE, gbind_ok] at hl
      obtain ⟨l, hl1, k, hk, s, hsrc, hl⟩ := hl
      cases hl
      simp at hN
      obtain ⟨τ, h1, h2⟩ := lowerC_says ih (by omega) hm hs he hg hl1
      have h3 := castSource_says h2 hsrc
      unfold castTarget at hk
      split at hk
      · split at hk
        · rename_i sc' _
          cases hk
          exact ⟨_, .widened (en := sc'.endian) h1 h3, .of hm .scalar fun o ho => by cases ho; rfl⟩
        · cases hk
          exact ⟨_, .represented h1 h3, .none⟩
      · cases hk

/-- What the generators are given for an expression is what the text says. -/
theorem lowerE_says {env : Env} [Builtins env] {h : Heap} {text : Ast.Program} {q : Prog} {sc : Scope} {V : InView}
    {src : Ast.Expression} {e : AExpr} {e' : Expr} (hm : Made env h text q) (hs : Sees q h sc V)
    (he : ElabE q h sc src e) (hg : Grounded h e) (hl : lowerE h e = .ok e') :
    ∃ τ, SaysE (modulesOf env) text V src e' τ := by
  obtain ⟨τ, h1, -⟩ := says_below env h _ (Nat.lt_succ_self _) hm hs he hg hl
  exact ⟨τ, h1⟩

section
variable {env : Env} [Builtins env] {h : Heap} {text : Ast.Program} {q : Prog} (hm : Made env h text q)
include hm

theorem lowerEs_says : ∀ {src : List Ast.Expression} {es : List AExpr} {sc : Scope} {V : InView} {es' : List Expr},
    Sees q h sc V → ElabArgs q h sc src es → GroundedAll h es → lowerEs h es = .ok es' →
    SaysEs (modulesOf env) text V src es'
  | [], _, _, _, _, _, he, _, hl => by cases he; cases hl; exact .nil
  | s :: ss, _, _, _, _, hs, he, hg, hl => by
    cases he with
    | cons h1 h2 =>
      simp only [lowerEs, gbind_ok] at hl
      obtain ⟨a, ha, b, hb, hl⟩ := hl
      cases hl
      obtain ⟨τ, hτ⟩ := lowerE_says hm hs h1 hg.1 ha
      exact .cons hτ (lowerEs_says hs h2 hg.2 hb)

theorem lowerOpt_says {src : Option Ast.Expression} {e : Option AExpr} {sc : Scope} {V : InView} {e' : Option Expr}
    (hs : Sees q h sc V) (he : ElabOpt q h sc src e) (hg : ∀ x, e = some x → Grounded h x) (hl : lowerOpt h e = .ok e') :
    SaysOpt (modulesOf env) text V src e' := by
  cases he with
  | none => cases hl; exact .none
  | some he =>
    rw [lowerOpt, gmap_ok] at hl
    obtain ⟨a, ha, rfl⟩ := hl
    obtain ⟨τ, hτ⟩ := lowerE_says hm hs he (hg _ rfl) ha
    exact .some hτ

theorem lowerXforms_says : ∀ {src : List Ast.Transform} {xs : List AXform} {sc : Scope} {V : InView}
    {ys : List XformUse}, Sees q h sc V → ElabXforms q h sc src xs →
    (∀ t ∈ xs, GroundedAll h t.args ∧ ∀ e, t.condition = some e → Grounded h e) → lowerXforms h xs = .ok ys →
    SaysXforms (modulesOf env) text V src ys
  | [], _, _, _, _, _, he, _, hl => by cases he; cases hl; exact .nil
  | .mk n args cond :: rest, _, _, _, _, hs, he, hg, hl => by
    cases he with
    | cons h1 h2 h3 h4 =>
      rw [lowerXforms] at hl
      simp only [gbind_ok] at hl
      obtain ⟨c, hc, as, has, r, hr, he⟩ := hl
      cases he
      have hx := hg _ List.mem_cons_self
      exact .cons (lowerEs_says hm hs h2 hx.1 has) (lowerOpt_says hm hs h3 hx.2 hc)
        (lowerXforms_says hs h4 (fun t ht => hg t (List.mem_cons_of_mem _ ht)) hr)

/-! ## Enums and bitfields -/

omit hm in
theorem constInt_ok {oc : Bool} {e : AExpr} {i : Int} (hl : constInt oc h e = .ok i) :
    ∃ e' j, lowerE h e = .ok e' ∧ constEval oc e' = .ok (.int j) ∧ i = j.val := by
  unfold constInt at hl
  simp only [gbind_ok] at hl
  obtain ⟨e', he, hl⟩ := hl
  split at hl <;> cases hl
  exact ⟨e', _, he, by assumption, rfl⟩

/-- The last explicit item as the generators see it. -/
def LowLast (h : Heap) (last : Option AConst) (low : Option (String × Expr)) : Prop :=
  ∀ c, last = some c → ∃ e, low = some (c.name, e) ∧ lowerE h c.value = .ok e

omit hm in
theorem lowerImplicit {oc : Bool} {op : BinOp} {rep : EScalar} {last : Option AConst} {low : Option (String × Expr)}
    {k : Nat} {v : AExpr} {i : Int} (hi : ImplicitOf op rep.scalar last k v) (hw : LowLast h last low)
    (hl : constInt oc h v = .ok i) : ∃ m e j, low = some (m, e) ∧
      constEval oc (.binary op (.constRef m e) (.int ⟨rep.scalar, k⟩)) = .ok (.int j) ∧ i = j.val := by
  obtain ⟨⟨m, t, w⟩, c, h1, -, h3, rfl⟩ := hi
  obtain ⟨e, h4, h5⟩ := hw _ h1
  obtain ⟨e', j, h6, h7, rfl⟩ := constInt_ok hl
  cases parse_count h3
  simp only [AConst.value] at h5
  simp only [lowerE, h5, gbind_ok] at h6
  obtain ⟨a, ⟨b, hb, ha⟩, c, hc, h6⟩ := h6
  cases hb; cases ha; cases hc; cases h6
  exact ⟨_, _, j, h4, h7, rfl⟩

theorem lowerVariants_says {oc : Bool} : ∀ {items : List Ast.EnumItem} {sc : Scope} {V : InView} {rep : EScalar}
    {last : Option AConst} {k : Nat} {vs : List AVariant} {low : Option (String × Expr)} {out : List (String × Option Int)},
    Sees q h sc V → ElabVariants q h sc rep last k items vs → (∀ c, .value c ∈ vs → Grounded h c.value) →
    LowLast h last low → lowerVariants oc h vs = .ok out → SaysVariants (modulesOf env) oc text V rep low k items out
  | [], _, _, _, _, _, _, _, _, _, he, _, _, hl => by cases he; cases hl; exact .nil
  | .mk n .default :: rest, _, _, _, _, _, _, _, _, hs, he, hg, hw, hl => by
    cases he with
    | default he =>
      simp only [lowerVariants, gbind_ok] at hl
      obtain ⟨r, hr, hl⟩ := hl
      cases hl
      exact .default (lowerVariants_says hs he (fun c hc => hg c (List.mem_cons_of_mem _ hc)) hw hr)
  | .mk n (.expr s) :: rest, _, _, _, _, _, _, _, _, hs, he, hg, hw, hl => by
    cases he with
    | value h1 he =>
      simp only [lowerVariants, gbind_ok] at hl
      obtain ⟨i, hi, r, hr, hl⟩ := hl
      cases hl
      obtain ⟨e', j, h2, h3, rfl⟩ := constInt_ok hi
      obtain ⟨τ, hτ⟩ := lowerE_says hm hs h1 (hg _ List.mem_cons_self) h2
      refine .value hτ h3
        (lowerVariants_says hs he (fun c hc => hg c (List.mem_cons_of_mem _ hc)) ?_ hr)
      intro c hc
      cases hc
      exact ⟨e', rfl, h2⟩
  | .mk n .none :: rest, _, _, _, _, _, _, _, _, hs, he, hg, hw, hl => by
    cases he with
    | implicit h1 he =>
      simp only [lowerVariants, gbind_ok] at hl
      obtain ⟨i, hi, r, hr, hl⟩ := hl
      cases hl
      obtain ⟨m, e, j, rfl, h3, rfl⟩ := lowerImplicit h1 hw hi
      exact .implicit h3 (lowerVariants_says hs he (fun c hc => hg c (List.mem_cons_of_mem _ hc)) hw hr)

theorem lowerFlags_says {oc : Bool} : ∀ {items : List Ast.BitItem} {sc : Scope} {V : InView} {rep : EScalar}
    {last : Option AConst} {k : Nat} {vs : List AConst} {low : Option (String × Expr)} {out : List (String × Int)},
    Sees q h sc V → ElabFlags q h sc rep last k items vs → (∀ c ∈ vs, Grounded h c.value) →
    LowLast h last low → lowerFlags oc h vs = .ok out → SaysFlags (modulesOf env) oc text V rep low k items out
  | [], _, _, _, _, _, _, _, _, _, he, _, _, hl => by cases he; cases hl; exact .nil
  | .mk n (some s) :: rest, _, _, _, _, _, _, _, _, hs, he, hg, hw, hl => by
    cases he with
    | value h1 he =>
      simp only [lowerFlags, gbind_ok] at hl
      obtain ⟨i, hi, r, hr, hl⟩ := hl
      cases hl
      obtain ⟨e', j, h2, h3, rfl⟩ := constInt_ok hi
      obtain ⟨τ, hτ⟩ := lowerE_says hm hs h1 (hg _ List.mem_cons_self) h2
      refine .value hτ h3
        (lowerFlags_says hs he (fun c hc => hg c (List.mem_cons_of_mem _ hc)) ?_ hr)
      intro c hc
      cases hc
      exact ⟨e', rfl, h2⟩
  | .mk n none :: rest, _, _, _, _, _, _, _, _, hs, he, hg, hw, hl => by
    cases he with
    | implicit h1 he =>
      simp only [lowerFlags, gbind_ok] at hl
      obtain ⟨i, hi, r, hr, hl⟩ := hl
      cases hl
      obtain ⟨m, e, j, rfl, h3, rfl⟩ := lowerImplicit h1 hw hi
      exact .implicit h3 (lowerFlags_says hs he (fun c hc => hg c (List.mem_cons_of_mem _ hc)) hw hr)

theorem lowerRepr_says {oc : Bool} {ty : Ast.Ty} {sc : Scope} {V : InView} {t : AType} {n : String} {r : ReprTy}
    (hs : Sees q h sc V) (he : ElabTy q h sc ty t) (hn : RepNamed n t) (hg : GroundedTy h t)
    (hl : lowerRepr oc h t = .ok (some r)) : SaysRepr (modulesOf env) oc text n V ty r := by
  have none : LowLast h none none := fun _ h => by cases h
  cases he with
  | enum he =>
    simp only [lowerRepr, gbind_ok] at hl
    obtain ⟨vs, hv, hl⟩ := hl
    cases hl
    cases hn
    exact .enum (lowerVariants_says hm hs he hg none hv)
  | bitfield he =>
    simp only [lowerRepr, gbind_ok] at hl
    obtain ⟨vs, hv, hl⟩ := hl
    cases hl
    cases hn
    exact .bitfield (lowerFlags_says hm hs he hg none hv)
  | container => cases hl
  | scalar => cases hl
  | array => cases hl
  | f32 => cases hl
  | f64 => cases hl
  | bool => cases hl
  | ref => cases hl

end

/-! ## Types -/

/-- The rest of `lowerResolved`. -/
def lowerKnown (oc : Bool) (h : Heap) (r : AType) : G Resolved := do
  let repr ← lowerRepr oc h r
  match repr, asPrim r with
  | some t, _ => .ok (.repr t)
  | none, some p => .ok (.prim p)
  | none, none => .ok .other

theorem lowerRepr_rep {oc : Bool} {h : Heap} {t : AType} (ht : (∃ a b c d, t = .enum a b c d) ∨ ∃ a b c d, t = .bitfield a b c d)
    {o : Option ReprTy} (hl : lowerRepr oc h t = .ok o) : ∃ r, o = some r := by
  rcases ht with ⟨a, b, c, d, rfl⟩ | ⟨a, b, c, d, rfl⟩
  · simp only [lowerRepr, gbind_ok] at hl
    obtain ⟨vs, hv, hl⟩ := hl
    cases hl
    exact ⟨_, rfl⟩
  · simp only [lowerRepr, gbind_ok] at hl
    obtain ⟨vs, hv, hl⟩ := hl
    cases hl
    exact ⟨_, rfl⟩

theorem resolved_says {env : Env} [Builtins env] {h : Heap} {oc : Bool} : ∀ (N : Nat) {text : Ast.Program} {q : Prog} {n : String} {f : FId}
    {args : List Ast.Expression} {args' : List AExpr} {r : AType} {res : Resolved},
    Made env h text q → IMap.get q.types n = some f → resolvedN h N (.ref f args') = .ok r →
    lowerKnown oc h r = .ok res → Behind (modulesOf env) oc text (.ref n args) res
  | 0, _, _, _, _, _, _, _, _, _, _, hr, _ => by cases hr
  | N + 1, text, q, n, f, args, args', r, res, hm, hn, hr, hl => by
    rw [resolvedN] at hr
    cases hx : h[f]? with
    | none => unfold deref at hr; rw [hx] at hr; cases hr
    | some x =>
      rw [deref_some hx] at hr
      replace hr : resolvedN h N x.type = .ok r := hr
      rcases hm.typeOrigin n f hn with ⟨home, q', m, params, fld, ho, hm', hd, hg⟩ | ⟨home, m, ho, y, hy, hyt⟩
      · obtain ⟨y, g1, g2, g3, g4, g5, g6, g7, g8⟩ := hm'.cell hd hg
        rw [hx] at g1; cases g1
        have hs := Sees.params_only g3
        have gt := (g8 x hx).1.type
        cases fld with
        | mk ty flags cal cond xs =>
        cases g4 with
        | mk hf ht hc hxs =>
          generalize x.type = t at hr ht g6 gt
          have rep : ((∃ a b c d, t = .enum a b c d) ∨ ∃ a b c d, t = .bitfield a b c d) → r = t →
              Behind (modulesOf env) oc text (.ref n args) res := by
            intro hk e
            subst e
            unfold lowerKnown at hl
            simp only [gbind_ok] at hl
            obtain ⟨o, h1, hl⟩ := hl
            obtain ⟨rt, rfl⟩ := lowerRepr_rep hk h1
            cases hl
            exact .repr ho (lowerRepr_says hm' hs ht g6 gt h1)
          cases ht with
          | enum => cases N <;> cases hr <;> exact rep (.inl ⟨_, _, _, _, rfl⟩) rfl
          | bitfield => cases N <;> cases hr <;> exact rep (.inr ⟨_, _, _, _, rfl⟩) rfl
          | container => cases N <;> cases hr <;> cases hl <;> exact .alias ho .container
          | array => cases N <;> cases hr <;> cases hl <;> exact .alias ho .array
          | scalar => cases N <;> cases hr <;> cases hl <;> exact .alias ho (.prim rfl)
          | f32 => cases N <;> cases hr <;> cases hl <;> exact .alias ho (.prim rfl)
          | f64 => cases N <;> cases hr <;> cases hl <;> exact .alias ho (.prim rfl)
          | bool => cases N <;> cases hr <;> cases hl <;> exact .alias ho (.prim rfl)
          | ref h1 h2 => exact .alias ho (resolved_says N hm' h1 hr hl)
      · rw [hx] at hy; cases hy
        rw [hyt] at hr
        cases N <;> cases hr <;> cases hl <;> exact .foreign ho

theorem lowerResolved_says {env : Env} [Builtins env] {h : Heap} {oc : Bool} {text : Ast.Program} {q : Prog} {n : String} {f : FId}
    {args : List Ast.Expression} {args' : List AExpr} {res : Resolved} (hm : Made env h text q)
    (hn : IMap.get q.types n = some f) (hl : lowerResolved oc h (.ref f args') = .ok res) :
    Behind (modulesOf env) oc text (.ref n args) res := by
  unfold lowerResolved at hl
  simp only [gbind_ok, ofR_ok] at hl
  obtain ⟨r, h1, h2⟩ := hl
  refine resolved_says _ hm hn h1 ?_
  unfold lowerKnown
  simp only [gbind_ok]
  exact h2

theorem behind_foreign {h : Heap} {oc : Bool} {f : FId} {args : List AExpr} {x : AField} {m : String}
    {res : Resolved} (hx : h[f]? = some x) (ht : x.type = .foreign m) (hl : lowerResolved oc h (.ref f args) = .ok res) :
    res = .other := by
  unfold lowerResolved at hl
  simp only [gbind_ok, ofR_ok] at hl
  obtain ⟨r, h1, h2⟩ := hl
  rw [resolve, resolvedN, deref_some hx] at h1
  replace h1 : resolvedN h h.length x.type = .ok r := h1
  rw [ht] at h1
  generalize h.length = N at h1
  cases N <;> cases h1 <;> (obtain ⟨o, e, h2⟩ := h2; cases e; cases h2; rfl)

theorem lowerTy_says {env : Env} [Builtins env] {h : Heap} {oc : Bool} {text : Ast.Program} {q : Prog} (hm : Made env h text q) :
    ∀ {ty : Ast.Ty} {sc : Scope} {V : InView} {t : AType} {out : LTy}, Sees q h sc V → ElabTy q h sc ty t →
    GroundedTy h t → lowerTy oc h t = .ok out → SaysTy (modulesOf env) oc text V ty out
  | .container _ _ _, _, _, _, _, _, he, _, hl => by cases he; cases hl
  | .enum _ _, _, _, _, _, _, he, _, hl => by cases he; cases hl
  | .bitfield _ _, _, _, _, _, _, he, _, hl => by cases he; cases hl
  | .scalar _, _, _, _, _, _, he, _, hl => by cases he; cases hl; exact .prim rfl
  | .f32, _, _, _, _, _, he, _, hl => by cases he; cases hl; exact .prim rfl
  | .f64, _, _, _, _, _, he, _, hl => by cases he; cases hl; exact .prim rfl
  | .bool, _, _, _, _, _, he, _, hl => by cases he; cases hl; exact .prim rfl
  | .array el x len, _, _, _, _, hs, he, hg, hl => by
    cases he with
    | array he hlen =>
      simp only [lowerTy, gbind_ok] at hl
      obtain ⟨el', h1, len', h2, h3⟩ := hl
      cases h3
      have i1 := lowerTy_says hm hs he hg.1 h1
      unfold lowerLen at h2
      split at h2
      · cases h2
        cases hlen
        exact .unbounded i1
      · rw [gmap_ok] at h2
        obtain ⟨a, ha, rfl⟩ := h2
        cases hlen with
        | some hlen =>
          obtain ⟨τ, hτ⟩ := lowerE_says hm hs hlen (hg.2 _ rfl) ha
          exact .terminated i1 hτ
      · rw [gmap_ok] at h2
        obtain ⟨a, ha, rfl⟩ := h2
        cases hlen with
        | some hlen =>
          obtain ⟨τ, hτ⟩ := lowerE_says hm hs hlen (hg.2 _ rfl) ha
          exact .fixed i1 hτ
      · cases h2
  | .ref n args, _, _, _, _, hs, he, hg, hl => by
    cases he with
    | ref hf ha =>
      simp only [lowerTy, gbind_ok, ofR_ok, deref_ok] at hl
      obtain ⟨x, hx, as, h2, r, h3, h4⟩ := hl
      cases h4
      have i1 := lowerEs_says hm hs ha hg h2
      have i2 := lowerResolved_says (args := args) hm hf h3
      rcases hm.typeOrigin n _ hf with ⟨home, q', m, params, fld, ho, hm', hd, hg⟩ | ⟨home, m, ho, y, hy, hyt⟩
      · obtain ⟨y, g1, g2, g3, g4, g5, g6, g7, g8⟩ := hm'.cell hd hg
        rw [hx] at g1; cases g1
        subst g2
        have : refName x = (x.name, false) := by
          unfold refName
          split
          · rename_i hxt
            exfalso
            obtain ⟨ty, -, het⟩ := elabMid_type g4
            rw [hxt] at het
            cases het
          · rfl
        rw [this]
        exact .ref ho i1 i2
      · rw [hx] at hy; cases hy
        have : refName x = (m, true) := by unfold refName; rw [hyt]
        rw [this]
        cases behind_foreign hx hyt h3
        exact .foreign ho i1

/-! ## Items -/

theorem lowerAttr_ok {h : Heap} {x : AField} {a : FAttr} (hl : lowerAttr h x = .ok a) :
    a.name = x.name ∧ lowerOpt h x.condition = .ok a.cond ∧ lowerXforms h x.transforms = .ok a.xfs ∧
      lowerOpt h x.calculated = .ok a.auto := by
  unfold lowerAttr at hl
  simp only [gbind_ok] at hl
  obtain ⟨c, h1, xs, h2, au, h3, he⟩ := hl
  cases he
  exact ⟨rfl, h1, h2, h3⟩

theorem lowerOpt_none {h : Heap} {o : Option AExpr} (hl : lowerOpt h o = .ok none) : o = none := by
  cases o with
  | none => rfl
  | some e => rw [lowerOpt, gmap_ok] at hl; obtain ⟨a, -, h⟩ := hl; cases h

theorem elabOpt_none {p : Prog} {h : Heap} {sc : Scope} {src : Option Ast.Expression} (he : ElabOpt p h sc src none) :
    src = none := by cases he; rfl

theorem elabMid_is {q : Prog} {h : Heap} {sc : Scope} {ty : Ast.Ty} {flags} {cal cond : Option Ast.Expression}
    {xs : List Ast.Transform} {x : AField} (he : ElabMid q h sc (.mk ty flags cal cond xs) x) : TyIs q ty x.type := by
  cases he with
  | mk _ ht _ _ => exact elabTy_is ht

theorem elabItems_own {p : Prog} {h : Heap} : ∀ {items : List Ast.Item} {sc : Scope} {before : List (String × FId)} {k : Nat}
    {cells : List FId}, ElabItems p h sc before items k cells → Frames p h (fieldCells items cells) (ownFields items)
  | [], _, _, _, _, he => by cases he; exact .nil
  | .field n (.mk ty flags cal cond xs) :: rest, _, _, _, _, he => by
    cases he with
    | field h1 h2 h3 h4 h5 hr =>
      rw [fieldCells, ownFields]
      refine .cons (fun y hy => ?_) (elabItems_own hr)
      rw [h1] at hy; cases hy
      exact ⟨h2, elabMid_is h5⟩
  | .pad e :: rest, _, _, _, _, he => by
    cases he with
    | pad h1 h2 h3 h4 h5 h6 h7 h8 h9 hr =>
      rw [fieldCells, ownFields]
      exact elabItems_own hr

theorem itemCells_all {items : List Ast.Item} : ∀ {k : Nat} {cells : List FId}, cells.length = items.length →
    ∀ f ∈ cells, ∃ n, (n, f) ∈ itemCells items k cells := by
  induction items with
  | nil => intro k cells hl f hf; cases cells with | nil => cases hf | cons => simp at hl
  | cons i items ih =>
    intro k cells hl f hf
    cases cells with
    | nil => cases hf
    | cons c cells =>
      cases i with
      | field n fld =>
        rw [itemCells]
        rcases List.mem_cons.1 hf with rfl | hf
        · exact ⟨n, List.mem_cons_self⟩
        · obtain ⟨m, hm⟩ := ih (k := k) (by simpa using hl) f hf
          exact ⟨m, List.mem_cons_of_mem _ hm⟩
      | pad e =>
        rw [itemCells]
        rcases List.mem_cons.1 hf with rfl | hf
        · exact ⟨_, List.mem_cons_self⟩
        · obtain ⟨m, hm⟩ := ih (k := k + 1) (by simpa using hl) f hf
          exact ⟨m, List.mem_cons_of_mem _ hm⟩

/-- What is known of the view of a nested container. -/
def NestedSays (env : Env) (oc : Bool) (text : Ast.Program) (p : Prog) (h : Heap)
    (nested : List (String × FId) → G Fields) : Prop :=
  ∀ (items : List Ast.Item) (sc : Scope) (cells : List FId) (V : InView) (fs : Fields),
    ElabItems p h sc [] items 0 cells → ElabCalcs p h (⟨fieldCells items cells, []⟩ :: sc) items cells →
    (fieldNames items).Nodup → DistinctItems items → PadFreeItems items → (∀ f ∈ cells, Deep h f) →
    Sees p h sc V → nested (itemCells items 0 cells) = .ok fs →
    SaysItems (modulesOf env) oc text V (V.with (ownFields items)) 0 items fs

theorem lowerItemsWith_says {env : Env} [Builtins env] {h : Heap} {oc : Bool} {text : Ast.Program} {q : Prog} (hm : Made env h text q)
    {nested : List (String × FId) → G Fields} (hn : NestedSays env oc text q h nested) :
    ∀ (items : List Ast.Item) {sc csc : Scope} {before : List (String × FId)} {k : Nat} {cells : List FId}
      {fs : Fields} {V A : InView},
    ElabItems q h sc before items k cells → ElabCalcs q h csc items cells →
    (before.map Prod.fst ++ fieldNames items).Nodup →
    DistinctItems items → PadFreeItems items → (∀ f ∈ cells, Deep h f) →
    Sees q h (⟨before, []⟩ :: sc) V → Sees q h csc A →
    lowerItemsWith oc h nested (itemCells items k cells) = .ok fs → SaysItems (modulesOf env) oc text V A k items fs
  | [], sc, csc, before, k, cells, fs, V, A, he, hcs, hnd, hd, hp, hg, hi, hA, hl => by cases he; cases hl; exact .nil
  | .field n (.mk ty flags cal cond xs) :: rest, sc, csc, before, k, cells, fs, V, A, he, hcs, hnd, hd, hp, hg, hi, hA, hl => by
    cases hcs with
    | field c1 c2 c3 =>
    cases he with
    | field h1 h2 h3 h4 h5 hr =>
      rename_i f cells x y
      have hxy : x = y := by rw [h1] at c1; exact (Option.some.inj c1).symm
      subst hxy
      have hdeep := hg f List.mem_cons_self
      obtain ⟨gx, -⟩ := hdeep x h1
      have hg' : ∀ f ∈ cells, Deep h f := fun f hf => hg f (List.mem_cons_of_mem _ hf)
      rw [DistinctItems] at hd
      rw [PadFreeItems] at hp
      have hi' := hi.empty
      have hnew : n ∉ before.map Prod.fst := fun hin =>
        (List.nodup_append.1 hnd).2.2 n hin n List.mem_cons_self rfl
      have hnd' : ((before ++ [(n, f)]).map Prod.fst ++ fieldNames rest).Nodup := by
        simpa [fieldNames] using hnd
      have hnext := hi.append h1 h2 (elabMid_is h5) hnew
      rw [itemCells, lowerItemsWith, deref_some h1] at hl
      simp only [gbind_ok, ofR_ok, Except.ok.injEq, exists_eq_left'] at hl
      rw [if_neg (by simp [h2, h4]), if_neg (by simp [h3])] at hl
      cases h5 with
      | mk hf ht hc hx =>
      subst hf
      split at hl
      · cases hl
      · rename_i tag len its hxt
        simp only [gbind_ok] at hl
        obtain ⟨a, ha, l, hlen, i, hnest, r, hr', hl⟩ := hl
        obtain ⟨e1, e2, e3, e4⟩ := lowerAttr_ok ha
        obtain ⟨an, ac, ax, aa⟩ := a
        simp only at e1 e2 e3 e4
        unfold contItem at hl
        split at hl
        · cases hl
        · rename_i hau
          split at hl
          · cases hl
          · cases hl
            cases aa with
            | some _ => simp at hau
            | none =>
            have hcal := lowerOpt_none e4
            rw [hcal] at c2
            cases elabOpt_none c2
            rw [hxt] at ht
            have gt := gx.type
            rw [hxt] at gt
            cases ht with
            | container q1 hfl q2 q3 q4 hit q5 =>
              rename_i fl' items' cells'
              have hd1 := hd.1
              rw [DistinctField, DistinctTy] at hd1
              have hp1 := hp.1
              rw [PadFreeField, PadFreeTy] at hp1
              rw [q4, filed hd1.1 hp1.1] at hnest
              rw [e1, h2]
              refine .cont (by rw [← hfl]; simp) (lowerOpt_says hm hi' q1 gt hlen) ?_
                (lowerOpt_says hm hi' hc gx.condition e2) (lowerXforms_says hm hi' hx gx.transforms e3)
                (lowerItemsWith_says hm hn rest hr c3 hnd' hd.2 hp.2 hg' hnext hA hr')
              refine hn _ _ _ _ _ hit q5 hd1.1 hd1.2 hp1.2 (fun f' hf' => ?_) hi' hnest
              refine hdeep.item h1 ?_
              rw [hxt, q4, filed hd1.1 hp1.1]
              exact itemCells_all q3 f' hf'
      · simp only [gbind_ok] at hl
        obtain ⟨a, ha, lt, hty, r, hr', hl⟩ := hl
        cases hl
        obtain ⟨e1, e2, e3, e4⟩ := lowerAttr_ok ha
        obtain ⟨an, ac, ax, aa⟩ := a
        simp only at e1 e2 e3 e4
        rw [e1, h2]
        exact .leaf (lowerTy_says hm hi' ht gx.type hty) (lowerOpt_says hm hi' hc gx.condition e2)
          (lowerXforms_says hm hi' hx gx.transforms e3) (lowerOpt_says hm hA.empty c2 gx.calculated e4)
          (lowerItemsWith_says hm hn rest hr c3 hnd' hd.2 hp.2 hg' hnext hA hr')
  | .pad e :: rest, sc, csc, before, k, cells, fs, V, A, he, hcs, hnd, hd, hp, hg, hi, hA, hl => by
    cases hcs with
    | pad c3 =>
    cases he with
    | pad h1 h2 h3 h4 h5 h6 h7 h8 h9 hr =>
      rename_i f cells x tag len
      obtain ⟨gx, -⟩ := hg f List.mem_cons_self x h1
      have hg' : ∀ f ∈ cells, Deep h f := fun f hf => hg f (List.mem_cons_of_mem _ hf)
      rw [DistinctItems] at hd
      rw [PadFreeItems] at hp
      rw [itemCells, lowerItemsWith, deref_some h1] at hl
      simp only [gbind_ok, ofR_ok, Except.ok.injEq, exists_eq_left'] at hl
      rw [if_neg (by simp [h2, h4]), if_pos h3] at hl
      simp only [gbind_ok] at hl
      obtain ⟨a, ha, r, hr', hl⟩ := hl
      cases hl
      unfold lowerPad at ha
      rw [h8] at ha
      simp only at ha
      have gt := gx.type
      rw [h8] at gt
      split at ha
      · obtain ⟨τ, hτ⟩ := lowerE_says hm hi h9 (gt.2 _ rfl) ha
        exact .pad hτ (lowerItemsWith_says hm hn rest hr c3 (by simpa [fieldNames] using hnd) hd hp hg' hi hA hr')
      · cases ha

theorem lowerItems_says {env : Env} [Builtins env] {h : Heap} {oc : Bool} {text : Ast.Program} {q : Prog} (hm : Made env h text q) :
    ∀ m, NestedSays env oc text q h (lowerItems oc h m)
  | 0 => by intro items sc cells V fs _ _ _ _ _ _ _ hl; cases hl
  | m + 1 => by
    intro items sc cells V fs he hcs hnd hd hp hg hi hl
    have hA := hi.cons (elabItems_own he)
    exact lowerItemsWith_says hm (lowerItems_says hm m) items he hcs hnd hd hp hg hi.empty hA hl

theorem lowerArms_says {env : Env} [Builtins env] {h : Heap} {oc : Bool} {text : Ast.Program} {q : Prog} (hm : Made env h text q) (m : Nat) :
    ∀ (items : List Ast.Item) {sc csc : Scope} {before : List (String × FId)} {k : Nat} {cells : List FId}
      {arms : List Arm} {V : InView},
    ElabItems q h sc before items k cells → ElabCalcs q h csc items cells →
    (before.map Prod.fst ++ fieldNames items).Nodup →
    DistinctItems items → PadFreeItems items → (∀ f ∈ cells, Deep h f) →
    Sees q h (⟨before, []⟩ :: sc) V →
    lowerArms oc h m (itemCells items k cells) = .ok arms → SaysArms (modulesOf env) oc text V items arms
  | [], sc, csc, before, k, cells, arms, V, he, hcs, hnd, hd, hp, hg, hi, hl => by cases he; cases hl; exact .nil
  | .field n (.mk ty flags cal cond xs) :: rest, sc, csc, before, k, cells, arms, V, he, hcs, hnd, hd, hp, hg, hi, hl => by
    cases hcs with
    | field c1 c2 c3 =>
    cases he with
    | field h1 h2 h3 h4 h5 hr =>
      rename_i f cells x y
      have hxy : x = y := by rw [h1] at c1; exact (Option.some.inj c1).symm
      subst hxy
      have hdeep := hg f List.mem_cons_self
      obtain ⟨gx, -⟩ := hdeep x h1
      have hg' : ∀ f ∈ cells, Deep h f := fun f hf => hg f (List.mem_cons_of_mem _ hf)
      rw [DistinctItems] at hd
      rw [PadFreeItems] at hp
      have hi' := hi.empty
      have hnew : n ∉ before.map Prod.fst := fun hin =>
        (List.nodup_append.1 hnd).2.2 n hin n List.mem_cons_self rfl
      have hnd' : ((before ++ [(n, f)]).map Prod.fst ++ fieldNames rest).Nodup := by
        simpa [fieldNames] using hnd
      have hnext := hi.append h1 h2 (elabMid_is h5) hnew
      rw [itemCells, lowerArms] at hl
      simp only [gbind_ok] at hl
      obtain ⟨arm, harm, r, hr', hl⟩ := hl
      cases hl
      unfold lowerArm at harm
      rw [deref_some h1] at harm
      simp only [gbind_ok, ofR_ok, Except.ok.injEq, exists_eq_left'] at harm
      rw [if_neg (by simp [h2, h3, h4])] at harm
      simp only [gbind_ok] at harm
      obtain ⟨a, ha, harm⟩ := harm
      obtain ⟨e1, e2, e3, e4⟩ := lowerAttr_ok ha
      obtain ⟨an, ac, ax, aa⟩ := a
      simp only at e1 e2 e3 e4 harm
      cases h5 with
      | mk hf ht hc hx =>
      subst hf
      split at harm
      · cases harm
      · rename_i hau
        cases aa with
        | some _ => simp at hau
        | none =>
        have hcal := lowerOpt_none e4
        rw [hcal] at c2
        cases elabOpt_none c2
        split at harm
        · cases harm
        · rename_i tag len its hxt
          simp only [gbind_ok] at harm
          obtain ⟨l, hlen, i, hnest, he⟩ := harm
          cases he
          rw [hxt] at ht
          have gt := gx.type
          rw [hxt] at gt
          cases ht with
          | container q1 hfl q2 q3 q4 hit q5 =>
            rename_i fl' items' cells'
            have hd1 := hd.1
            rw [DistinctField, DistinctTy] at hd1
            have hp1 := hp.1
            rw [PadFreeField, PadFreeTy] at hp1
            rw [q4, filed hd1.1 hp1.1] at hnest
            rw [e1, h2]
            refine .cont (by rw [← hfl]; simp) (lowerOpt_says hm hi' q1 gt hlen) ?_
              (lowerOpt_says hm hi' hc gx.condition e2) (lowerXforms_says hm hi' hx gx.transforms e3)
              (lowerArms_says hm m rest hr c3 hnd' hd.2 hp.2 hg' hnext hr')
            refine lowerItems_says hm m _ _ _ _ _ hit q5 hd1.1 hd1.2 hp1.2 (fun f' hf' => ?_) hi' hnest
            refine hdeep.item h1 ?_
            rw [hxt, q4, filed hd1.1 hp1.1]
            exact itemCells_all q3 f' hf'
        · simp only [gbind_ok] at harm
          obtain ⟨lt, hty, he⟩ := harm
          cases he
          rw [e1, h2]
          exact .leaf (lowerTy_says hm hi' ht gx.type hty) (lowerOpt_says hm hi' hc gx.condition e2)
            (lowerXforms_says hm hi' hx gx.transforms e3) (lowerArms_says hm m rest hr c3 hnd' hd.2 hp.2 hg' hnext hr')
  | .pad e :: rest, sc, csc, before, k, cells, arms, V, he, hcs, hnd, hd, hp, hg, hi, hl => by
    cases he with
    | pad h1 h2 h3 h4 h5 h6 h7 h8 h9 hr =>
      rename_i f cells x tag len
      rw [itemCells, lowerArms] at hl
      simp only [gbind_ok] at hl
      obtain ⟨arm, harm, r, hr', hl⟩ := hl
      unfold lowerArm at harm
      rw [deref_some h1] at harm
      simp only [gbind_ok, ofR_ok, Except.ok.injEq, exists_eq_left'] at harm
      rw [if_pos (by simp [h3])] at harm
      cases harm

/-! ## Declarations -/

theorem lowerParams_ok : ∀ {as : List AArg} {ps : List String}, lowerParams as = .ok ps →
    ps = as.map (·.name) ∧ ∀ a ∈ as, a.default = none
  | [], ps, h => by cases h; exact ⟨rfl, fun a ha => by cases ha⟩
  | a :: as, ps, h => by
    rw [lowerParams] at h
    split at h
    · cases h
    · rename_i hd
      split at h
      · rw [gmap_ok] at h
        obtain ⟨qs, hq, rfl⟩ := h
        obtain ⟨rfl, i2⟩ := lowerParams_ok hq
        refine ⟨rfl, fun b hb => ?_⟩
        rcases List.mem_cons.1 hb with rfl | hb
        · cases hbd : b.default with
          | none => rfl
          | some _ => rw [hbd] at hd; simp at hd
        · exact i2 b hb
      · cases h

theorem elabParams_defaults {p : Prog} {h : Heap} {outer : Scope} {inputs : List (String × AType)} {args : List Ast.TypeArg}
    {as : List AArg} (he : ElabParams p h outer inputs args as) (hd : ∀ a ∈ as, a.default = none) :
    ∀ a ∈ args, a.default = none := by
  induction he with
  | nil => intro a ha; cases ha
  | cons h1 h2 h3 ih =>
    intro a ha
    rcases List.mem_cons.1 ha with rfl | ha
    · have := hd _ List.mem_cons_self
      simp only at this
      rw [this] at h2
      exact elabOpt_none h2
    · exact ih (fun b hb => hd b (List.mem_cons_of_mem _ hb)) a ha

/-- What the generators are given for a declaration is what the text says. -/
theorem lowerDecl_says {env : Env} [Builtins env] {h : Heap} {oc : Bool} {text : Ast.Program} {q : Prog} (hm : Made env h text q) {m : Nat}
    {n : String} {args : List Ast.TypeArg} {f : Ast.Field} (hd : .type n args f ∈ text) {id : FId}
    (hg : IMap.get q.types n = some id) (hp : PadFreeField f) {d : Decl} (hl : lowerDecl oc h m id = .ok d) :
    d.name = n ∧ SaysDecl (modulesOf env) oc text (.type n args f) d := by
  obtain ⟨x, g1, g2, g3, g4, g5, g6, g7, g8⟩ := hm.cell hd hg
  have hs := Sees.params_only g3
  obtain ⟨gx, -⟩ := g8 x g1
  unfold lowerDecl at hl
  rw [deref_some g1] at hl
  simp only [gbind_ok, ofR_ok, Except.ok.injEq, exists_eq_left'] at hl
  obtain ⟨ps, hps, xs, hxs, b, hb, hl⟩ := hl
  obtain ⟨rfl, hdef⟩ := lowerParams_ok hps
  split at hl
  · cases hl
  · rename_i hcal
    cases hl
    have hcal : x.calculated = none := by
      cases hc : x.calculated with
      | none => rfl
      | some _ => rw [hc] at hcal; simp at hcal
    rw [hcal] at g5
    have hcal' := elabOpt_none g5
    cases f with
    | mk ty flags cal cond xs0 =>
    cases g4 with
    | mk hf ht hc hx =>
    subst hf
    simp only [calcOf] at hcal'
    subst hcal'
    refine ⟨g2, ?_⟩
    rw [g2, elabParams_names g3]
    refine .mk (elabParams_defaults g3 hdef) (lowerXforms_says hm hs hx gx.transforms hxs) ?_
    unfold lowerBody at hb
    simp only [gbind_ok] at hb
    obtain ⟨c, hcl, hb⟩ := hb
    have i2 := lowerOpt_says hm hs hc gx.condition hcl
    have gt := gx.type
    split at hb
    · rename_i tag len its isEnum hxt
      simp only [gbind_ok] at hb
      obtain ⟨l, hlen, hb⟩ := hb
      rw [hxt] at ht gt
      cases ht with
      | container q1 hfl q2 q3 q4 hit q5 =>
        rename_i fl' items' cells'
        have hd1 := g7.2
        rw [DistinctField, DistinctTy] at hd1
        rw [PadFreeField, PadFreeTy] at hp
        have hdeep : ∀ f ∈ cells', Deep h f := by
          intro f' hf'
          refine g8.item g1 ?_
          rw [hxt, q4, filed hd1.1 hp.1]
          exact itemCells_all q3 f' hf'
        rw [q4, filed hd1.1 hp.1] at hb
        have i3 := lowerOpt_says hm hs q1 gt hlen
        split at hb
        · cases hb
        · rename_i hcn
          cases c with
          | some _ => simp at hcn
          | none =>
          have hcn := lowerOpt_none hcl
          rw [hcn] at hc
          cases elabOpt_none hc
          split at hb
          · rename_i hE
            simp only [gbind_ok] at hb
            obtain ⟨arms, harms, hb⟩ := hb
            cases hb
            exact .tagged (hfl.1 hE) i3 (lowerArms_says hm m _ hit q5 hd1.1 hd1.2 hp.2 hdeep hs.empty harms)
          · rename_i hE
            simp only [gbind_ok] at hb
            obtain ⟨fs, hfs, hb⟩ := hb
            cases hb
            exact .struct (fun h => hE (hfl.2 h)) i3
              (lowerItems_says hm m _ _ _ _ _ hit q5 hd1.1 hd1.2 hp.2 hdeep hs hfs)
    · simp only [gbind_ok] at hb
      obtain ⟨r, hr, hb⟩ := hb
      split at hb
      · split at hb
        · cases hb
        · rename_i hcn
          cases hb
          cases c with
          | some _ => simp at hcn
          | none =>
          have hcn := lowerOpt_none hcl
          rw [hcn] at hc
          cases elabOpt_none hc
          exact .repr (lowerRepr_says hm hs ht g6 gt hr)
      · simp only [gbind_ok] at hb
        obtain ⟨lt, hty, hb⟩ := hb
        cases hb
        exact .leaf (lowerTy_says hm hs ht gt hty) i2

end Verif.Sem
