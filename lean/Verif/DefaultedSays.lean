import Verif.Defaulted
import Verif.Props.Says
/-!
# Default values of parameters: what they say
-/
namespace Verif

/-- The parameters of a declaration without their default values. -/
def plainParams (params : List Ast.TypeArg) : List Ast.TypeArg := params.map fun a => { a with default := none }

/-- The default values of the parameters of a declaration, in order. Each may mention the parameters before it and its
own. `before` are the parameters before these. -/
inductive SaysDefaults (ms : Modules) (text : Ast.Program) : List Ast.TypeArg → List Ast.TypeArg → List (Option Expr) → Prop
  | nil {before} : SaysDefaults ms text before [] []
  | cons {before a rest d ds} : SaysOpt ms text (.start (before ++ [a])) a.default d →
      SaysDefaults ms text (before ++ [a]) rest ds → SaysDefaults ms text before (a :: rest) (d :: ds)

theorem plainParams_names (params : List Ast.TypeArg) : (plainParams params).map (·.name) = params.map (·.name) := by
  simp [plainParams]

theorem plainParams_start (params : List Ast.TypeArg) : InView.start (plainParams params) = InView.start params := by
  simp [InView.start, plainParams, Function.comp_def]

theorem saysDecl_plain {ms : Modules} {oc : Bool} {text : Ast.Program} {n : String} {params : List Ast.TypeArg} {ty : Ast.Ty}
    {cond : Option Ast.Expression} {xs : List Ast.Transform} {xs' : List XformUse} {body : Body}
    (h1 : SaysXforms ms text (.start params) xs xs') (h2 : SaysBody ms oc text n (.start params) ty cond body) :
    SaysDecl ms oc text (.type n (plainParams params) (.mk ty [] none cond xs)) ⟨n, params.map (·.name), xs', body⟩ := by
  rw [← plainParams_start] at h1 h2
  rw [← plainParams_names]
  refine .mk (fun a ha => ?_) h1 h2
  obtain ⟨b, -, rfl⟩ := List.mem_map.1 ha
  rfl

namespace Sem

theorem lowerParamNames_ok : ∀ {as : List AArg} {ps : List String}, lowerParamNames as = .ok ps → ps = as.map (·.name)
  | [], ps, h => by cases h; rfl
  | a :: as, ps, h => by
    rw [lowerParamNames] at h
    split at h
    · rw [gmap_ok] at h
      obtain ⟨qs, hq, rfl⟩ := h
      obtain rfl := lowerParamNames_ok hq
      rfl
    · cases h

/-- With some parameters in view and nothing else. -/
theorem Sees.withInputs {q : Prog} {h : Heap} {l : List (String × AType)} {tys : List (String × Ast.Ty)} (I : Inputs q l tys) :
    Sees q h (⟨[], insertAll [] l⟩ :: topScope) ⟨[], tys.reverse⟩ := by
  have noF : ∀ n f, ¬ FieldVisible (⟨[], insertAll [] l⟩ :: topScope) n f := by
    intro n f hv
    cases hv with
    | here hg => simp [IMap.get] at hg
    | outer _ hv => exact no_field_top hv
  refine ⟨fun n f x hv => absurd hv (noF n f), fun n => ⟨?_, ?_⟩, fun n f x ty hv => absurd hv (noF n f),
    fun n => ?_, fun n t ty hv hn => ?_⟩
  · rintro ⟨ty, h⟩; cases h
  · rintro ⟨f, hv⟩; exact absurd hv (noF n f)
  · rcases inputs_match I n [] with ⟨e1, e2⟩ | ⟨ty, t, e1, e2, -⟩
    · constructor
      · rintro ⟨ty, h1⟩
        rw [e1] at h1; cases h1
      · rintro ⟨t, hv⟩
        cases hv with
        | here hg => rw [e2] at hg; cases hg
        | outer _ hv => exact absurd hv no_input_top
    · exact ⟨fun _ => ⟨t, .here e2⟩, fun _ => ⟨ty, e1⟩⟩
  · rcases inputs_match I n [] with ⟨e1, e2⟩ | ⟨ty', t', e1, e2, e3⟩
    · rw [e1] at hn; cases hn
    · rw [e1] at hn
      cases hn
      cases hv with
      | here hg => rw [e2] at hg; cases hg; exact e3
      | outer _ hv => exact absurd hv no_input_top

/-- The default values of a declared type are grounded. -/
theorem Made.defaultsGrounded {env : Env} {h : Heap} {ast : Ast.Program} {p : Prog} (hc : Made env h ast p) {n : String}
    {args : List Ast.TypeArg} {f : Ast.Field} (hd : .type n args f ∈ ast) {k : FId} (hk : IMap.get p.types n = some k)
    {x : AField} (hx : h[k]? = some x) : ∀ a ∈ x.arguments, ∀ e, a.default = some e → Grounded h e := by
  cases hc with
  | @mk mods texts _ _ s s' h1 h2 h3 h4 =>
    obtain ⟨pre, post, rfl⟩ := List.append_of_mem hd
    obtain ⟨k', y, g1, g2, -, g3⟩ := (Verif.Props.typed_as_asked_partial env mods _ p s s' h3).1 pre n args f post rfl
    rw [hk] at g1
    cases g1
    obtain ⟨z, hz, e⟩ := h4 k y g2
    rw [hx] at hz
    cases hz
    have ea : x.arguments = y.arguments := by unfold Flagged at e; rw [e]
    rw [ea]
    intro a ha d hd
    exact (g3.1 a ha).2 d hd |>.grounded.later h4

theorem Inputs.snoc {q : Prog} {l : List (String × AType)} {tys : List (String × Ast.Ty)} (I : Inputs q l tys) {n : String}
    {t : AType} {ty : Ast.Ty} (ht : TyIs q ty t) : Inputs q (l ++ [(n, t)]) (tys ++ [(n, ty)]) := by
  induction I with
  | nil => exact .cons ht .nil
  | cons h _ ih => exact .cons h ih

theorem lowerDefault_ok {h : Heap} {o : Option AExpr} {d : Option Expr} (hl : lowerDefault h o = .ok d) :
    lowerOpt h o = .ok d := by
  cases o with
  | none => exact hl
  | some e =>
    simp only [lowerDefault, gbind_ok] at hl
    obtain ⟨e', h1, hl⟩ := hl
    split at hl
    · cases hl; simp [lowerOpt, h1, Except.map]
    · cases hl

section
variable {env : Env} [Builtins env] {h : Heap} {text : Ast.Program} {q : Prog} (hm : Made env h text q)
include hm

theorem lowerDefaults_say : ∀ {before args : List Ast.TypeArg} {l : List (String × AType)} {as : List AArg}
    {ds : List (Option Expr)},
    Inputs q l (before.map fun a => (a.name, a.type)) → ElabParams q h topScope (insertAll [] l) args as →
    (∀ a ∈ as, ∀ e, a.default = some e → Grounded h e) → lowerDefaults h as = .ok ds →
    SaysDefaults (modulesOf env) text before args ds
  | before, [], l, as, ds, I, he, hg, hl => by
    cases he
    cases hl
    exact .nil
  | before, a :: rest, l, as, ds, I, he, hg, hl => by
    cases he with
    | @cons _ _ _ t d as' h1 h2 h3 =>
      simp only [lowerDefaults, gbind_ok] at hl
      obtain ⟨d', hd', ds', hds', hl⟩ := hl
      cases hl
      have I' : Inputs q (l ++ [(a.name, t)]) ((before ++ [a]).map fun a => (a.name, a.type)) := by
        rw [List.map_append]
        exact Inputs.snoc I (elabTy_is h1)
      have es : IMap.insert (insertAll [] l) a.name t = insertAll [] (l ++ [(a.name, t)]) := by
        rw [insertAll_append]; rfl
      rw [es] at h2 h3
      have hs := Sees.withInputs (h := h) I'
      have hs' : Sees q h (⟨[], insertAll [] (l ++ [(a.name, t)])⟩ :: topScope) (.start (before ++ [a])) := hs
      refine .cons (lowerOpt_says hm hs' h2 (hg _ List.mem_cons_self) (lowerDefault_ok hd')) ?_
      exact lowerDefaults_say I' h3 (fun b hb => hg b (List.mem_cons_of_mem _ hb)) hds'

theorem defaults_say {n : String} {args : List Ast.TypeArg} {f : Ast.Field} (hd : .type n args f ∈ text) {id : FId}
    (hg : IMap.get q.types n = some id) {x : AField} (hx : h[id]? = some x)
    (he : ElabParams q h topScope [] args x.arguments) {ds : List (Option Expr)}
    (hl : lowerDefaults h x.arguments = .ok ds) : SaysDefaults (modulesOf env) text [] args ds :=
  lowerDefaults_say hm (l := []) .nil he (hm.defaultsGrounded hd hg hx) hl
end

/-- What the generators are given for a declaration with default values. -/
theorem lowerEntry_says {env : Env} [Builtins env] {h : Heap} {oc : Bool} {text : Ast.Program} {q : Prog} (hm : Made env h text q) {m : Nat}
    {n : String} {args : List Ast.TypeArg} {f : Ast.Field} (hd : .type n args f ∈ text) {id : FId}
    (hg : IMap.get q.types n = some id) (hp : PadFreeField f) {e : Entry} (hl : lowerEntry oc h m id = .ok e) :
    e.decl.name = n ∧ SaysDecl (modulesOf env) oc text (.type n (plainParams args) f) e.decl ∧
      SaysDefaults (modulesOf env) text [] args e.defaults := by
  obtain ⟨x, g1, g2, g3, g4, g5, g6, g7, g8⟩ := hm.cell hd hg
  have hs := Sees.params_only g3
  obtain ⟨gx, -⟩ := g8 x g1
  unfold lowerEntry at hl
  rw [deref_some g1] at hl
  simp only [gbind_ok, ofR_ok, Except.ok.injEq, exists_eq_left'] at hl
  obtain ⟨ps, hps, ds, hds, xs, hxs, b, hb, hl⟩ := hl
  obtain rfl := lowerParamNames_ok hps
  split at hl
  · cases hl
  · rename_i hcal
    cases hl
    have hcal : x.calculated = none := by
      cases hc : x.calculated with
      | none => rfl
      | some _ => rw [hc] at hcal; simp at hcal
    rw [hcal] at g5
    have hcal' := elabOpt_none g5
    cases f with
    | mk ty flags cal cond xs0 =>
    cases g4 with
    | mk hf ht hc hx =>
    subst hf
    simp only [calcOf] at hcal'
    subst hcal'
    refine ⟨g2, ?_, defaults_say hm hd hg g1 g3 hds⟩
    rw [g2, elabParams_names g3]
    refine saysDecl_plain (lowerXforms_says hm hs hx gx.transforms hxs) ?_
    unfold lowerBody at hb
    simp only [gbind_ok] at hb
    obtain ⟨c, hcl, hb⟩ := hb
    have i2 := lowerOpt_says hm hs hc gx.condition hcl
    have gt := gx.type
    split at hb
    · rename_i tag len its isEnum hxt
      simp only [gbind_ok] at hb
      obtain ⟨l, hlen, hb⟩ := hb
      rw [hxt] at ht gt
      cases ht with
      | container q1 hfl q2 q3 q4 hit q5 =>
        rename_i fl' items' cells'
        have hd1 := g7.2
        rw [DistinctField, DistinctTy] at hd1
        rw [PadFreeField, PadFreeTy] at hp
        have hdeep : ∀ f ∈ cells', Deep h f := by
          intro f' hf'
          refine g8.item g1 ?_
          rw [hxt, q4, filed hd1.1 hp.1]
          exact itemCells_all q3 f' hf'
        rw [q4, filed hd1.1 hp.1] at hb
        have i3 := lowerOpt_says hm hs q1 gt hlen
        split at hb
        · cases hb
        · rename_i hcn
          cases c with
          | some _ => simp at hcn
          | none =>
          have hcn := lowerOpt_none hcl
          rw [hcn] at hc
          cases elabOpt_none hc
          split at hb
          · rename_i hE
            simp only [gbind_ok] at hb
            obtain ⟨arms, harms, hb⟩ := hb
            cases hb
            exact .tagged (hfl.1 hE) i3 (lowerArms_says hm m _ hit q5 hd1.1 hd1.2 hp.2 hdeep hs.empty harms)
          · rename_i hE
            simp only [gbind_ok] at hb
            obtain ⟨fs, hfs, hb⟩ := hb
            cases hb
            exact .struct (fun h => hE (hfl.2 h)) i3
              (lowerItems_says hm m _ _ _ _ _ hit q5 hd1.1 hd1.2 hp.2 hdeep hs hfs)
    · simp only [gbind_ok] at hb
      obtain ⟨r, hr, hb⟩ := hb
      split at hb
      · split at hb
        · cases hb
        · rename_i hcn
          cases hb
          cases c with
          | some _ => simp at hcn
          | none =>
          have hcn := lowerOpt_none hcl
          rw [hcn] at hc
          cases elabOpt_none hc
          exact .repr (lowerRepr_says hm hs ht g6 gt hr)
      · simp only [gbind_ok] at hb
        obtain ⟨lt, hty, hb⟩ := hb
        cases hb
        exact .leaf (lowerTy_says hm hs ht gt hty) i2

end Verif.Sem
