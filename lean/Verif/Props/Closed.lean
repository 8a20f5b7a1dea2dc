import Verif.Sem.Closed
import Verif.Sem.PreludeEnv
import Verif.Props.Parser
/-!
# C53: accepted programs are self-contained

Specification: the fields an expression or a type names (`AExpr.cells`, `AType.cells`, `AField.cells`) and the
fields whose values an expression depends on (`AExpr.reads`).
-/
namespace Verif.Sem
open Verif

mutual
/-- The fields whose values an expression depends on: the ones it names, and the ones the values of the
constants, variants and flags it names depend on. -/
def AExpr.reads : AExpr → List FId
  | .binary _ l r => l.reads ++ r.reads
  | .unary _ e => e.reads
  | .cast e _ => e.reads
  | .index a i => a.reads ++ i.reads
  | .enumAccess _ c => c.reads
  | .int _ _ => []
  | .constRef c => c.reads
  | .inputRef _ _ => []
  | .fieldRef f => [f]
  | .str _ _ => []
  | .ternary c t f => c.reads ++ t.reads ++ f.reads
  | .bool _ => []
  | .call _ _ args => AExpr.readsAll args
  | .member e c => e.reads ++ c.reads
def AExpr.readsAll : List AExpr → List FId
  | [] => []
  | e :: es => e.reads ++ AExpr.readsAll es
def AConst.reads : AConst → List FId
  | .mk _ _ v => v.reads
end

mutual
/-- Every field an expression names anywhere. -/
def AExpr.cells : AExpr → List FId
  | .binary _ l r => l.cells ++ r.cells
  | .unary _ e => e.cells
  | .cast e ty => e.cells ++ ty.cells
  | .index a i => a.cells ++ i.cells
  | .enumAccess f c => f :: c.cells
  | .int _ _ => []
  | .constRef c => c.cells
  | .inputRef _ ty => ty.cells
  | .fieldRef f => [f]
  | .str _ _ => []
  | .ternary c t f => c.cells ++ t.cells ++ f.cells
  | .bool _ => []
  | .call _ ret args => ret.cells ++ AExpr.cellsAll args
  | .member e c => e.cells ++ c.cells
def AExpr.cellsAll : List AExpr → List FId
  | [] => []
  | e :: es => e.cells ++ AExpr.cellsAll es
def AExpr.cellsOpt : Option AExpr → List FId
  | none => []
  | some e => e.cells
def AConst.cells : AConst → List FId
  | .mk _ ty v => ty.cells ++ v.cells
def AConst.cellsAll : List AConst → List FId
  | [] => []
  | c :: cs => c.cells ++ AConst.cellsAll cs
def AVariant.cells : AVariant → List FId
  | .value c => c.cells
  | .default _ => []
def AVariant.cellsAll : List AVariant → List FId
  | [] => []
  | v :: vs => v.cells ++ AVariant.cellsAll vs
/-- Every field a type names anywhere. -/
def AType.cells : AType → List FId
  | .container _ len items _ => AExpr.cellsOpt len ++ items.map (·.2)
  | .enum _ _ _ vs => AVariant.cellsAll vs
  | .bitfield _ _ _ cs => AConst.cellsAll cs
  | .array _ el _ len => el.cells ++ AExpr.cellsOpt len
  | .ref f args => f :: AExpr.cellsAll args
  | .scalar _ | .foreign _ | .f32 | .f64 | .bool => []
end

/-- Every field a field names anywhere. -/
def AField.cells (x : AField) : List FId :=
  x.arguments.flatMap (fun a => a.type.cells ++ AExpr.cellsOpt a.default) ++ x.type.cells ++
  AExpr.cellsOpt x.calculated ++ AExpr.cellsOpt x.condition ++
  x.transforms.flatMap (fun t => AExpr.cellsOpt t.condition ++ AExpr.cellsAll t.args)

/-! ## Well-formedness in those terms -/

mutual
theorem WfE.cells {N : Nat} : ∀ (e : AExpr) {S : FId → Prop}, WfE N S e → ∀ f ∈ e.cells, f < N
  | .binary _ l r, S, h, f, hf => by
    rw [WfE] at h; rw [AExpr.cells, List.mem_append] at hf
    exact hf.elim (WfE.cells l h.1 f) (WfE.cells r h.2 f)
  | .unary _ e, S, h, f, hf => by rw [WfE] at h; rw [AExpr.cells] at hf; exact WfE.cells e h f hf
  | .cast e ty, S, h, f, hf => by
    rw [WfE] at h; rw [AExpr.cells, List.mem_append] at hf
    exact hf.elim (WfE.cells e h.1 f) (WfTy.cells ty h.2 f)
  | .index l r, S, h, f, hf => by
    rw [WfE] at h; rw [AExpr.cells, List.mem_append] at hf
    exact hf.elim (WfE.cells l h.1 f) (WfE.cells r h.2 f)
  | .enumAccess g c, S, h, f, hf => by
    rw [WfE] at h; rw [AExpr.cells, List.mem_cons] at hf
    rcases hf with rfl | hf
    · exact h.1
    · exact WfC.cells c h.2 f hf
  | .int _ _, S, h, f, hf => by rw [AExpr.cells] at hf; cases hf
  | .constRef c, S, h, f, hf => by rw [WfE] at h; rw [AExpr.cells] at hf; exact WfC.cells c h f hf
  | .inputRef _ ty, S, h, f, hf => by rw [WfE] at h; rw [AExpr.cells] at hf; exact WfTy.cells ty h f hf
  | .fieldRef g, S, h, f, hf => by
    rw [WfE] at h; rw [AExpr.cells, List.mem_singleton] at hf; exact hf ▸ h.1
  | .str _ _, S, h, f, hf => by rw [AExpr.cells] at hf; cases hf
  | .ternary c t e, S, h, f, hf => by
    rw [WfE] at h; rw [AExpr.cells, List.mem_append, List.mem_append] at hf
    exact hf.elim (fun hf => hf.elim (WfE.cells c h.1 f) (WfE.cells t h.2.1 f)) (WfE.cells e h.2.2 f)
  | .bool _, S, h, f, hf => by rw [AExpr.cells] at hf; cases hf
  | .call _ ret args, S, h, f, hf => by
    rw [WfE] at h; rw [AExpr.cells, List.mem_append] at hf
    exact hf.elim (WfTy.cells ret h.1 f) (WfEs.cells args h.2 f)
  | .member e c, S, h, f, hf => by
    rw [WfE] at h; rw [AExpr.cells, List.mem_append] at hf
    exact hf.elim (WfE.cells e h.1 f) (WfC.cells c h.2 f)
theorem WfEs.cells {N : Nat} : ∀ (es : List AExpr) {S : FId → Prop}, WfEs N S es → ∀ f ∈ AExpr.cellsAll es, f < N
  | [], S, h, f, hf => by rw [AExpr.cellsAll] at hf; cases hf
  | e :: es, S, h, f, hf => by
    rw [WfEs] at h; rw [AExpr.cellsAll, List.mem_append] at hf
    exact hf.elim (WfE.cells e h.1 f) (WfEs.cells es h.2 f)
theorem WfOpt.cells {N : Nat} : ∀ (e : Option AExpr) {S : FId → Prop}, WfOpt N S e → ∀ f ∈ AExpr.cellsOpt e, f < N
  | none, S, h, f, hf => by rw [AExpr.cellsOpt] at hf; cases hf
  | some e, S, h, f, hf => by rw [WfOpt] at h; rw [AExpr.cellsOpt] at hf; exact WfE.cells e h f hf
theorem WfC.cells {N : Nat} : ∀ (c : AConst), WfC N c → ∀ f ∈ c.cells, f < N
  | .mk _ ty v, h, f, hf => by
    rw [WfC] at h; rw [AConst.cells, List.mem_append] at hf
    exact hf.elim (WfTy.cells ty h.1 f) (WfE.cells v h.2 f)
theorem WfCs.cells {N : Nat} : ∀ (cs : List AConst), WfCs N cs → ∀ f ∈ AConst.cellsAll cs, f < N
  | [], h, f, hf => by rw [AConst.cellsAll] at hf; cases hf
  | c :: cs, h, f, hf => by
    rw [WfCs] at h; rw [AConst.cellsAll, List.mem_append] at hf
    exact hf.elim (WfC.cells c h.1 f) (WfCs.cells cs h.2 f)
theorem WfV.cells {N : Nat} : ∀ (c : AVariant), WfV N c → ∀ f ∈ c.cells, f < N
  | .value c, h, f, hf => by rw [WfV] at h; rw [AVariant.cells] at hf; exact WfC.cells c h f hf
  | .default _, h, f, hf => by rw [AVariant.cells] at hf; cases hf
theorem WfVs.cells {N : Nat} : ∀ (cs : List AVariant), WfVs N cs → ∀ f ∈ AVariant.cellsAll cs, f < N
  | [], h, f, hf => by rw [AVariant.cellsAll] at hf; cases hf
  | c :: cs, h, f, hf => by
    rw [WfVs] at h; rw [AVariant.cellsAll, List.mem_append] at hf
    exact hf.elim (WfV.cells c h.1 f) (WfVs.cells cs h.2 f)
theorem WfTy.cells {N : Nat} : ∀ (t : AType), WfTy N t → ∀ f ∈ t.cells, f < N
  | .container _ len items _, h, f, hf => by
    rw [WfTy] at h; rw [AType.cells, List.mem_append, List.mem_map] at hf
    rcases hf with hf | ⟨x, hx, rfl⟩
    · exact WfOpt.cells len h.1 f hf
    · exact h.2 x hx
  | .enum _ _ _ vs, h, f, hf => by rw [WfTy] at h; rw [AType.cells] at hf; exact WfVs.cells vs h f hf
  | .bitfield _ _ _ vs, h, f, hf => by rw [WfTy] at h; rw [AType.cells] at hf; exact WfCs.cells vs h f hf
  | .array _ el _ len, h, f, hf => by
    rw [WfTy] at h; rw [AType.cells, List.mem_append] at hf
    exact hf.elim (WfTy.cells el h.1 f) (WfOpt.cells len h.2 f)
  | .ref g args, h, f, hf => by
    rw [WfTy] at h; rw [AType.cells, List.mem_cons] at hf
    rcases hf with rfl | hf
    · exact h.1
    · exact WfEs.cells args h.2 f hf
  | .scalar _, h, f, hf => by rw [AType.cells] at hf; cases hf
  | .foreign _, h, f, hf => by rw [AType.cells] at hf; cases hf
  | .f32, h, f, hf => by rw [AType.cells] at hf; cases hf
  | .f64, h, f, hf => by rw [AType.cells] at hf; cases hf
  | .bool, h, f, hf => by rw [AType.cells] at hf; cases hf
end

mutual
theorem WfE.reads {N : Nat} : ∀ (e : AExpr) {S : FId → Prop}, WfE N S e → ∀ f ∈ e.reads, S f
  | .binary _ l r, S, h, f, hf => by
    rw [WfE] at h; rw [AExpr.reads, List.mem_append] at hf
    exact hf.elim (WfE.reads l h.1 f) (WfE.reads r h.2 f)
  | .unary _ e, S, h, f, hf => by rw [WfE] at h; rw [AExpr.reads] at hf; exact WfE.reads e h f hf
  | .cast e ty, S, h, f, hf => by
    rw [WfE] at h; rw [AExpr.reads] at hf; exact WfE.reads e h.1 f hf
  | .index l r, S, h, f, hf => by
    rw [WfE] at h; rw [AExpr.reads, List.mem_append] at hf
    exact hf.elim (WfE.reads l h.1 f) (WfE.reads r h.2 f)
  | .enumAccess g c, S, h, f, hf => by
    rw [WfE] at h; rw [AExpr.reads] at hf
    exact (WfC.reads c h.2 f hf).elim
  | .int _ _, S, h, f, hf => by rw [AExpr.reads] at hf; cases hf
  | .constRef c, S, h, f, hf => by
    rw [WfE] at h; rw [AExpr.reads] at hf; exact (WfC.reads c h f hf).elim
  | .inputRef _ ty, S, h, f, hf => by rw [AExpr.reads] at hf; cases hf
  | .fieldRef g, S, h, f, hf => by
    rw [WfE] at h; rw [AExpr.reads, List.mem_singleton] at hf; exact hf ▸ h.2
  | .str _ _, S, h, f, hf => by rw [AExpr.reads] at hf; cases hf
  | .ternary c t e, S, h, f, hf => by
    rw [WfE] at h; rw [AExpr.reads, List.mem_append, List.mem_append] at hf
    exact hf.elim (fun hf => hf.elim (WfE.reads c h.1 f) (WfE.reads t h.2.1 f)) (WfE.reads e h.2.2 f)
  | .bool _, S, h, f, hf => by rw [AExpr.reads] at hf; cases hf
  | .call _ ret args, S, h, f, hf => by
    rw [WfE] at h; rw [AExpr.reads] at hf; exact WfEs.reads args h.2 f hf
  | .member e c, S, h, f, hf => by
    rw [WfE] at h; rw [AExpr.reads, List.mem_append] at hf
    exact hf.elim (WfE.reads e h.1 f) fun hf => (WfC.reads c h.2 f hf).elim
theorem WfEs.reads {N : Nat} : ∀ (es : List AExpr) {S : FId → Prop}, WfEs N S es → ∀ f ∈ AExpr.readsAll es, S f
  | [], S, h, f, hf => by rw [AExpr.readsAll] at hf; cases hf
  | e :: es, S, h, f, hf => by
    rw [WfEs] at h; rw [AExpr.readsAll, List.mem_append] at hf
    exact hf.elim (WfE.reads e h.1 f) (WfEs.reads es h.2 f)
theorem WfC.reads {N : Nat} : ∀ (c : AConst), WfC N c → ∀ f ∈ c.reads, False
  | .mk _ ty v, h, f, hf => by
    rw [WfC] at h; rw [AConst.reads] at hf
    exact WfE.reads v h.2 f hf
end

theorem WfField.cells {N : Nat} {x : AField} (h : WfField N x) : ∀ f ∈ x.cells, f < N := by
  intro f hf
  unfold AField.cells at hf
  simp only [List.mem_append, List.mem_flatMap] at hf
  rcases hf with (((⟨a, ha, hf⟩ | hf) | hf) | hf) | ⟨t, ht, hf⟩
  · exact hf.elim (WfTy.cells _ (h.arguments a ha).1 f) (WfOpt.cells _ (h.arguments a ha).2 f)
  · exact WfTy.cells _ h.type f hf
  · exact WfOpt.cells _ h.calculated f hf
  · exact WfOpt.cells _ h.condition f hf
  · exact hf.elim (WfOpt.cells _ (h.transforms t ht).1 f) (WfEs.cells _ (h.transforms t ht).2 f)

/-! ## The builtin resolver -/

theorem scalarFrom_solid {k : Scalar} {h : Heap} (hh : WfHeap h) {t : AType} (ht : WfTy h.length t) :
    Solid (scalarFrom k h t) := by
  refine .bind (resolve_tight hh ht) fun t _ => ?_
  split <;> exact .ok trivial

theorem preludeFrom_solid {n : String} {h : Heap} (hh : WfHeap h) {t : AType} (ht : WfTy h.length t) :
    Solid (preludeFrom n h t) := by
  unfold preludeFrom
  split
  · exact scalarFrom_solid hh ht
  · rw [WfTy] at ht; exact scalarFrom_solid hh ht.1
  · exact .ok trivial

theorem preludeTo_solid {n : String} {h : Heap} (hh : WfHeap h) {t : AType} (ht : WfTy h.length t) :
    Solid (preludeTo n h t) := by
  unfold preludeTo
  split
  · exact .ok trivial
  · exact .ok trivial
  · exact .ok trivial
  · exact preludeFrom_solid hh ht

theorem preludeToPartial_solid {n : String} {h : Heap} (hh : WfHeap h) {P : PType} (hP : WfP h.length P) :
    Solid (preludeToPartial n h P) := by
  unfold preludeToPartial
  split
  · rw [WfP] at hP; exact preludeTo_solid hh hP
  · exact .ok trivial
  · split
    · exact preludeFrom_solid hh wfScalar
    · exact preludeTo_solid hh wfScalar
  · split
    · exact .ok trivial
    · exact preludeTo_solid hh wfScalar
  · exact .ok trivial
  · exact .ok trivial

theorem builtin_wf {n : String} {sig : FnSig} (h : builtin n = some sig) :
    WfTy 0 sig.ret ∧ ∀ a ∈ sig.arguments, ∀ t, a.type = some t → WfTy 0 t := by
  unfold builtin at h
  split at h <;> cases h <;> refine ⟨wfScalar, ?_⟩ <;> intro a ha t ht <;>
    simp only [List.mem_cons, List.not_mem_nil, or_false] at ha
  all_goals first
    | (subst ha; cases ht; try exact wfScalar)
    | (rcases ha with rfl | rfl <;> cases ht <;> exact wfScalar)

theorem preludeEnv_closed (modules : List (String × Ast.Program)) : EnvClosed (preludeEnv modules) where
  same _ _ _ := by simp [preludeEnv]
  ftFrom _ _ _ hh ht := (preludeFrom_solid hh ht).1
  ftTo _ _ _ hh ht := (preludeTo_solid hh ht).1
  ftToPartial _ _ _ hh hP := (preludeToPartial_solid hh hP).1
  normalize _ := by simp [preludeEnv]
  load _ := by simp [preludeEnv]
  ffiType n := .ok fun as has a ha => by
    unfold builtinType at has
    split at has
    · cases has
      cases List.mem_singleton.1 ha
      exact ⟨wfScalar, by rw [WfOpt, WfE]; trivial⟩
    · cases has
      cases List.mem_singleton.1 ha
      exact ⟨wfScalar, by rw [WfOpt]; trivial⟩
    · obtain ⟨_, _, rfl⟩ := Option.map_eq_some_iff.1 has
      cases ha
  ffiTransform n := .ok fun as has a ha => by
    split at has <;> cases has
    cases ha
  ffiFunction n := .ok fun sig hs => builtin_wf hs
  prelude x hx := by
    obtain ⟨n, _, hx⟩ := List.mem_filterMap.1 hx
    obtain ⟨sig, hs, rfl⟩ := Option.map_eq_some_iff.1 hx
    exact builtin_wf hs

end Verif.Sem

namespace Verif.Props
open Verif Sem

/-- The values the enum variants or bitfield flags of a type stand for. -/
def namedValues : AType → List AConst
  | .enum _ _ _ vs => vs.filterMap fun v => match v with | .value c => some c | .default _ => none
  | .bitfield _ _ _ cs => cs
  | _ => []

theorem namedValues_wf {N : Nat} {t : AType} (ht : WfTy N t) : ∀ c ∈ namedValues t, WfC N c := by
  intro c hc
  unfold namedValues at hc
  split at hc
  · rw [WfTy, WfVs_iff] at ht
    obtain ⟨v, hv, he⟩ := List.mem_filterMap.1 hc
    have := ht v hv
    cases v with
    | value c' => cases he; rwa [WfV] at this
    | default n => cases he
  · rw [WfTy, WfCs_iff] at ht; exact ht c hc
  · cases hc

/-- C53. Every field that an accepted program names anywhere — as the type of a field, in an expression, as an
item of a container, as a declared type — is one of the program's. -/
theorem self_contained (env : Sem.Env) (he : EnvClosed env) (n : Nat) (ast : Ast.Program) (p : Prog) (h : Heap)
    (loads : List String) (hc : convert env n ast = .ok (p, h, loads)) :
    (∀ (f : FId) (x : AField), h[f]? = some x → ∀ g ∈ x.cells, g < h.length) ∧
    (∀ x ∈ p.types, x.2 < h.length) ∧
    (∀ x ∈ p.consts, ∀ g ∈ x.2.cells, g < h.length) := by
  obtain ⟨hh, hp⟩ := (convert_tight he n ast).2 _ hc
  exact ⟨fun f x hx => (hh f x hx).cells, hp.types, fun x hx => WfC.cells _ (hp.consts x hx)⟩

/-- C53. The values of constants, of enum variants and of bitfield flags depend on no field: not directly, and
not by way of other constants. So they are the same in every message. -/
theorem named_values_fixed (env : Sem.Env) (he : EnvClosed env) (n : Nat) (ast : Ast.Program) (p : Prog) (h : Heap)
    (loads : List String) (hc : convert env n ast = .ok (p, h, loads)) :
    (∀ x ∈ p.consts, x.2.reads = []) ∧
    (∀ (f : FId) (x : AField), h[f]? = some x → ∀ c ∈ namedValues x.type, c.reads = []) := by
  obtain ⟨hh, hp⟩ := (convert_tight he n ast).2 _ hc
  refine ⟨fun x hx => ?_, fun f x hx c hm => ?_⟩
  · exact List.eq_nil_iff_forall_not_mem.2 fun g hg => WfC.reads _ (hp.consts x hx) g hg
  · exact List.eq_nil_iff_forall_not_mem.2 fun g hg => WfC.reads _ (namedValues_wf (hh f x hx).type c hm) g hg

/-- C53. Conversion never looks for a field that is not there, accepted or not. -/
theorem never_dangling (env : Sem.Env) (he : EnvClosed env) (n : Nat) (ast : Ast.Program) :
    convert env n ast ≠ .error .dangling := (convert_tight he n ast).1

/-! ### Cases -/

def closedSource : String :=
  "const k: u8 = 3; type e = enum u8 { a = k, b }; type t = container { x: e, y: u8[k] };"

/-- The constants of a source and the values its enums and bitfields name, with what they depend on. -/
def valuesOf (src : String) : Option (List (String × List FId)) :=
  match parse (ascii src) with
  | .error _ => none
  | .ok ast => match convert (preludeEnv []) 0 ast with
    | .error _ => none
    | .ok (p, h, _) => some (p.consts.map (fun x => (x.1, x.2.reads)) ++
        (h.flatMap fun x => namedValues x.type).map fun c => (c.name, c.reads))

/-- The hypotheses are met by the resolver protospec comes with, whatever modules there are. -/
example (modules : List (String × Ast.Program)) : EnvClosed (preludeEnv modules) := preludeEnv_closed modules
example : valuesOf closedSource = some [("k", []), ("a", []), ("b", [])] := by decide +kernel

/-- A constant cannot name a field, and neither can an enum variant. -/
example : valuesOf "const k: u8 = x; type t = container { x: u8 };" = none ∧
    valuesOf "type e = enum u8 { a = x }; type t = container { x: u8 };" = none := by decide +kernel
/-- Without the restriction to names, there is something to depend on. -/
example : (AExpr.binary .add (.constRef (.mk "k" .bool (.fieldRef 2))) (.fieldRef 5)).reads = [2, 5] := by
  simp [AExpr.reads, AConst.reads]

end Verif.Props
