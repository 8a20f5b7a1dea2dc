import Verif.Sem.Passes
/-!
# Duplicate names: what conversion accepts and what it rejects on their account
-/
namespace Verif.Sem
open Verif

/-! ## Specification -/

/-- The names of the fields among the items of a container. -/
def fieldNames : List Ast.Item → List String
  | [] => []
  | .field n _ :: rest => n :: fieldNames rest
  | .pad _ :: rest => fieldNames rest

def itemName : Ast.EnumItem → String | .mk n _ => n
def flagName : Ast.BitItem → String | .mk n _ => n

mutual
/-- No two sibling fields, variants or flags anywhere in the type have the same name. -/
def DistinctTy : Ast.Ty → Prop
  | .container _ _ items => (fieldNames items).Nodup ∧ DistinctItems items
  | .enum _ items => (items.map itemName).Nodup
  | .bitfield _ items => (items.map flagName).Nodup
  | .array el _ _ => DistinctTy el
  | _ => True
def DistinctItems : List Ast.Item → Prop
  | [] => True
  | .field _ f :: rest => DistinctField f ∧ DistinctItems rest
  | .pad _ :: rest => DistinctItems rest
def DistinctField : Ast.Field → Prop
  | .mk type _ _ _ _ => DistinctTy type
end

mutual
/-- No field anywhere in the type has the name of a padding. -/
def PadFreeTy : Ast.Ty → Prop
  | .container _ _ items => (∀ n ∈ fieldNames items, ∀ k, n ≠ padName k) ∧ PadFreeItems items
  | .array el _ _ => PadFreeTy el
  | _ => True
def PadFreeItems : List Ast.Item → Prop
  | [] => True
  | .field _ f :: rest => PadFreeField f ∧ PadFreeItems rest
  | .pad _ :: rest => PadFreeItems rest
def PadFreeField : Ast.Field → Prop
  | .mk type _ _ _ _ => PadFreeTy type
end

/-! ## What is accepted is distinct -/

theorem checkVariant_ok {name : String} {done : List AVariant} {d : Bool} {s s' : St} {u : Unit}
    (h : checkVariant name done d s = .ok (u, s')) :
    name ∉ done.map AVariant.name ∧ d = false ∧ s = s' := by
  unfold checkVariant at h
  split at h
  · exact (fail_ok.1 h).elim
  · rename_i hn
    rw [check_ok] at h
    refine ⟨?_, by simpa using h.1, h.2⟩
    intro hm
    obtain ⟨v, hv, he⟩ := List.mem_map.1 hm
    apply hn
    unfold findVariant
    rw [List.find?_isSome]
    exact ⟨v, hv, by simp [he]⟩

theorem convVariants_distinct {env : Env} {p : Prog} {sc : Scope} {rep : EScalar} :
    ∀ (items : List Ast.EnumItem) {done out : List AVariant} {acc : RepAcc} {d : Bool} {s s' : St},
      convVariants env p sc rep items done acc d s = .ok (out, s') →
      (items.map itemName).Nodup ∧ (∀ n ∈ items.map itemName, n ∉ done.map AVariant.name) ∧
        out.map AVariant.name = done.map AVariant.name ++ items.map itemName
  | [], done, out, acc, d, s, s', h => by
    rw [convVariants, pure_run_ok] at h
    exact ⟨List.nodup_nil, by simp, by rw [h.1]; simp⟩
  | .mk name .default :: rest, done, out, acc, d, s, s', h => by
    rw [convVariants] at h
    simp only [bind_run_ok] at h
    obtain ⟨u, s1, h1, h2⟩ := h
    obtain ⟨hn, -, -⟩ := checkVariant_ok h1
    obtain ⟨a, b, c⟩ := convVariants_distinct rest h2
    simp only [List.map_append, List.map_cons, List.map_nil, AVariant.name, List.mem_append,
      List.mem_singleton, not_or] at b c
    refine ⟨List.nodup_cons.2 ⟨fun hm => (b _ hm).2 rfl, a⟩, ?_, by simp [c, itemName]⟩
    intro m hm
    rcases List.mem_cons.1 hm with rfl | hm
    · exact hn
    · exact (b m hm).1
  | .mk name (.expr e) :: rest, done, out, acc, d, s, s', h => by
    rw [convVariants] at h
    simp only [bind_run_ok] at h
    obtain ⟨u, s1, h1, v, s2, -, h2⟩ := h
    obtain ⟨hn, -, -⟩ := checkVariant_ok h1
    obtain ⟨a, b, c⟩ := convVariants_distinct rest h2
    simp only [List.map_append, List.map_cons, List.map_nil, AVariant.name, AConst.name,
      List.mem_append, List.mem_singleton, not_or] at b c
    refine ⟨List.nodup_cons.2 ⟨fun hm => (b _ hm).2 rfl, a⟩, ?_, by simp [c, itemName]⟩
    intro m hm
    rcases List.mem_cons.1 hm with rfl | hm
    · exact hn
    · exact (b m hm).1
  | .mk name .none :: rest, done, out, acc, d, s, s', h => by
    rw [convVariants] at h
    simp only [bind_run_ok] at h
    obtain ⟨u, s1, h1, v, s2, -, h2⟩ := h
    obtain ⟨hn, -, -⟩ := checkVariant_ok h1
    obtain ⟨a, b, c⟩ := convVariants_distinct rest h2
    simp only [List.map_append, List.map_cons, List.map_nil, AVariant.name, AConst.name,
      List.mem_append, List.mem_singleton, not_or] at b c
    refine ⟨List.nodup_cons.2 ⟨fun hm => (b _ hm).2 rfl, a⟩, ?_, by simp [c, itemName]⟩
    intro m hm
    rcases List.mem_cons.1 hm with rfl | hm
    · exact hn
    · exact (b m hm).1

theorem findFlag_none {done : List AConst} {name : String}
    (h : (findFlag done name).isNone = true) : name ∉ done.map AConst.name := by
  intro hm
  obtain ⟨v, hv, he⟩ := List.mem_map.1 hm
  unfold findFlag at h
  rw [Option.isNone_iff_eq_none, List.find?_eq_none] at h
  exact h v hv (by simp [he])

theorem convFlags_distinct {env : Env} {p : Prog} {sc : Scope} {rep : EScalar} :
    ∀ (items : List Ast.BitItem) {done out : List AConst} {acc : RepAcc} {s s' : St},
      convFlags env p sc rep items done acc s = .ok (out, s') →
      (items.map flagName).Nodup ∧ (∀ n ∈ items.map flagName, n ∉ done.map AConst.name) ∧
        out.map AConst.name = done.map AConst.name ++ items.map flagName
  | [], done, out, acc, s, s', h => by
    rw [convFlags, pure_run_ok] at h
    exact ⟨List.nodup_nil, by simp, by rw [h.1]; simp⟩
  | .mk name (some e) :: rest, done, out, acc, s, s', h => by
    rw [convFlags] at h
    simp only [bind_run_ok, check_ok] at h
    obtain ⟨u, s1, ⟨hn, rfl⟩, v, s2, -, h2⟩ := h
    obtain ⟨a, b, c⟩ := convFlags_distinct rest h2
    simp only [List.map_append, List.map_cons, List.map_nil, AConst.name,
      List.mem_append, List.mem_singleton, not_or] at b c
    refine ⟨List.nodup_cons.2 ⟨fun hm => (b _ hm).2 rfl, a⟩, ?_, by simp [c, flagName]⟩
    intro m hm
    rcases List.mem_cons.1 hm with rfl | hm
    · exact findFlag_none hn
    · exact (b m hm).1
  | .mk name none :: rest, done, out, acc, s, s', h => by
    rw [convFlags] at h
    simp only [bind_run_ok, check_ok] at h
    obtain ⟨u, s1, ⟨hn, rfl⟩, v, s2, -, h2⟩ := h
    obtain ⟨a, b, c⟩ := convFlags_distinct rest h2
    simp only [List.map_append, List.map_cons, List.map_nil, AConst.name,
      List.mem_append, List.mem_singleton, not_or] at b c
    refine ⟨List.nodup_cons.2 ⟨fun hm => (b _ hm).2 rfl, a⟩, ?_, by simp [c, flagName]⟩
    intro m hm
    rcases List.mem_cons.1 hm with rfl | hm
    · exact findFlag_none hn
    · exact (b m hm).1

theorem addField_ok {isEnum cond : Bool} {name : String} {f : FId} {acc acc' : ItemAcc} {s s' : St}
    (h : addField isEnum cond name f acc s = .ok (acc', s')) :
    s = s' ∧ acc' = { acc with
      items := IMap.insert acc.items name f
      declared := IMap.insert acc.declared name f
      hadUnconditional := acc.hadUnconditional || !cond
      pending := acc.pending ++ [f] } ∧ (acc.hadUnconditional && isEnum) = false := by
  unfold addField at h
  simp only [bind_run_ok, check_ok, pure_run_ok] at h
  obtain ⟨u, s1, ⟨h1, rfl⟩, rfl, rfl⟩ := h
  refine ⟨rfl, rfl, ?_⟩
  revert h1
  cases acc.hadUnconditional <;> cases isEnum <;> simp

mutual
theorem convTy_distinct (env : Env) (p : Prog) :
    ∀ (ty : Ast.Ty) (sc : Scope) (pu : Purpose) (s : St) (t : AType) (s' : St),
      convTy env p sc ty pu s = .ok (t, s') → DistinctTy ty
  | .container len fl items => by
    intro sc pu s t s' h
    rw [convTy] at h
    simp only [bind_run_ok] at h
    obtain ⟨_, _, _, _, _, _, isEnum, _, _, _, _, _, acc, _, h1, _⟩ := h
    obtain ⟨a, -, c⟩ := convItems_distinct env p items sc isEnum _ _ _ _ h1
    rw [DistinctTy]
    exact ⟨a, c⟩
  | .enum rep items => by
    intro sc pu s t s' h
    rw [convTy] at h
    simp only [bind_run_ok] at h
    obtain ⟨_, _, _, out, _, h1, _⟩ := h
    rw [DistinctTy]
    exact (convVariants_distinct items h1).1
  | .bitfield rep items => by
    intro sc pu s t s' h
    rw [convTy] at h
    simp only [bind_run_ok] at h
    obtain ⟨_, _, _, out, _, h1, _⟩ := h
    rw [DistinctTy]
    exact (convFlags_distinct items h1).1
  | .array el x len => by
    intro sc pu s t s' h
    have hel := convTy_distinct env p el
    rw [convTy] at h
    simp only [bind_run_ok] at h
    obtain ⟨_, _, _, el', _, h1, _⟩ := h
    rw [DistinctTy]
    exact hel _ _ _ _ _ h1
  | .scalar _ => by intros; rw [DistinctTy] <;> simp
  | .f32 => by intros; rw [DistinctTy] <;> simp
  | .f64 => by intros; rw [DistinctTy] <;> simp
  | .bool => by intros; rw [DistinctTy] <;> simp
  | .ref _ _ => by intros; rw [DistinctTy] <;> simp
theorem convItems_distinct (env : Env) (p : Prog) :
    ∀ (items : List Ast.Item) (sc : Scope) (isEnum : Bool) (acc : ItemAcc) (s : St) (out : ItemAcc)
      (s' : St), convItems env p sc isEnum items acc s = .ok (out, s') →
      (fieldNames items).Nodup ∧ (∀ n ∈ fieldNames items, n ∉ acc.items.map Prod.fst) ∧
        DistinctItems items
  | [] => by
    intro sc isEnum acc s out s' h
    rw [fieldNames, DistinctItems]
    exact ⟨List.nodup_nil, by simp, trivial⟩
  | .field name f :: rest => by
    intro sc isEnum acc s out s' h
    have hf := convMid_distinct env p f
    have hr := convItems_distinct env p rest
    rw [convItems] at h
    simp only [bind_run_ok, check_ok, Option.isNone_iff_eq_none] at h
    obtain ⟨u, s1, ⟨hn, rfl⟩, id, s2, -, b, s3, h3, acc', s4, h4, h5⟩ := h
    obtain ⟨rfl, rfl, -⟩ := addField_ok h4
    obtain ⟨a, b, c⟩ := hr _ _ _ _ _ _ h5
    have hd := hf _ _ _ _ _ _ h3
    rw [fieldNames, DistinctItems]
    simp only [IMap.mem_keys_insert, not_or] at b
    refine ⟨List.nodup_cons.2 ⟨fun hm => (b _ hm).1 rfl, a⟩, ?_, hd, c⟩
    intro m hm
    rcases List.mem_cons.1 hm with rfl | hm
    · exact IMap.get_none_iff.1 hn
    · exact (b m hm).2
  | .pad e :: rest => by
    intro sc isEnum acc s out s' h
    have hr := convItems_distinct env p rest
    rw [convItems] at h
    simp only [bind_run_ok] at h
    obtain ⟨_, _, _, _, _, _, _, _, _, _, _, _, h5⟩ := h
    obtain ⟨a, b, c⟩ := hr _ _ _ _ _ _ h5
    rw [fieldNames, DistinctItems]
    simp only [IMap.mem_keys_insert, not_or] at b
    exact ⟨a, fun m hm => (b m hm).2, c⟩
theorem convMid_distinct (env : Env) (p : Prog) :
    ∀ (f : Ast.Field) (sc : Scope) (pu : Purpose) (id : FId) (s : St) (b : Bool) (s' : St),
      convMid env p sc f pu id s = .ok (b, s') → DistinctField f
  | .mk type flags cal cond xs => by
    intro sc pu id s b s' h
    have ht := convTy_distinct env p type
    rw [convMid] at h
    simp only [bind_run_ok] at h
    obtain ⟨t, s1, h1, _⟩ := h
    rw [DistinctField]
    exact ht _ _ _ _ _ h1
end

/-! ## What is distinct is not rejected on that account -/

/-- The errors that complain of a second declaration of a name. -/
def Redefinition : AsgError → Prop
  | .typeRedefinition _ | .transformRedefinition _ | .functionRedefinition _
  | .constRedefinition _ | .enumVariantRedefinition _ | .bitfieldFlagRedefinition _
  | .containerFieldRedefinition _ => True
  | _ => False

/-- The computation never fails with such an error. -/
def NR {α} (m : M α) : Prop := ∀ s e, m s = .error (.asg e) → ¬ Redefinition e

/-- The computation never does, on values. -/
def NRr {α} (r : R α) : Prop := ∀ e, r = .error (.asg e) → ¬ Redefinition e

theorem nr_pure {α} (a : α) : NR (pure a : M α) := by intro s e h; cases h
theorem nr_bind' {α β} {m : M α} {f : α → M β} (hm : NR m)
    (hf : ∀ s a s', m s = .ok (a, s') → NR (f a)) : NR (m >>= f) := by
  intro s e h
  rw [run_bind] at h
  cases hr : m s with
  | error x => rw [hr] at h; cases h; exact hm s e hr
  | ok x =>
    rw [hr] at h
    exact hf s x.1 x.2 hr x.2 e h
theorem nr_bind {α β} {m : M α} {f : α → M β} (hm : NR m) (hf : ∀ a, NR (f a)) : NR (m >>= f) :=
  nr_bind' hm fun _ a _ _ => hf a
theorem nr_fail {α} {e : AsgError} (h : ¬ Redefinition e) : NR (fail e : M α) := by
  intro s e' h'; cases h'; exact h
theorem nr_withHeap {α} {f : Heap → R α} (h : ∀ x, NRr (f x)) : NR (withHeap f) := by
  intro s e he
  unfold withHeap at he
  cases hr : f s.heap with
  | error x => rw [hr] at he; cases he; exact h _ e hr
  | ok x => rw [hr] at he; cases he
theorem nr_liftR {α} {r : R α} (h : NRr r) : NR (liftR r) := by
  intro s e he
  unfold liftR at he
  cases hr : r with
  | error x => rw [hr] at he; cases he; exact h e hr
  | ok x => rw [hr] at he; cases he
theorem nr_check {c : Bool} {e : AsgError} (h : ¬ Redefinition e) : NR (check c e) := by
  unfold check; split
  · exact nr_pure _
  · exact nr_fail h
theorem nr_check_true {c : Bool} {e : AsgError} (h : c = true) : NR (check c e) := by
  unfold check; rw [if_pos h]; exact nr_pure _
theorem nr_fresh : NR fresh := by intro s e h; cases h
theorem nr_alloc {f : AField} : NR (alloc f) := by intro s e h; cases h
theorem nr_update {f : FId} {g : AField → AField} : NR (update f g) := by intro s e h; cases h
theorem nr_attempt {α} {m : M α} : NR (attempt m) := by
  intro s e h
  unfold attempt at h
  cases hr : m s with
  | ok x => rw [hr] at h; cases h
  | error x =>
    rw [hr] at h
    cases x <;> cases h
theorem nr_peek {α} {m : M α} (h : NR m) : NR (peek m) := by
  intro s e he
  unfold peek at he
  cases hr : m s with
  | error x => rw [hr] at he; cases he; exact h _ e hr
  | ok x => rw [hr] at he; cases he
theorem nr_lookup {α} {m : List (String × α)} {n : String} {e : AsgError} (h : ¬ Redefinition e) :
    NR (lookup m n e) := by
  unfold lookup; split
  · exact nr_pure _
  · exact nr_fail h

theorem nrr_ok {α} {a : α} : NRr (.ok a : R α) := by intro e h; cases h
theorem nrr_asg {α} {e : AsgError} (h : ¬ Redefinition e) : NRr (.error (.asg e) : R α) := by
  intro e' h'; cases h'; exact h
theorem nrr_panic {α} {m : String} : NRr (.error (.panic m) : R α) := by intro e h; cases h
theorem nrr_diverge {α} : NRr (.error .diverge : R α) := by intro e h; cases h
theorem nrr_bind {α β} {r : R α} {f : α → R β} (hr : NRr r) (hf : ∀ a, NRr (f a)) :
    NRr (r.bind f) := by
  intro e h
  cases hx : r with
  | error x => rw [hx] at h; cases h; exact hr e hx
  | ok x => rw [hx] at h; exact hf x e h
theorem nrr_map {α β} {r : R α} {f : α → β} (hr : NRr r) : NRr (r.map f) := by
  intro e h
  cases hx : r with
  | error x => rw [hx] at h; cases h; exact hr e hx
  | ok x => rw [hx] at h; cases h
theorem nrr_deref {h : Heap} {f : FId} : NRr (deref h f) := by
  unfold deref; split
  · exact nrr_ok
  · intro e h; cases h

/-- What the environment answers is no such error. -/
structure EnvNR (env : Env) : Prop where
  same : ∀ h a b, NRr (env.same h a b)
  ftFrom : ∀ n h t, NRr (env.ftFrom n h t)
  ftTo : ∀ n h t, NRr (env.ftTo n h t)
  ftToPartial : ∀ n h t, NRr (env.ftToPartial n h t)
  normalize : ∀ t, NRr (env.normalize t)
  load : ∀ n, NRr (env.load n)
  ffiType : ∀ n, NRr (env.ffiType n)
  ffiTransform : ∀ n, NRr (env.ffiTransform n)
  ffiFunction : ∀ n, NRr (env.ffiFunction n)

theorem nrr_resolvedN {h : Heap} : ∀ {n : Nat} {t : AType}, NRr (resolvedN h n t)
  | 0, t => by cases t <;> first | exact nrr_ok | exact nrr_diverge
  | n + 1, t => by
    cases t <;> first | exact nrr_ok | exact nrr_bind nrr_deref fun x => nrr_resolvedN
theorem nrr_resolve {h : Heap} {t : AType} : NRr (resolve h t) := nrr_resolvedN

theorem nrr_toPartialWith {follow : FId → R PType} (hf : ∀ f, NRr (follow f)) :
    ∀ t : AType, NRr (toPartialWith follow t)
  | .ref f _ => hf f
  | .array _ el _ _ => by rw [toPartialWith]; exact nrr_map (nrr_toPartialWith hf el)
  | .scalar _ => nrr_ok
  | .container .. => nrr_ok
  | .enum .. => nrr_ok
  | .bitfield .. => nrr_ok
  | .foreign .. => nrr_ok
  | .f32 => nrr_ok
  | .f64 => nrr_ok
  | .bool => nrr_ok
theorem nrr_toPartialN {h : Heap} : ∀ {_n : Nat} {t : AType}, NRr (toPartialN h _n t)
  | 0, t => nrr_toPartialWith (fun _ => nrr_diverge) t
  | n + 1, t => nrr_toPartialWith (fun _ => nrr_bind nrr_deref fun _ => nrr_toPartialN) t
theorem nrr_toPartial {h : Heap} {t : AType} : NRr (toPartial h t) := nrr_toPartialN

theorem nrr_assignable {env : Env} (he : EnvNR env) {h : Heap} {a b : AType} :
    NRr (assignable env h a b) := by
  refine nrr_bind nrr_resolve fun x => nrr_bind nrr_resolve fun y => ?_
  unfold assignableRes
  split <;> first
    | exact he.ftTo _ _ _ | exact he.ftFrom _ _ _ | exact he.same _ _ _ | exact nrr_ok
theorem nrr_canCoerce {h : Heap} {a b : AType} : NRr (canCoerce h a b) :=
  nrr_bind nrr_resolve fun _ => nrr_bind nrr_resolve fun _ => nrr_ok
theorem nrr_canCast {env : Env} (he : EnvNR env) {h : Heap} {a b : AType} :
    NRr (canCast env h a b) := by
  refine nrr_bind (nrr_assignable he) fun x => ?_
  split
  · exact nrr_ok
  · refine nrr_bind nrr_canCoerce fun y => ?_
    split
    · exact nrr_ok
    · exact nrr_bind nrr_resolve fun _ => nrr_bind nrr_resolve fun _ => nrr_ok
theorem nrr_passignable {env : Env} (he : EnvNR env) {h : Heap} :
    ∀ {P : PType} {t : AType}, NRr (P.assignable env h t)
  | .type x, t => by
    rw [PType.assignable]
    refine nrr_bind nrr_resolve fun o => ?_
    split
    · exact he.ftToPartial _ _ _
    · exact nrr_assignable he
  | .scalar p, t => by
    rw [PType.assignable]
    refine nrr_bind nrr_resolve fun o => ?_
    split <;> first | exact he.ftToPartial _ _ _ | exact nrr_assignable he | exact nrr_ok
  | .array none, t => by
    rw [PType.assignable]
    refine nrr_bind nrr_resolve fun o => ?_
    split <;> first | exact he.ftToPartial _ _ _ | exact nrr_ok
  | .array (some el), t => by
    rw [PType.assignable]
    refine nrr_bind nrr_resolve fun o => ?_
    split <;> first | exact he.ftToPartial _ _ _ | exact nrr_passignable he | exact nrr_ok
  | .any, t => by
    rw [PType.assignable]
    refine nrr_bind nrr_resolve fun o => ?_
    split <;> first | exact he.ftToPartial _ _ _ | exact nrr_ok
theorem nrr_coercable {h : Heap} {P : PType} {t : AType} : NRr (P.coercable h t) := by
  unfold PType.coercable
  refine nrr_bind nrr_resolve fun o => ?_
  split <;> first | exact nrr_canCoerce | exact nrr_ok

theorem nrr_memberType {h : Heap} {o : Option AType} : NRr (memberType h o) := by
  cases o with
  | none => exact nrr_ok
  | some t =>
    refine nrr_bind nrr_resolve fun r => ?_
    split <;> exact nrr_ok

theorem nrr_getType {h : Heap} : ∀ {e : AExpr}, NRr (getType h e)
  | .binary op l r => by
    rw [getType]; split
    · exact nrr_ok
    · exact nrr_bind nrr_getType fun _ => nrr_bind nrr_getType fun _ => nrr_ok
  | .unary op e => by rw [getType]; exact nrr_getType
  | .cast e t => nrr_ok
  | .index a i => by rw [getType]; exact nrr_bind nrr_getType fun _ => nrr_ok
  | .enumAccess f c => nrr_bind nrr_deref fun _ => nrr_ok
  | .int v k => nrr_ok
  | .constRef c => nrr_ok
  | .inputRef n t => nrr_ok
  | .fieldRef f => nrr_bind nrr_deref fun _ => nrr_ok
  | .str t c => nrr_ok
  | .ternary c t f => by
    rw [getType]
    refine nrr_bind nrr_getType fun a => ?_
    split
    · exact nrr_ok
    · exact nrr_getType
  | .bool b => nrr_ok
  | .call f r a => nrr_ok
  | .member e f => by rw [getType]; exact nrr_bind nrr_getType fun _ => nrr_memberType

theorem nr_finish {env : Env} (he : EnvNR env) {P : PType} {e : AExpr} : NR (finish env P e) := by
  refine nr_withHeap fun h => ?_
  unfold finishR
  refine nrr_bind nrr_getType fun t => ?_
  split
  · exact nrr_panic
  · refine nrr_bind (nrr_passignable he) fun a => ?_
    split
    · exact nrr_ok
    · refine nrr_bind nrr_coercable fun c => ?_
      split
      · split
        · exact nrr_ok
        · exact nrr_asg (by simp [Redefinition])
      · exact nrr_asg (by simp [Redefinition])

theorem nrr_expectBool {env : Env} (he : EnvNR env) {P : PType} {h : Heap} :
    NRr (expectBoolR env P h) := by
  refine nrr_bind (nrr_passignable he) fun b => ?_
  split
  · exact nrr_ok
  · exact nrr_asg (by simp [Redefinition])

theorem nr_checkBinary {env : Env} (he : EnvNR env) {op : BinOp} {P : PType} :
    NR (checkBinary env op P) := by
  refine nr_withHeap fun h => ?_
  split
  · exact nrr_expectBool he
  · exact nrr_ok

theorem nr_typeOf {e : AExpr} : NR (typeOf e) := nr_withHeap fun _ => nrr_getType

theorem nr_typeOfLeft {o : Option AExpr} : NR (typeOfLeft o) := by
  cases o with
  | none => exact nr_pure _
  | some e => exact nr_typeOf

theorem nr_convOperands {l r : PType → M AExpr} {P : PType} (hl : ∀ P, NR (l P))
    (hr : ∀ P, NR (r P)) : NR (convOperands l r P) := by
  unfold convOperands
  refine nr_bind nr_attempt fun a => nr_bind nr_typeOfLeft fun t => ?_
  split
  · exact nr_bind (nr_withHeap fun _ => nrr_toPartial) fun _ => nr_bind (hr _) fun _ => nr_pure _
  · refine nr_bind (hr _) fun _ => nr_bind nr_typeOf fun _ => ?_
    split
    · exact nr_fail (by simp [Redefinition])
    · refine nr_bind (nr_withHeap fun _ => nrr_toPartial) fun _ => nr_bind (hl _) fun _ =>
        nr_bind nr_typeOf fun _ => ?_
      split
      · exact nr_fail (by simp [Redefinition])
      · exact nr_pure _

theorem nr_checkUnary {env : Env} (he : EnvNR env) {op : UnOp} {P : PType} {e : AExpr} :
    NR (checkUnary env op P e) := by
  refine nr_withHeap fun h => ?_
  unfold checkUnaryR
  split
  · exact nrr_expectBool he
  · refine nrr_bind nrr_getType fun t => ?_
    split
    · exact nrr_ok
    · refine nrr_bind (nrr_passignable he) fun b => ?_
      split
      · split
        · split
          · exact nrr_ok
          · exact nrr_asg (by simp [Redefinition])
        · exact nrr_ok
      · exact nrr_asg (by simp [Redefinition])

theorem nr_checkCast {env : Env} (he : EnvNR env) {e : AExpr} {t : AType} :
    NR (checkCast env e t) := by
  refine nr_withHeap fun h => ?_
  unfold checkCastR
  refine nrr_bind nrr_getType fun t => ?_
  split
  · exact nrr_asg (by simp [Redefinition])
  · refine nrr_bind (nrr_canCast he) fun b => ?_
    split
    · exact nrr_ok
    · exact nrr_asg (by simp [Redefinition])

theorem nr_convEnumAccess {p : Prog} {n v : String} : NR (convEnumAccess p n v) := by
  refine nr_withHeap fun h => ?_
  unfold enumAccessR
  split
  · exact nrr_asg (by simp [Redefinition])
  · refine nrr_bind nrr_deref fun f => ?_
    split
    · split <;> first | exact nrr_asg (by simp [Redefinition]) | exact nrr_ok
    · split <;> first | exact nrr_asg (by simp [Redefinition]) | exact nrr_ok
    · exact nrr_asg (by simp [Redefinition])

theorem nr_convInt {v : String} {t : Option Scalar} {P : PType} : NR (convInt v t P) := by
  refine nr_liftR ?_
  unfold convIntR
  split
  · exact nrr_asg (by simp [Redefinition])
  · split <;> first | exact nrr_asg (by simp [Redefinition]) | exact nrr_ok

theorem nr_convMember {t : AExpr} {m : String} : NR (convMember t m) := by
  refine nr_withHeap fun h => ?_
  unfold convMemberR
  refine nrr_bind nrr_getType fun t => ?_
  split
  · exact nrr_asg (by simp [Redefinition])
  · refine nrr_bind nrr_resolve fun r => ?_
    split
    · split <;> first | exact nrr_asg (by simp [Redefinition]) | exact nrr_ok
    · exact nrr_asg (by simp [Redefinition])

theorem nr_convRef {p : Prog} {sc : Scope} {n : String} : NR (convRef p sc n) := by
  unfold convRef
  split
  · exact nr_pure _
  · split
    · exact nr_pure _
    · split
      · exact nr_pure _
      · exact nr_fail (by simp [Redefinition])

theorem nr_ternaryRight {P : PType} {e : AExpr} : NR (ternaryRight P e) := by
  refine nr_withHeap fun h => ?_
  unfold ternaryRightR
  split
  · refine nrr_bind nrr_getType fun t => ?_
    split
    · exact nrr_asg (by simp [Redefinition])
    · exact nrr_toPartial
  · exact nrr_ok

theorem nr_checkFfiCount {ps : List FfiArg} {n : Nat} : NR (checkFfiCount ps n) := by
  refine nr_liftR ?_
  unfold ffiCountR
  extract_lets
  split
  · exact nrr_panic
  · split
    · exact nrr_asg (by simp [Redefinition])
    · exact nrr_ok

theorem nr_checkTypeCount {ps : List AArg} {n : Nat} : NR (checkTypeCount ps n) := by
  refine nr_liftR ?_
  unfold typeCountR
  extract_lets
  split
  · exact nrr_asg (by simp [Redefinition])
  · split
    · exact nrr_asg (by simp [Redefinition])
    · exact nrr_ok

theorem nr_argExpected {t : Option AType} : NR (argExpected t) := by
  refine nr_withHeap fun h => ?_
  split
  · exact nrr_toPartial
  · exact nrr_ok

theorem nr_definedName {pu : Purpose} : NR (definedName pu) := by
  unfold definedName
  split
  · exact nr_pure _
  · exact nr_fail (by simp [Redefinition])

theorem nr_containerFlags : ∀ {fs : List String} {b : Bool}, NR (containerFlags fs b)
  | [], b => nr_pure _
  | f :: fs, b => by
    rw [containerFlags]
    split
    · exact nr_containerFlags
    · exact nr_fail (by simp [Redefinition])

theorem nr_fieldFlags {fs : List String} : NR (fieldFlags fs) := by
  cases fs with
  | nil => exact nr_pure _
  | cons f fs => exact nr_fail (by simp [Redefinition])

theorem nr_implicitValue {op : BinOp} {k : Scalar} {acc : RepAcc} : NR (implicitValue op k acc) := by
  refine nr_liftR ?_
  split
  · exact nrr_panic
  · split
    · exact nrr_ok
    · exact nrr_asg (by simp [Redefinition])

theorem nr_addField {i c : Bool} {n : String} {f : FId} {acc : ItemAcc} :
    NR (addField i c n f acc) := nr_bind (nr_check (by simp [Redefinition])) fun _ => nr_pure _

/-- A type that conversion does not reject for duplicates: it has none, or it stands where it must
not contain fields, variants or flags of its own. -/
def Harmless (ty : Ast.Ty) (pu : Purpose) : Prop :=
  inlinable ty = true ∨ pu = .arrayInterior ∨ DistinctTy ty ∧ PadFreeTy ty

theorem nr_checkVariant {n : String} {done : List AVariant} {d : Bool}
    (h : n ∉ done.map AVariant.name) : NR (checkVariant n done d) := by
  unfold checkVariant
  rw [if_neg]
  · exact nr_check (by simp [Redefinition])
  · intro hs
    unfold findVariant at hs
    rw [List.find?_isSome] at hs
    obtain ⟨v, hv, he⟩ := hs
    exact h (List.mem_map.2 ⟨v, hv, by simpa using he⟩)

theorem findFlag_isNone {done : List AConst} {n : String} (h : n ∉ done.map AConst.name) :
    (findFlag done n).isNone = true := by
  unfold findFlag
  rw [Option.isNone_iff_eq_none, List.find?_eq_none]
  intro v hv he
  exact h (List.mem_map.2 ⟨v, hv, by simpa using he⟩)

mutual
theorem convE_nr {env : Env} (he : EnvNR env) (p : Prog) :
    ∀ (e : Ast.Expression) (sc : Scope) (P : PType), NR (convE env p sc e P)
  | .binary op l r, sc, P => by
    rw [convE]
    refine nr_bind (nr_checkBinary he) fun _ => nr_bind (nr_convOperands
      (fun P => convE_nr he p l sc P) (fun P => convE_nr he p r sc P)) fun x => nr_finish he
  | .unary op e, sc, P => by
    rw [convE]
    exact nr_bind (nr_peek (convE_nr he p e sc P)) fun _ => nr_bind (nr_checkUnary he) fun _ =>
      nr_bind (convE_nr he p e sc P) fun _ => nr_finish he
  | .cast e ty, sc, P => by
    rw [convE]
    refine nr_bind' (nr_check (by simp [Redefinition])) fun s a s' h => ?_
    rw [check_ok] at h
    exact nr_bind (convTy_nr he p ty sc .expression (.inl h.1)) fun _ =>
      nr_bind (convE_nr he p e sc _) fun _ => nr_bind (nr_checkCast he) fun _ => nr_finish he
  | .index a i, sc, P => by
    rw [convE]
    exact nr_bind (convE_nr he p a sc _) fun _ => nr_bind (convE_nr he p i sc _) fun _ =>
      nr_finish he
  | .enumAccess n v, sc, P => by
    rw [convE]; exact nr_bind nr_convEnumAccess fun _ => nr_finish he
  | .int v t, sc, P => by rw [convE]; exact nr_bind nr_convInt fun _ => nr_finish he
  | .ref n, sc, P => by rw [convE]; exact nr_bind nr_convRef fun _ => nr_finish he
  | .str c, sc, P => by rw [convE]; exact nr_bind nr_fresh fun _ => nr_finish he
  | .ternary c t f, sc, P => by
    rw [convE]
    exact nr_bind (convE_nr he p c sc _) fun _ => nr_bind (convE_nr he p t sc _) fun _ =>
      nr_bind nr_ternaryRight fun _ => nr_bind (convE_nr he p f sc _) fun _ => nr_finish he
  | .bool b, sc, P => by rw [convE]; exact nr_finish he
  | .call f args, sc, P => by
    rw [convE]
    exact nr_bind (nr_lookup (by simp [Redefinition])) fun _ => nr_bind nr_checkFfiCount fun _ =>
      nr_bind (convArgs_nr he p args sc _) fun _ => nr_finish he
  | .member e m, sc, P => by
    rw [convE]
    exact nr_bind (convE_nr he p e sc _) fun _ => nr_bind nr_convMember fun _ => nr_finish he
theorem convArgs_nr {env : Env} (he : EnvNR env) (p : Prog) :
    ∀ (es : List Ast.Expression) (sc : Scope) (ts : List (Option AType)),
      NR (convArgs env p sc es ts)
  | [], sc, ts => by rw [convArgs]; exact nr_pure _
  | e :: es, sc, [] => by rw [convArgs]; exact nr_pure _
  | e :: es, sc, t :: ts => by
    rw [convArgs]
    exact nr_bind nr_argExpected fun _ => nr_bind (convE_nr he p e sc _) fun _ =>
      nr_bind (convArgs_nr he p es sc ts) fun _ => nr_pure _
theorem convOpt_nr {env : Env} (he : EnvNR env) (p : Prog) :
    ∀ (o : Option Ast.Expression) (sc : Scope) (P : PType), NR (convOpt env p sc o P)
  | none, sc, P => by rw [convOpt]; exact nr_pure _
  | some e, sc, P => by rw [convOpt]; exact nr_bind (convE_nr he p e sc P) fun _ => nr_pure _
theorem convTy_nr {env : Env} (he : EnvNR env) (p : Prog) :
    ∀ (ty : Ast.Ty) (sc : Scope) (pu : Purpose), Harmless ty pu → NR (convTy env p sc ty pu)
  | .container len fl items, sc, pu, hh => by
    rw [convTy]
    refine nr_bind' (nr_check (by simp [Redefinition])) fun s a s' h => ?_
    rw [check_ok] at h
    rcases hh with hh | rfl | ⟨hd, hp⟩
    · cases hh
    · simp at h
    · rw [DistinctTy] at hd
      rw [PadFreeTy] at hp
      refine nr_bind (convOpt_nr he p len sc _) fun _ => nr_bind nr_containerFlags fun isEnum =>
        nr_bind (nr_check (by simp [Redefinition])) fun _ =>
        nr_bind (convItems_nr he p items sc isEnum _ hd.1 (by simp) hp.1 hd.2 hp.2) fun acc =>
        nr_bind (convEnds_nr he p items _ _) fun _ => nr_bind nr_fresh fun _ => nr_pure _
  | .enum rep items, sc, pu, hh => by
    rw [convTy]
    refine nr_bind' nr_definedName fun s a s' h => ?_
    rcases hh with hh | rfl | ⟨hd, hp⟩
    · cases hh
    · cases h
    · rw [DistinctTy] at hd
      exact nr_bind (convVariants_nr he p items sc rep [] _ _ hd (by simp)) fun _ =>
        nr_bind nr_fresh fun _ => nr_pure _
  | .bitfield rep items, sc, pu, hh => by
    rw [convTy]
    refine nr_bind' nr_definedName fun s a s' h => ?_
    rcases hh with hh | rfl | ⟨hd, hp⟩
    · cases hh
    · cases h
    · rw [DistinctTy] at hd
      exact nr_bind (convFlags_nr he p items sc rep [] _ hd (by simp)) fun _ =>
        nr_bind nr_fresh fun _ => nr_pure _
  | .array el x len, sc, pu, hh => by
    rw [convTy]
    exact nr_bind (convOpt_nr he p len sc _) fun _ =>
      nr_bind (convTy_nr he p el sc .arrayInterior (.inr (.inl rfl))) fun _ =>
      nr_bind nr_fresh fun _ => nr_pure _
  | .scalar _, sc, pu, hh => by rw [convTy]; exact nr_pure _
  | .f32, sc, pu, hh => by rw [convTy]; exact nr_pure _
  | .f64, sc, pu, hh => by rw [convTy]; exact nr_pure _
  | .bool, sc, pu, hh => by rw [convTy]; exact nr_pure _
  | .ref n args, sc, pu, hh => by
    rw [convTy]
    exact nr_bind (nr_lookup (by simp [Redefinition])) fun _ =>
      nr_bind (nr_withHeap fun _ => nrr_deref) fun _ => nr_bind nr_checkTypeCount fun _ =>
      nr_bind (convArgs_nr he p args sc _) fun _ => nr_pure _
theorem convVariants_nr {env : Env} (he : EnvNR env) (p : Prog) :
    ∀ (items : List Ast.EnumItem) (sc : Scope) (rep : EScalar) (done : List AVariant)
      (acc : RepAcc) (d : Bool), (items.map itemName).Nodup →
      (∀ n ∈ items.map itemName, n ∉ done.map AVariant.name) →
      NR (convVariants env p sc rep items done acc d)
  | [], sc, rep, done, acc, d, hn, hd => by rw [convVariants]; exact nr_pure _
  | .mk name .default :: rest, sc, rep, done, acc, d, hn, hd => by
    rw [convVariants]
    rw [List.map_cons, List.nodup_cons] at hn
    refine nr_bind (nr_checkVariant (hd _ List.mem_cons_self)) fun _ =>
      convVariants_nr he p rest sc rep _ _ _ hn.2 fun n hm => ?_
    simp only [List.map_append, List.mem_append, not_or]
    exact ⟨hd n (List.mem_cons_of_mem _ hm), by
      simp [AVariant.name]; rintro rfl; exact hn.1 hm⟩
  | .mk name (.expr e) :: rest, sc, rep, done, acc, d, hn, hd => by
    rw [convVariants]
    rw [List.map_cons, List.nodup_cons] at hn
    refine nr_bind (nr_checkVariant (hd _ List.mem_cons_self)) fun _ =>
      nr_bind (convE_nr he p e sc _) fun _ =>
      convVariants_nr he p rest sc rep _ _ _ hn.2 fun n hm => ?_
    simp only [List.map_append, List.mem_append, not_or]
    exact ⟨hd n (List.mem_cons_of_mem _ hm), by
      simp [AVariant.name, AConst.name]; rintro rfl; exact hn.1 hm⟩
  | .mk name .none :: rest, sc, rep, done, acc, d, hn, hd => by
    rw [convVariants]
    rw [List.map_cons, List.nodup_cons] at hn
    refine nr_bind (nr_checkVariant (hd _ List.mem_cons_self)) fun _ =>
      nr_bind nr_implicitValue fun _ =>
      convVariants_nr he p rest sc rep _ _ _ hn.2 fun n hm => ?_
    simp only [List.map_append, List.mem_append, not_or]
    exact ⟨hd n (List.mem_cons_of_mem _ hm), by
      simp [AVariant.name, AConst.name]; rintro rfl; exact hn.1 hm⟩
theorem convFlags_nr {env : Env} (he : EnvNR env) (p : Prog) :
    ∀ (items : List Ast.BitItem) (sc : Scope) (rep : EScalar) (done : List AConst)
      (acc : RepAcc), (items.map flagName).Nodup →
      (∀ n ∈ items.map flagName, n ∉ done.map AConst.name) →
      NR (convFlags env p sc rep items done acc)
  | [], sc, rep, done, acc, hn, hd => by rw [convFlags]; exact nr_pure _
  | .mk name (some e) :: rest, sc, rep, done, acc, hn, hd => by
    rw [convFlags]
    rw [List.map_cons, List.nodup_cons] at hn
    refine nr_bind (nr_check_true (findFlag_isNone (hd _ List.mem_cons_self))) fun _ =>
      nr_bind (convE_nr he p e sc _) fun _ =>
      convFlags_nr he p rest sc rep _ _ hn.2 fun n hm => ?_
    simp only [List.map_append, List.mem_append, not_or]
    exact ⟨hd n (List.mem_cons_of_mem _ hm), by
      simp [AConst.name]; rintro rfl; exact hn.1 hm⟩
  | .mk name none :: rest, sc, rep, done, acc, hn, hd => by
    rw [convFlags]
    rw [List.map_cons, List.nodup_cons] at hn
    refine nr_bind (nr_check_true (findFlag_isNone (hd _ List.mem_cons_self))) fun _ =>
      nr_bind nr_implicitValue fun _ =>
      convFlags_nr he p rest sc rep _ _ hn.2 fun n hm => ?_
    simp only [List.map_append, List.mem_append, not_or]
    exact ⟨hd n (List.mem_cons_of_mem _ hm), by
      simp [AConst.name]; rintro rfl; exact hn.1 hm⟩
theorem convItems_nr {env : Env} (he : EnvNR env) (p : Prog) :
    ∀ (items : List Ast.Item) (sc : Scope) (isEnum : Bool) (acc : ItemAcc),
      (fieldNames items).Nodup → (∀ n ∈ fieldNames items, n ∉ acc.items.map Prod.fst) →
      (∀ n ∈ fieldNames items, ∀ k, n ≠ padName k) → DistinctItems items → PadFreeItems items →
      NR (convItems env p sc isEnum items acc)
  | [], sc, isEnum, acc, _, _, _, _, _ => by rw [convItems]; exact nr_pure _
  | .field name f :: rest, sc, isEnum, acc, hn, hd, hp, hdi, hpi => by
    rw [convItems]
    rw [fieldNames] at hn hd hp
    rw [DistinctItems] at hdi
    rw [PadFreeItems] at hpi
    rw [List.nodup_cons] at hn
    refine nr_bind (nr_check_true ?_) fun _ => nr_bind nr_alloc fun id =>
      nr_bind (convMid_nr he p f _ _ id hdi.1 hpi.1) fun c =>
      nr_bind' nr_addField fun s acc' s' h => ?_
    · rw [Option.isNone_iff_eq_none, IMap.get_none_iff]; exact hd _ List.mem_cons_self
    · obtain ⟨-, rfl, -⟩ := addField_ok h
      refine convItems_nr he p rest sc isEnum _ hn.2 ?_
        (fun n hm => hp n (List.mem_cons_of_mem _ hm)) hdi.2 hpi.2
      intro n hm
      rw [IMap.mem_keys_insert, not_or]
      exact ⟨by rintro rfl; exact hn.1 hm, hd n (List.mem_cons_of_mem _ hm)⟩
  | .pad e :: rest, sc, isEnum, acc, hn, hd, hp, hdi, hpi => by
    rw [convItems]
    rw [fieldNames] at hn hd hp
    rw [DistinctItems] at hdi
    rw [PadFreeItems] at hpi
    refine nr_bind (nr_check (by simp [Redefinition])) fun _ =>
      nr_bind (convE_nr he p e _ _) fun _ => nr_bind nr_fresh fun _ => nr_bind nr_alloc fun _ =>
      convItems_nr he p rest sc isEnum _ hn ?_ hp hdi hpi
    intro n hm
    rw [IMap.mem_keys_insert, not_or]
    exact ⟨hp n hm _, hd n hm⟩
theorem convEnds_nr {env : Env} (he : EnvNR env) (p : Prog) :
    ∀ (items : List Ast.Item) (sc : Scope) (ids : List FId), NR (convEnds env p sc items ids)
  | [], sc, ids => by rw [convEnds]; exact nr_pure _; all_goals simp
  | .field n f :: rest, sc, id :: ids => by
    rw [convEnds]
    exact nr_bind (convEnd_nr he p f _ id) fun _ => convEnds_nr he p rest sc ids
  | .field n f :: rest, sc, [] => by rw [convEnds]; exact nr_pure _; all_goals simp
  | .pad e :: rest, sc, ids => by rw [convEnds]; exact convEnds_nr he p rest sc ids
theorem convMid_nr {env : Env} (he : EnvNR env) (p : Prog) :
    ∀ (f : Ast.Field) (sc : Scope) (pu : Purpose) (id : FId), DistinctField f → PadFreeField f →
      NR (convMid env p sc f pu id)
  | .mk type flags cal cond xs, sc, pu, id, hd, hp => by
    rw [convMid]
    rw [DistinctField] at hd
    rw [PadFreeField] at hp
    exact nr_bind (convTy_nr he p type sc pu (.inr (.inr ⟨hd, hp⟩))) fun _ =>
      nr_bind (convOpt_nr he p cond sc _) fun _ => nr_bind (convXforms_nr he p xs sc) fun _ =>
      nr_bind nr_fieldFlags fun _ => nr_bind nr_update fun _ => nr_pure _
theorem convXforms_nr {env : Env} (he : EnvNR env) (p : Prog) :
    ∀ (xs : List Ast.Transform) (sc : Scope), NR (convXforms env p sc xs)
  | [], sc => by rw [convXforms]; exact nr_pure _
  | .mk name args cond :: rest, sc => by
    rw [convXforms]
    exact nr_bind (nr_lookup (by simp [Redefinition])) fun _ => nr_bind nr_checkFfiCount fun _ =>
      nr_bind (convArgs_nr he p args sc _) fun _ => nr_bind (convOpt_nr he p cond sc _) fun _ =>
      nr_bind (convXforms_nr he p rest sc) fun _ => nr_pure _
theorem convEnd_nr {env : Env} (he : EnvNR env) (p : Prog) :
    ∀ (f : Ast.Field) (sc : Scope) (id : FId), NR (convEnd env p sc f id)
  | .mk _ _ none _ _, sc, id => by rw [convEnd]; exact nr_pure _
  | .mk _ _ (some e) _ _, sc, id => by
    rw [convEnd]
    exact nr_bind (nr_withHeap fun _ => nrr_bind nrr_deref fun _ => nrr_toPartial) fun _ =>
      nr_bind (convE_nr he p e sc _) fun _ => nr_update
end

theorem convTypeArgs_nr {env : Env} (he : EnvNR env) (p : Prog) (outer : Scope) :
    ∀ (args : List Ast.TypeArg) (inputs : List (String × AType)) (done : List AArg),
      (∀ a ∈ args, DistinctTy a.type ∧ PadFreeTy a.type) →
      NR (convTypeArgs env p outer args inputs done)
  | [], _, _, _ => by rw [convTypeArgs]; exact nr_pure _
  | a :: rest, inputs, done, h => by
    rw [convTypeArgs]
    refine nr_bind (convTy_nr he p a.type _ _ (.inr (.inr (h a List.mem_cons_self)))) fun t => ?_
    refine nr_bind ?_ fun P => nr_bind (convOpt_nr he p a.default _ _) fun _ =>
      convTypeArgs_nr he p outer rest _ _ fun b hb => h b (List.mem_cons_of_mem _ hb)
    refine nr_withHeap fun h => ?_
    split
    · exact nrr_ok
    · exact nrr_toPartial

end Verif.Sem
