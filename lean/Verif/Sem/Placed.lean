import Verif.Sem.Shape
/-!
# What stands where it may is not rejected on that account
-/
namespace Verif.Sem.Mis
open Verif Verif.Sem

/-- The errors that complain of something written where it may not be. -/
def Misplacement : AsgError → Prop
  | .constTypeDefinition _ | .castTypeDefinition | .enumDefaultRedefinition _ | .invalidFlag _
  | .inlineRepetition | .mustBeToplevel | .enumContainerFieldAfterUnconditional
  | .enumContainerPad => True
  | _ => False

theorem mention_inlinable {ty : Ast.Ty} (h : PlacedTy .mention ty) : inlinable ty = true := by
  cases ty <;> first | rfl | (simp [PlacedTy, Place.takesContainer] at h)

/-- The computation never fails with such an error. -/
def NR {α} (m : M α) : Prop := ∀ s e, m s = .error (.asg e) → ¬ Misplacement e

/-- The computation never does, on values. -/
def NRr {α} (r : R α) : Prop := ∀ e, r = .error (.asg e) → ¬ Misplacement e

theorem nr_pure {α} (a : α) : NR (pure a : M α) := by intro s e h; cases h
theorem nr_bind' {α β} {m : M α} {f : α → M β} (hm : NR m)
    (hf : ∀ s a s', m s = .ok (a, s') → NR (f a)) : NR (m >>= f) := by
  intro s e h
  rw [run_bind] at h
  cases hr : m s with
  | error x => rw [hr] at h; cases h; exact hm s e hr
  | ok x =>
    rw [hr] at h
    exact hf s x.1 x.2 hr x.2 e h
theorem nr_bind {α β} {m : M α} {f : α → M β} (hm : NR m) (hf : ∀ a, NR (f a)) : NR (m >>= f) :=
  nr_bind' hm fun _ a _ _ => hf a
theorem nr_fail {α} {e : AsgError} (h : ¬ Misplacement e) : NR (fail e : M α) := by
  intro s e' h'; cases h'; exact h
theorem nr_withHeap {α} {f : Heap → R α} (h : ∀ x, NRr (f x)) : NR (withHeap f) := by
  intro s e he
  unfold withHeap at he
  cases hr : f s.heap with
  | error x => rw [hr] at he; cases he; exact h _ e hr
  | ok x => rw [hr] at he; cases he
theorem nr_liftR {α} {r : R α} (h : NRr r) : NR (liftR r) := by
  intro s e he
  unfold liftR at he
  cases hr : r with
  | error x => rw [hr] at he; cases he; exact h e hr
  | ok x => rw [hr] at he; cases he
theorem nr_check {c : Bool} {e : AsgError} (h : ¬ Misplacement e) : NR (check c e) := by
  unfold check; split
  · exact nr_pure _
  · exact nr_fail h
theorem nr_check_true {c : Bool} {e : AsgError} (h : c = true) : NR (check c e) := by
  unfold check; rw [if_pos h]; exact nr_pure _
theorem nr_fresh : NR fresh := by intro s e h; cases h
theorem nr_alloc {f : AField} : NR (alloc f) := by intro s e h; cases h
theorem nr_update {f : FId} {g : AField → AField} : NR (update f g) := by intro s e h; cases h
theorem nr_attempt {α} {m : M α} : NR (attempt m) := by
  intro s e h
  unfold attempt at h
  cases hr : m s with
  | ok x => rw [hr] at h; cases h
  | error x =>
    rw [hr] at h
    cases x <;> cases h
theorem nr_peek {α} {m : M α} (h : NR m) : NR (peek m) := by
  intro s e he
  unfold peek at he
  cases hr : m s with
  | error x => rw [hr] at he; cases he; exact h _ e hr
  | ok x => rw [hr] at he; cases he
theorem nr_lookup {α} {m : List (String × α)} {n : String} {e : AsgError} (h : ¬ Misplacement e) :
    NR (lookup m n e) := by
  unfold lookup; split
  · exact nr_pure _
  · exact nr_fail h

theorem nrr_ok {α} {a : α} : NRr (.ok a : R α) := by intro e h; cases h
theorem nrr_asg {α} {e : AsgError} (h : ¬ Misplacement e) : NRr (.error (.asg e) : R α) := by
  intro e' h'; cases h'; exact h
theorem nrr_panic {α} {m : String} : NRr (.error (.panic m) : R α) := by intro e h; cases h
theorem nrr_diverge {α} : NRr (.error .diverge : R α) := by intro e h; cases h
theorem nrr_bind {α β} {r : R α} {f : α → R β} (hr : NRr r) (hf : ∀ a, NRr (f a)) :
    NRr (r.bind f) := by
  intro e h
  cases hx : r with
  | error x => rw [hx] at h; cases h; exact hr e hx
  | ok x => rw [hx] at h; exact hf x e h
theorem nrr_map {α β} {r : R α} {f : α → β} (hr : NRr r) : NRr (r.map f) := by
  intro e h
  cases hx : r with
  | error x => rw [hx] at h; cases h; exact hr e hx
  | ok x => rw [hx] at h; cases h
theorem nrr_deref {h : Heap} {f : FId} : NRr (deref h f) := by
  unfold deref; split
  · exact nrr_ok
  · intro e h; cases h

/-- What the environment answers is no such error. -/
structure EnvNR (env : Env) : Prop where
  same : ∀ h a b, NRr (env.same h a b)
  ftFrom : ∀ n h t, NRr (env.ftFrom n h t)
  ftTo : ∀ n h t, NRr (env.ftTo n h t)
  ftToPartial : ∀ n h t, NRr (env.ftToPartial n h t)
  normalize : ∀ t, NRr (env.normalize t)
  load : ∀ n, NRr (env.load n)
  ffiType : ∀ n, NRr (env.ffiType n)
  ffiTransform : ∀ n, NRr (env.ffiTransform n)
  ffiFunction : ∀ n, NRr (env.ffiFunction n)

theorem nrr_resolvedN {h : Heap} : ∀ {n : Nat} {t : AType}, NRr (resolvedN h n t)
  | 0, t => by cases t <;> first | exact nrr_ok | exact nrr_diverge
  | n + 1, t => by
    cases t <;> first | exact nrr_ok | exact nrr_bind nrr_deref fun x => nrr_resolvedN
theorem nrr_resolve {h : Heap} {t : AType} : NRr (resolve h t) := nrr_resolvedN

theorem nrr_toPartialWith {follow : FId → R PType} (hf : ∀ f, NRr (follow f)) :
    ∀ t : AType, NRr (toPartialWith follow t)
  | .ref f _ => hf f
  | .array _ el _ _ => by rw [toPartialWith]; exact nrr_map (nrr_toPartialWith hf el)
  | .scalar _ => nrr_ok
  | .container .. => nrr_ok
  | .enum .. => nrr_ok
  | .bitfield .. => nrr_ok
  | .foreign .. => nrr_ok
  | .f32 => nrr_ok
  | .f64 => nrr_ok
  | .bool => nrr_ok
theorem nrr_toPartialN {h : Heap} : ∀ {_n : Nat} {t : AType}, NRr (toPartialN h _n t)
  | 0, t => nrr_toPartialWith (fun _ => nrr_diverge) t
  | n + 1, t => nrr_toPartialWith (fun _ => nrr_bind nrr_deref fun _ => nrr_toPartialN) t
theorem nrr_toPartial {h : Heap} {t : AType} : NRr (toPartial h t) := nrr_toPartialN

theorem nrr_assignable {env : Env} (he : EnvNR env) {h : Heap} {a b : AType} :
    NRr (assignable env h a b) := by
  refine nrr_bind nrr_resolve fun x => nrr_bind nrr_resolve fun y => ?_
  unfold assignableRes
  split <;> first
    | exact he.ftTo _ _ _ | exact he.ftFrom _ _ _ | exact he.same _ _ _ | exact nrr_ok
theorem nrr_canCoerce {h : Heap} {a b : AType} : NRr (canCoerce h a b) :=
  nrr_bind nrr_resolve fun _ => nrr_bind nrr_resolve fun _ => nrr_ok
theorem nrr_canCast {env : Env} (he : EnvNR env) {h : Heap} {a b : AType} :
    NRr (canCast env h a b) := by
  refine nrr_bind (nrr_assignable he) fun x => ?_
  split
  · exact nrr_ok
  · refine nrr_bind nrr_canCoerce fun y => ?_
    split
    · exact nrr_ok
    · exact nrr_bind nrr_resolve fun _ => nrr_bind nrr_resolve fun _ => nrr_ok
theorem nrr_passignable {env : Env} (he : EnvNR env) {h : Heap} :
    ∀ {P : PType} {t : AType}, NRr (P.assignable env h t)
  | .type x, t => by
    rw [PType.assignable]
    refine nrr_bind nrr_resolve fun o => ?_
    split
    · exact he.ftToPartial _ _ _
    · exact nrr_assignable he
  | .scalar p, t => by
    rw [PType.assignable]
    refine nrr_bind nrr_resolve fun o => ?_
    split <;> first | exact he.ftToPartial _ _ _ | exact nrr_assignable he | exact nrr_ok
  | .array none, t => by
    rw [PType.assignable]
    refine nrr_bind nrr_resolve fun o => ?_
    split <;> first | exact he.ftToPartial _ _ _ | exact nrr_ok
  | .array (some el), t => by
    rw [PType.assignable]
    refine nrr_bind nrr_resolve fun o => ?_
    split <;> first | exact he.ftToPartial _ _ _ | exact nrr_passignable he | exact nrr_ok
  | .any, t => by
    rw [PType.assignable]
    refine nrr_bind nrr_resolve fun o => ?_
    split <;> first | exact he.ftToPartial _ _ _ | exact nrr_ok
theorem nrr_coercable {h : Heap} {P : PType} {t : AType} : NRr (P.coercable h t) := by
  unfold PType.coercable
  refine nrr_bind nrr_resolve fun o => ?_
  split <;> first | exact nrr_canCoerce | exact nrr_ok

theorem nrr_memberType {h : Heap} {o : Option AType} : NRr (memberType h o) := by
  cases o with
  | none => exact nrr_ok
  | some t =>
    refine nrr_bind nrr_resolve fun r => ?_
    split <;> exact nrr_ok

theorem nrr_getType {h : Heap} : ∀ {e : AExpr}, NRr (getType h e)
  | .binary op l r => by
    rw [getType]; split
    · exact nrr_ok
    · exact nrr_bind nrr_getType fun _ => nrr_bind nrr_getType fun _ => nrr_ok
  | .unary op e => by rw [getType]; exact nrr_getType
  | .cast e t => nrr_ok
  | .index a i => by rw [getType]; exact nrr_bind nrr_getType fun _ => nrr_ok
  | .enumAccess f c => nrr_bind nrr_deref fun _ => nrr_ok
  | .int v k => nrr_ok
  | .constRef c => nrr_ok
  | .inputRef n t => nrr_ok
  | .fieldRef f => nrr_bind nrr_deref fun _ => nrr_ok
  | .str t c => nrr_ok
  | .ternary c t f => by
    rw [getType]
    refine nrr_bind nrr_getType fun a => ?_
    split
    · exact nrr_ok
    · exact nrr_getType
  | .bool b => nrr_ok
  | .call f r a => nrr_ok
  | .member e f => by rw [getType]; exact nrr_bind nrr_getType fun _ => nrr_memberType

theorem nr_finish {env : Env} (he : EnvNR env) {P : PType} {e : AExpr} : NR (finish env P e) := by
  refine nr_withHeap fun h => ?_
  unfold finishR
  refine nrr_bind nrr_getType fun t => ?_
  split
  · exact nrr_panic
  · refine nrr_bind (nrr_passignable he) fun a => ?_
    split
    · exact nrr_ok
    · refine nrr_bind nrr_coercable fun c => ?_
      split
      · split
        · exact nrr_ok
        · exact nrr_asg (by simp [Misplacement])
      · exact nrr_asg (by simp [Misplacement])

theorem nrr_expectBool {env : Env} (he : EnvNR env) {P : PType} {h : Heap} :
    NRr (expectBoolR env P h) := by
  refine nrr_bind (nrr_passignable he) fun b => ?_
  split
  · exact nrr_ok
  · exact nrr_asg (by simp [Misplacement])

theorem nr_checkBinary {env : Env} (he : EnvNR env) {op : BinOp} {P : PType} :
    NR (checkBinary env op P) := by
  refine nr_withHeap fun h => ?_
  split
  · exact nrr_expectBool he
  · exact nrr_ok

theorem nr_typeOf {e : AExpr} : NR (typeOf e) := nr_withHeap fun _ => nrr_getType

theorem nr_typeOfLeft {o : Option AExpr} : NR (typeOfLeft o) := by
  cases o with
  | none => exact nr_pure _
  | some e => exact nr_typeOf

theorem nr_convOperands {l r : PType → M AExpr} {P : PType} (hl : ∀ P, NR (l P))
    (hr : ∀ P, NR (r P)) : NR (convOperands l r P) := by
  unfold convOperands
  refine nr_bind nr_attempt fun a => nr_bind nr_typeOfLeft fun t => ?_
  split
  · exact nr_bind (nr_withHeap fun _ => nrr_toPartial) fun _ => nr_bind (hr _) fun _ => nr_pure _
  · refine nr_bind (hr _) fun _ => nr_bind nr_typeOf fun _ => ?_
    split
    · exact nr_fail (by simp [Misplacement])
    · refine nr_bind (nr_withHeap fun _ => nrr_toPartial) fun _ => nr_bind (hl _) fun _ =>
        nr_bind nr_typeOf fun _ => ?_
      split
      · exact nr_fail (by simp [Misplacement])
      · exact nr_pure _

theorem nr_checkUnary {env : Env} (he : EnvNR env) {op : UnOp} {P : PType} {e : AExpr} :
    NR (checkUnary env op P e) := by
  refine nr_withHeap fun h => ?_
  unfold checkUnaryR
  split
  · exact nrr_expectBool he
  · refine nrr_bind nrr_getType fun t => ?_
    split
    · exact nrr_ok
    · refine nrr_bind (nrr_passignable he) fun b => ?_
      split
      · split
        · split
          · exact nrr_ok
          · exact nrr_asg (by simp [Misplacement])
        · exact nrr_ok
      · exact nrr_asg (by simp [Misplacement])

theorem nr_checkCast {env : Env} (he : EnvNR env) {e : AExpr} {t : AType} :
    NR (checkCast env e t) := by
  refine nr_withHeap fun h => ?_
  unfold checkCastR
  refine nrr_bind nrr_getType fun t => ?_
  split
  · exact nrr_asg (by simp [Misplacement])
  · refine nrr_bind (nrr_canCast he) fun b => ?_
    split
    · exact nrr_ok
    · exact nrr_asg (by simp [Misplacement])

theorem nr_convEnumAccess {p : Prog} {n v : String} : NR (convEnumAccess p n v) := by
  refine nr_withHeap fun h => ?_
  unfold enumAccessR
  split
  · exact nrr_asg (by simp [Misplacement])
  · refine nrr_bind nrr_deref fun f => ?_
    split
    · split <;> first | exact nrr_asg (by simp [Misplacement]) | exact nrr_ok
    · split <;> first | exact nrr_asg (by simp [Misplacement]) | exact nrr_ok
    · exact nrr_asg (by simp [Misplacement])

theorem nr_convInt {v : String} {t : Option Scalar} {P : PType} : NR (convInt v t P) := by
  refine nr_liftR ?_
  unfold convIntR
  split
  · exact nrr_asg (by simp [Misplacement])
  · split <;> first | exact nrr_asg (by simp [Misplacement]) | exact nrr_ok

theorem nr_convMember {t : AExpr} {m : String} : NR (convMember t m) := by
  refine nr_withHeap fun h => ?_
  unfold convMemberR
  refine nrr_bind nrr_getType fun t => ?_
  split
  · exact nrr_asg (by simp [Misplacement])
  · refine nrr_bind nrr_resolve fun r => ?_
    split
    · split <;> first | exact nrr_asg (by simp [Misplacement]) | exact nrr_ok
    · exact nrr_asg (by simp [Misplacement])

theorem nr_convRef {p : Prog} {sc : Scope} {n : String} : NR (convRef p sc n) := by
  unfold convRef
  split
  · exact nr_pure _
  · split
    · exact nr_pure _
    · split
      · exact nr_pure _
      · exact nr_fail (by simp [Misplacement])

theorem nr_ternaryRight {P : PType} {e : AExpr} : NR (ternaryRight P e) := by
  refine nr_withHeap fun h => ?_
  unfold ternaryRightR
  split
  · refine nrr_bind nrr_getType fun t => ?_
    split
    · exact nrr_asg (by simp [Misplacement])
    · exact nrr_toPartial
  · exact nrr_ok

theorem nr_checkFfiCount {ps : List FfiArg} {n : Nat} : NR (checkFfiCount ps n) := by
  refine nr_liftR ?_
  unfold ffiCountR
  extract_lets
  split
  · exact nrr_panic
  · split
    · exact nrr_asg (by simp [Misplacement])
    · exact nrr_ok

theorem nr_checkTypeCount {ps : List AArg} {n : Nat} : NR (checkTypeCount ps n) := by
  refine nr_liftR ?_
  unfold typeCountR
  extract_lets
  split
  · exact nrr_asg (by simp [Misplacement])
  · split
    · exact nrr_asg (by simp [Misplacement])
    · exact nrr_ok

theorem nr_argExpected {t : Option AType} : NR (argExpected t) := by
  refine nr_withHeap fun h => ?_
  split
  · exact nrr_toPartial
  · exact nrr_ok

theorem nr_implicitValue {op : BinOp} {k : Scalar} {acc : RepAcc} : NR (implicitValue op k acc) := by
  refine nr_liftR ?_
  split
  · exact nrr_panic
  · split
    · exact nrr_ok
    · exact nrr_asg (by simp [Misplacement])

theorem nr_definedName {n : String} : NR (definedName (.typeDefinition n)) := nr_pure _

theorem nr_containerFlags : ∀ {fs : List String} {b : Bool}, (∀ f ∈ fs, f = "tagged_enum") →
    NR (containerFlags fs b)
  | [], b, _ => nr_pure _
  | f :: fs, b, h => by
    rw [containerFlags, if_pos (h f List.mem_cons_self)]
    exact nr_containerFlags fun g hg => h g (List.mem_cons_of_mem _ hg)

theorem nr_addField {i c : Bool} {n : String} {f : FId} {acc : ItemAcc}
    (h : i = true → acc.hadUnconditional = false) : NR (addField i c n f acc) := by
  refine nr_bind (nr_check_true ?_) fun _ => nr_pure _
  cases i
  · simp
  · simp [h rfl]

theorem nr_checkVariant {n : String} {done : List AVariant} {d : Bool}
    (h : d = false) : NR (checkVariant n done d) := by
  unfold checkVariant
  split
  · exact nr_fail (by simp [Misplacement])
  · exact nr_check_true (by simp [h])

/-- The purposes for which a type may stand at a place. -/
def Fits : Place → Purpose → Prop
  | .body, .typeDefinition _ => True
  | .inside, .fieldInterior | .inside, .expression => True
  | .element, .arrayInterior => True
  | .mention, .expression | .mention, .constDefinition => True
  | _, _ => False

mutual
theorem convE_np {env : Env} (he : EnvNR env) (p : Prog) :
    ∀ (e : Ast.Expression) (sc : Scope) (P : PType), PlacedE e → NR (convE env p sc e P)
  | .binary op l r, sc, P, hp => by
    rw [PlacedE] at hp
    rw [convE]
    refine nr_bind (nr_checkBinary he) fun _ => nr_bind (nr_convOperands
      (fun P => convE_np he p l sc P hp.1) (fun P => convE_np he p r sc P hp.2)) fun x => nr_finish he
  | .unary op e, sc, P, hp => by
    rw [PlacedE] at hp
    rw [convE]
    exact nr_bind (nr_peek (convE_np he p e sc P hp)) fun _ => nr_bind (nr_checkUnary he) fun _ =>
      nr_bind (convE_np he p e sc P hp) fun _ => nr_finish he
  | .cast e ty, sc, P, hp => by
    rw [PlacedE] at hp
    rw [convE]
    refine nr_bind (nr_check_true ?_) fun _ =>
      nr_bind (convTy_np he p ty sc .expression .mention trivial hp.2) fun _ =>
      nr_bind (convE_np he p e sc _ hp.1) fun _ => nr_bind (nr_checkCast he) fun _ => nr_finish he
    exact mention_inlinable hp.2
  | .index a i, sc, P, hp => by
    rw [PlacedE] at hp
    rw [convE]
    exact nr_bind (convE_np he p a sc _ hp.1) fun _ => nr_bind (convE_np he p i sc _ hp.2) fun _ =>
      nr_finish he
  | .enumAccess n v, sc, P, _ => by
    rw [convE]; exact nr_bind nr_convEnumAccess fun _ => nr_finish he
  | .int v t, sc, P, _ => by rw [convE]; exact nr_bind nr_convInt fun _ => nr_finish he
  | .ref n, sc, P, _ => by rw [convE]; exact nr_bind nr_convRef fun _ => nr_finish he
  | .str c, sc, P, _ => by rw [convE]; exact nr_bind nr_fresh fun _ => nr_finish he
  | .ternary c t f, sc, P, hp => by
    rw [PlacedE] at hp
    rw [convE]
    exact nr_bind (convE_np he p c sc _ hp.1) fun _ => nr_bind (convE_np he p t sc _ hp.2.1) fun _ =>
      nr_bind nr_ternaryRight fun _ => nr_bind (convE_np he p f sc _ hp.2.2) fun _ => nr_finish he
  | .bool b, sc, P, _ => by rw [convE]; exact nr_finish he
  | .call f args, sc, P, hp => by
    rw [PlacedE] at hp
    rw [convE]
    exact nr_bind (nr_lookup (by simp [Misplacement])) fun _ => nr_bind nr_checkFfiCount fun _ =>
      nr_bind (convArgs_np he p args sc _ hp) fun _ => nr_finish he
  | .member e m, sc, P, hp => by
    rw [PlacedE] at hp
    rw [convE]
    exact nr_bind (convE_np he p e sc _ hp) fun _ => nr_bind nr_convMember fun _ => nr_finish he
theorem convArgs_np {env : Env} (he : EnvNR env) (p : Prog) :
    ∀ (es : List Ast.Expression) (sc : Scope) (ts : List (Option AType)), PlacedEs es →
      NR (convArgs env p sc es ts)
  | [], sc, ts, _ => by rw [convArgs]; exact nr_pure _
  | e :: es, sc, [], _ => by rw [convArgs]; exact nr_pure _
  | e :: es, sc, t :: ts, hp => by
    rw [PlacedEs] at hp
    rw [convArgs]
    exact nr_bind nr_argExpected fun _ => nr_bind (convE_np he p e sc _ hp.1) fun _ =>
      nr_bind (convArgs_np he p es sc ts hp.2) fun _ => nr_pure _
theorem convOpt_np {env : Env} (he : EnvNR env) (p : Prog) :
    ∀ (o : Option Ast.Expression) (sc : Scope) (P : PType), PlacedOpt o → NR (convOpt env p sc o P)
  | none, sc, P, _ => by rw [convOpt]; exact nr_pure _
  | some e, sc, P, hp => by
    rw [PlacedOpt] at hp
    rw [convOpt]; exact nr_bind (convE_np he p e sc P hp) fun _ => nr_pure _
theorem convTy_np {env : Env} (he : EnvNR env) (p : Prog) :
    ∀ (ty : Ast.Ty) (sc : Scope) (pu : Purpose) (pl : Place), Fits pl pu → PlacedTy pl ty →
      NR (convTy env p sc ty pu)
  | .container len fl items, sc, pu, pl, hf, hp => by
    rw [PlacedTy] at hp
    obtain ⟨h1, h2, h3, h4, h5⟩ := hp
    rw [convTy]
    refine nr_bind (nr_check_true ?_) fun _ => nr_bind (convOpt_np he p len sc _ h2) fun _ =>
      nr_bind' (nr_containerFlags h3) fun s isEnum s' hfl => ?_
    · cases pl <;> cases pu <;> simp [Fits, Place.takesContainer] at hf h1 ⊢
    · obtain ⟨-, hfl⟩ := containerFlags_elab hfl
      simp only [Bool.false_eq_true, false_or] at hfl
      refine nr_bind (nr_check_true ?_) fun _ =>
        nr_bind (convItems_np he p items sc isEnum _ h5 (fun h => (h4 (hfl.1 h)).2)
          (fun _ h => by simp at h)) fun acc =>
        nr_bind (convEnds_np he p items _ _ h5) fun _ => nr_bind nr_fresh fun _ => nr_pure _
      cases isEnum with
      | false => simp
      | true =>
        have := (h4 (hfl.1 rfl)).1
        subst this
        cases pu <;> simp [Fits, Purpose.isDefinition] at hf ⊢
  | .enum rep items, sc, pu, pl, hf, hp => by
    rw [PlacedTy] at hp
    obtain ⟨rfl, h2, h3⟩ := hp
    rw [convTy]
    cases pu with
    | typeDefinition n =>
      exact nr_bind nr_definedName fun _ =>
        nr_bind (convVariants_np he p items sc rep [] _ _ h3 h2 (fun h => by cases h)) fun _ =>
        nr_bind nr_fresh fun _ => nr_pure _
    | _ => cases hf
  | .bitfield rep items, sc, pu, pl, hf, hp => by
    rw [PlacedTy] at hp
    obtain ⟨rfl, h2⟩ := hp
    rw [convTy]
    cases pu with
    | typeDefinition n =>
      exact nr_bind nr_definedName fun _ =>
        nr_bind (convFlags_np he p items sc rep [] _ h2) fun _ =>
        nr_bind nr_fresh fun _ => nr_pure _
    | _ => cases hf
  | .array el x len, sc, pu, pl, hf, hp => by
    rw [PlacedTy] at hp
    rw [convTy]
    exact nr_bind (convOpt_np he p len sc _ hp.2) fun _ =>
      nr_bind (convTy_np he p el sc .arrayInterior .element trivial hp.1) fun _ =>
      nr_bind nr_fresh fun _ => nr_pure _
  | .scalar _, sc, pu, pl, hf, hp => by rw [convTy]; exact nr_pure _
  | .f32, sc, pu, pl, hf, hp => by rw [convTy]; exact nr_pure _
  | .f64, sc, pu, pl, hf, hp => by rw [convTy]; exact nr_pure _
  | .bool, sc, pu, pl, hf, hp => by rw [convTy]; exact nr_pure _
  | .ref n args, sc, pu, pl, hf, hp => by
    rw [PlacedTy] at hp
    rw [convTy]
    exact nr_bind (nr_lookup (by simp [Misplacement])) fun _ =>
      nr_bind (nr_withHeap fun _ => nrr_deref) fun _ => nr_bind nr_checkTypeCount fun _ =>
      nr_bind (convArgs_np he p args sc _ hp) fun _ => nr_pure _
theorem convVariants_np {env : Env} (he : EnvNR env) (p : Prog) :
    ∀ (items : List Ast.EnumItem) (sc : Scope) (rep : EScalar) (done : List AVariant)
      (acc : RepAcc) (d : Bool), PlacedVariants items → DefaultLast items →
      (d = true → items = []) → NR (convVariants env p sc rep items done acc d)
  | [], sc, rep, done, acc, d, hp, hl, hd => by rw [convVariants]; exact nr_pure _
  | .mk name .default :: rest, sc, rep, done, acc, d, hp, hl, hd => by
    rw [PlacedVariants] at hp
    have hd' : d = false := by cases d <;> simp at hd ⊢
    rw [convVariants]
    rw [DefaultLast] at hl
    subst hl
    exact nr_bind (nr_checkVariant hd') fun _ =>
      convVariants_np he p [] sc rep _ _ _ hp trivial fun _ => rfl
  | .mk name (.expr e) :: rest, sc, rep, done, acc, d, hp, hl, hd => by
    rw [PlacedVariants] at hp
    have hd' : d = false := by cases d <;> simp at hd ⊢
    rw [convVariants]
    rw [DefaultLast] at hl
    · exact nr_bind (nr_checkVariant hd') fun _ => nr_bind (convE_np he p e sc _ hp.1) fun _ =>
        convVariants_np he p rest sc rep _ _ _ hp.2 hl fun h => by simp [hd'] at h
    · simp
  | .mk name .none :: rest, sc, rep, done, acc, d, hp, hl, hd => by
    rw [PlacedVariants] at hp
    have hd' : d = false := by cases d <;> simp at hd ⊢
    rw [convVariants]
    rw [DefaultLast] at hl
    · exact nr_bind (nr_checkVariant hd') fun _ => nr_bind nr_implicitValue fun _ =>
        convVariants_np he p rest sc rep _ _ _ hp hl fun h => by simp [hd'] at h
    · simp
theorem convFlags_np {env : Env} (he : EnvNR env) (p : Prog) :
    ∀ (items : List Ast.BitItem) (sc : Scope) (rep : EScalar) (done : List AConst)
      (acc : RepAcc), PlacedFlags items → NR (convFlags env p sc rep items done acc)
  | [], sc, rep, done, acc, hp => by rw [convFlags]; exact nr_pure _
  | .mk name (some e) :: rest, sc, rep, done, acc, hp => by
    rw [PlacedFlags, PlacedOpt] at hp
    rw [convFlags]
    exact nr_bind (nr_check (by simp [Misplacement])) fun _ =>
      nr_bind (convE_np he p e sc _ hp.1) fun _ => convFlags_np he p rest sc rep _ _ hp.2
  | .mk name none :: rest, sc, rep, done, acc, hp => by
    rw [PlacedFlags] at hp
    rw [convFlags]
    exact nr_bind (nr_check (by simp [Misplacement])) fun _ =>
      nr_bind nr_implicitValue fun _ => convFlags_np he p rest sc rep _ _ hp.2
theorem convItems_np {env : Env} (he : EnvNR env) (p : Prog) :
    ∀ (items : List Ast.Item) (sc : Scope) (isEnum : Bool) (acc : ItemAcc), PlacedItems items →
      (isEnum = true → ArmItems items) →
      (isEnum = true → acc.hadUnconditional = true → items = []) →
      NR (convItems env p sc isEnum items acc)
  | [], sc, isEnum, acc, _, _, _ => by rw [convItems]; exact nr_pure _
  | .field name f :: rest, sc, isEnum, acc, hp, ha, hu => by
    rw [convItems]
    rw [PlacedItems] at hp
    refine nr_bind (nr_check (by simp [Misplacement])) fun _ => nr_bind nr_alloc fun id =>
      nr_bind' (convMid_np he p f _ .fieldInterior id .inside trivial hp.1) fun s c s' hm =>
      nr_bind' (nr_addField fun h => ?_) fun s acc' s' h => ?_
    · have := hu h
      simp at this
      exact this
    · obtain ⟨-, rfl, -⟩ := addField_ok h
      have hc := convMid_conditional hm
      refine convItems_np he p rest sc isEnum _ hp.2 (fun h => (ha h).2) fun h h' => ?_
      have hu' := hu h
      simp at hu'
      simp only [hu', Bool.false_or, Bool.not_eq_true', ] at h'
      rcases (ha h).1 with hx | hx
      · rw [hc.2 hx] at h'; cases h'
      · exact hx
  | .pad e :: rest, sc, isEnum, acc, hp, ha, hu => by
    rw [convItems]
    rw [PlacedItems] at hp
    have hi : isEnum = false := by
      cases isEnum with
      | false => rfl
      | true => exact (ha rfl).elim
    subst hi
    exact nr_bind (nr_check_true rfl) fun _ =>
      nr_bind (convE_np he p e _ _ hp.1) fun _ => nr_bind nr_fresh fun _ => nr_bind nr_alloc fun _ =>
      convItems_np he p rest sc false _ hp.2 (fun h => by cases h) (fun h => by cases h)
theorem convEnds_np {env : Env} (he : EnvNR env) (p : Prog) :
    ∀ (items : List Ast.Item) (sc : Scope) (ids : List FId), PlacedItems items →
      NR (convEnds env p sc items ids)
  | [], sc, ids, _ => by rw [convEnds]; exact nr_pure _; all_goals simp
  | .field n f :: rest, sc, id :: ids, hp => by
    rw [PlacedItems] at hp
    rw [convEnds]
    exact nr_bind (convEnd_np he p f _ id .inside hp.1) fun _ => convEnds_np he p rest sc ids hp.2
  | .field n f :: rest, sc, [], _ => by rw [convEnds]; exact nr_pure _; all_goals simp
  | .pad e :: rest, sc, ids, hp => by
    rw [PlacedItems] at hp
    rw [convEnds]; exact convEnds_np he p rest sc ids hp.2
theorem convMid_np {env : Env} (he : EnvNR env) (p : Prog) :
    ∀ (f : Ast.Field) (sc : Scope) (pu : Purpose) (id : FId) (pl : Place), Fits pl pu →
      PlacedField pl f → NR (convMid env p sc f pu id)
  | .mk type flags cal cond xs, sc, pu, id, pl, hf, hp => by
    rw [PlacedField] at hp
    obtain ⟨rfl, h1, -, h2, h3⟩ := hp
    rw [convMid]
    exact nr_bind (convTy_np he p type sc pu pl hf h1) fun _ =>
      nr_bind (convOpt_np he p cond sc _ h2) fun _ => nr_bind (convXforms_np he p xs sc h3) fun _ =>
      nr_bind (nr_pure _) fun _ => nr_bind nr_update fun _ => nr_pure _
theorem convXforms_np {env : Env} (he : EnvNR env) (p : Prog) :
    ∀ (xs : List Ast.Transform) (sc : Scope), PlacedXforms xs → NR (convXforms env p sc xs)
  | [], sc, _ => by rw [convXforms]; exact nr_pure _
  | .mk name args cond :: rest, sc, hp => by
    rw [PlacedXforms] at hp
    rw [convXforms]
    exact nr_bind (nr_lookup (by simp [Misplacement])) fun _ => nr_bind nr_checkFfiCount fun _ =>
      nr_bind (convArgs_np he p args sc _ hp.1) fun _ =>
      nr_bind (convOpt_np he p cond sc _ hp.2.1) fun _ =>
      nr_bind (convXforms_np he p rest sc hp.2.2) fun _ => nr_pure _
theorem convEnd_np {env : Env} (he : EnvNR env) (p : Prog) :
    ∀ (f : Ast.Field) (sc : Scope) (id : FId) (pl : Place), PlacedField pl f →
      NR (convEnd env p sc f id)
  | .mk _ _ none _ _, sc, id, _, _ => by rw [convEnd]; exact nr_pure _
  | .mk _ _ (some e) _ _, sc, id, pl, hp => by
    rw [PlacedField, PlacedOpt] at hp
    rw [convEnd]
    exact nr_bind (nr_withHeap fun _ => nrr_bind nrr_deref fun _ => nrr_toPartial) fun _ =>
      nr_bind (convE_np he p e sc _ hp.2.2.1) fun _ => nr_update
end

theorem convTypeArgs_np {env : Env} (he : EnvNR env) (p : Prog) (outer : Scope) :
    ∀ (args : List Ast.TypeArg) (inputs : List (String × AType)) (done : List AArg),
      (∀ a ∈ args, PlacedTy .inside a.type ∧ PlacedOpt a.default) →
      NR (convTypeArgs env p outer args inputs done)
  | [], _, _, _ => by rw [convTypeArgs]; exact nr_pure _
  | a :: rest, inputs, done, h => by
    rw [convTypeArgs]
    obtain ⟨h1, h2⟩ := h a List.mem_cons_self
    refine nr_bind (convTy_np he p a.type _ .expression .inside trivial h1) fun t => ?_
    refine nr_bind ?_ fun P => nr_bind (convOpt_np he p a.default _ _ h2) fun _ =>
      convTypeArgs_np he p outer rest _ _ fun b hb => h b (List.mem_cons_of_mem _ hb)
    refine nr_withHeap fun h => ?_
    split
    · exact nrr_ok
    · exact nrr_toPartial

end Verif.Sem.Mis
