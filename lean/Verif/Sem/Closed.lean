import Verif.Sem.Passes
import Verif.Sem.Sound
/-!
# Closed graphs

Every field index in a graph that conversion builds is one of the graph, and the values of constants, enum
variants and bitfield flags refer to no fields. So conversion never runs into `SFault.dangling`, which has no
counterpart in Rust.
-/
namespace Verif.Sem
open Verif

/-- The cells of a graph of `N` cells. -/
def Below (N : Nat) (f : FId) : Prop := f < N

/-- No cell. -/
def NoField (_ : FId) : Prop := False

mutual
/-- An expression over a graph with `N` cells that refers to fields in `S` only. -/
def WfE (N : Nat) : (FId → Prop) → AExpr → Prop
  | S, .binary _ l r => WfE N S l ∧ WfE N S r
  | S, .unary _ e => WfE N S e
  | S, .cast e ty => WfE N S e ∧ WfTy N ty
  | S, .index a i => WfE N S a ∧ WfE N S i
  | _, .enumAccess f c => f < N ∧ WfC N c
  | _, .int _ _ => True
  | _, .constRef c => WfC N c
  | _, .inputRef _ ty => WfTy N ty
  | S, .fieldRef f => f < N ∧ S f
  | _, .str _ _ => True
  | S, .ternary c t f => WfE N S c ∧ WfE N S t ∧ WfE N S f
  | _, .bool _ => True
  | S, .call _ ret args => WfTy N ret ∧ WfEs N S args
  | S, .member e c => WfE N S e ∧ WfC N c
def WfEs (N : Nat) : (FId → Prop) → List AExpr → Prop
  | _, [] => True
  | S, e :: es => WfE N S e ∧ WfEs N S es
def WfOpt (N : Nat) : (FId → Prop) → Option AExpr → Prop
  | _, none => True
  | S, some e => WfE N S e
/-- A constant: its value refers to no fields. -/
def WfC (N : Nat) : AConst → Prop
  | .mk _ ty v => WfTy N ty ∧ WfE N NoField v
def WfCs (N : Nat) : List AConst → Prop
  | [] => True
  | c :: cs => WfC N c ∧ WfCs N cs
def WfVs (N : Nat) : List AVariant → Prop
  | [] => True
  | v :: vs => WfV N v ∧ WfVs N vs
def WfV (N : Nat) : AVariant → Prop
  | .value c => WfC N c
  | .default _ => True
/-- A type over a graph with `N` cells. -/
def WfTy (N : Nat) : AType → Prop
  | .container _ len items _ => WfOpt N (Below N) len ∧ ∀ x ∈ items, x.2 < N
  | .enum _ _ _ vs => WfVs N vs
  | .bitfield _ _ _ cs => WfCs N cs
  | .array _ el _ len => WfTy N el ∧ WfOpt N (Below N) len
  | .ref f args => f < N ∧ WfEs N (Below N) args
  | .scalar _ | .foreign _ | .f32 | .f64 | .bool => True
end

/-- A parameter. -/
def WfArg (N : Nat) (a : AArg) : Prop := WfTy N a.type ∧ WfOpt N (Below N) a.default

/-- A transform. -/
def WfX (N : Nat) (x : AXform) : Prop := WfOpt N (Below N) x.condition ∧ WfEs N (Below N) x.args

/-- A cell. -/
structure WfField (N : Nat) (x : AField) : Prop where
  arguments : ∀ a ∈ x.arguments, WfArg N a
  type : WfTy N x.type
  calculated : WfOpt N (Below N) x.calculated
  condition : WfOpt N (Below N) x.condition
  transforms : ∀ t ∈ x.transforms, WfX N t

/-- A graph. -/
def WfHeap (h : Heap) : Prop := ∀ (f : FId) (x : AField), h[f]? = some x → WfField h.length x

/-- An expected type. -/
def WfP (N : Nat) : PType → Prop
  | .type t => WfTy N t
  | .array (some P) => WfP N P
  | _ => True

/-! ## More cells, more fields -/

mutual
theorem WfE.mono {N M : Nat} (hN : N ≤ M) : ∀ (e : AExpr) {S T : FId → Prop}, (∀ f, f < N → S f → T f) → WfE N S e → WfE M T e
  | .binary _ l r, S, T, hS, h => by
    rw [WfE] at h ⊢; exact ⟨WfE.mono hN l hS h.1, WfE.mono hN r hS h.2⟩
  | .unary _ e, S, T, hS, h => by rw [WfE] at h ⊢; exact WfE.mono hN e hS h
  | .cast e ty, S, T, hS, h => by rw [WfE] at h ⊢; exact ⟨WfE.mono hN e hS h.1, WfTy.mono hN ty h.2⟩
  | .index a i, S, T, hS, h => by
    rw [WfE] at h ⊢; exact ⟨WfE.mono hN a hS h.1, WfE.mono hN i hS h.2⟩
  | .enumAccess f c, S, T, hS, h => by
    rw [WfE] at h ⊢; exact ⟨Nat.lt_of_lt_of_le h.1 hN, WfC.mono hN c h.2⟩
  | .int _ _, S, T, hS, h => by rw [WfE]; trivial
  | .constRef c, S, T, hS, h => by rw [WfE] at h ⊢; exact WfC.mono hN c h
  | .inputRef _ ty, S, T, hS, h => by rw [WfE] at h ⊢; exact WfTy.mono hN ty h
  | .fieldRef f, S, T, hS, h => by rw [WfE] at h ⊢; exact ⟨Nat.lt_of_lt_of_le h.1 hN, hS f h.1 h.2⟩
  | .str _ _, S, T, hS, h => by rw [WfE]; trivial
  | .ternary c t f, S, T, hS, h => by
    rw [WfE] at h ⊢; exact ⟨WfE.mono hN c hS h.1, WfE.mono hN t hS h.2.1, WfE.mono hN f hS h.2.2⟩
  | .bool _, S, T, hS, h => by rw [WfE]; trivial
  | .call _ ret args, S, T, hS, h => by
    rw [WfE] at h ⊢; exact ⟨WfTy.mono hN ret h.1, WfEs.mono hN args hS h.2⟩
  | .member e c, S, T, hS, h => by rw [WfE] at h ⊢; exact ⟨WfE.mono hN e hS h.1, WfC.mono hN c h.2⟩
theorem WfEs.mono {N M : Nat} (hN : N ≤ M) : ∀ (es : List AExpr) {S T : FId → Prop}, (∀ f, f < N → S f → T f) → WfEs N S es → WfEs M T es
  | [], S, T, hS, h => by rw [WfEs]; trivial
  | e :: es, S, T, hS, h => by
    rw [WfEs] at h ⊢; exact ⟨WfE.mono hN e hS h.1, WfEs.mono hN es hS h.2⟩
theorem WfOpt.mono {N M : Nat} (hN : N ≤ M) : ∀ (e : Option AExpr) {S T : FId → Prop}, (∀ f, f < N → S f → T f) → WfOpt N S e → WfOpt M T e
  | none, S, T, hS, h => by rw [WfOpt]; trivial
  | some e, S, T, hS, h => by rw [WfOpt] at h ⊢; exact WfE.mono hN e hS h
theorem WfC.mono {N M : Nat} (hN : N ≤ M) : ∀ (c : AConst), WfC N c → WfC M c
  | .mk _ ty v, h => by
    rw [WfC] at h ⊢; exact ⟨WfTy.mono hN ty h.1, WfE.mono hN v (fun _ _ h => h) h.2⟩
theorem WfCs.mono {N M : Nat} (hN : N ≤ M) : ∀ (cs : List AConst), WfCs N cs → WfCs M cs
  | [], h => by rw [WfCs]; trivial
  | c :: cs, h => by rw [WfCs] at h ⊢; exact ⟨WfC.mono hN c h.1, WfCs.mono hN cs h.2⟩
theorem WfVs.mono {N M : Nat} (hN : N ≤ M) : ∀ (vs : List AVariant), WfVs N vs → WfVs M vs
  | [], h => by rw [WfVs]; trivial
  | v :: vs, h => by rw [WfVs] at h ⊢; exact ⟨WfV.mono hN v h.1, WfVs.mono hN vs h.2⟩
theorem WfV.mono {N M : Nat} (hN : N ≤ M) : ∀ (v : AVariant), WfV N v → WfV M v
  | .value c, h => by rw [WfV] at h ⊢; exact WfC.mono hN c h
  | .default _, h => by rw [WfV]; trivial
theorem WfTy.mono {N M : Nat} (hN : N ≤ M) : ∀ (t : AType), WfTy N t → WfTy M t
  | .container _ len items _, h => by
    rw [WfTy] at h ⊢
    exact ⟨WfOpt.mono hN len (fun _ _ h => Nat.lt_of_lt_of_le h hN) h.1,
      fun x hx => Nat.lt_of_lt_of_le (h.2 x hx) hN⟩
  | .enum _ _ _ vs, h => by rw [WfTy] at h ⊢; exact WfVs.mono hN vs h
  | .bitfield _ _ _ cs, h => by rw [WfTy] at h ⊢; exact WfCs.mono hN cs h
  | .array _ el _ len, h => by
    rw [WfTy] at h ⊢
    exact ⟨WfTy.mono hN el h.1, WfOpt.mono hN len (fun _ _ h => Nat.lt_of_lt_of_le h hN) h.2⟩
  | .ref f args, h => by
    rw [WfTy] at h ⊢
    exact ⟨Nat.lt_of_lt_of_le h.1 hN, WfEs.mono hN args (fun _ _ h => Nat.lt_of_lt_of_le h hN) h.2⟩
  | .scalar _, h => by rw [WfTy]; trivial
  | .foreign _, h => by rw [WfTy]; trivial
  | .f32, h => by rw [WfTy]; trivial
  | .f64, h => by rw [WfTy]; trivial
  | .bool, h => by rw [WfTy]; trivial
end

theorem WfE.below {N : Nat} {S : FId → Prop} {e : AExpr} (h : WfE N S e) : WfE N (Below N) e :=
  WfE.mono (Nat.le_refl _) e (fun _ h _ => h) h
theorem WfEs.below {N : Nat} {S : FId → Prop} {e : List AExpr} (h : WfEs N S e) : WfEs N (Below N) e :=
  WfEs.mono (Nat.le_refl _) e (fun _ h _ => h) h
theorem WfOpt.below {N : Nat} {S : FId → Prop} {e : Option AExpr} (h : WfOpt N S e) : WfOpt N (Below N) e :=
  WfOpt.mono (Nat.le_refl _) e (fun _ h _ => h) h

theorem WfEs_iff {N : Nat} {S : FId → Prop} : ∀ {es : List AExpr}, WfEs N S es ↔ ∀ e ∈ es, WfE N S e
  | [] => by simp [WfEs]
  | e :: es => by rw [WfEs, WfEs_iff]; simp
theorem WfCs_iff {N : Nat} : ∀ {cs : List AConst}, WfCs N cs ↔ ∀ c ∈ cs, WfC N c
  | [] => by simp [WfCs]
  | e :: es => by rw [WfCs, WfCs_iff]; simp
theorem WfVs_iff {N : Nat} : ∀ {cs : List AVariant}, WfVs N cs ↔ ∀ c ∈ cs, WfV N c
  | [] => by simp [WfVs]
  | e :: es => by rw [WfVs, WfVs_iff]; simp

theorem WfP.mono {N M : Nat} (hN : N ≤ M) : ∀ (P : PType), WfP N P → WfP M P
  | .type t, h => by rw [WfP] at h ⊢; exact WfTy.mono hN t h
  | .array (some P), h => by rw [WfP] at h ⊢; exact WfP.mono hN P h
  | .array none, _ => by rw [WfP] <;> simp
  | .scalar _, _ => by rw [WfP] <;> simp
  | .any, _ => by rw [WfP] <;> simp

theorem WfArg.mono {N M : Nat} (hN : N ≤ M) {a : AArg} (h : WfArg N a) : WfArg M a :=
  ⟨WfTy.mono hN _ h.1, WfOpt.mono hN _ (fun _ _ h => Nat.lt_of_lt_of_le h hN) h.2⟩
theorem WfX.mono {N M : Nat} (hN : N ≤ M) {a : AXform} (h : WfX N a) : WfX M a :=
  ⟨WfOpt.mono hN _ (fun _ _ h => Nat.lt_of_lt_of_le h hN) h.1,
    WfEs.mono hN _ (fun _ _ h => Nat.lt_of_lt_of_le h hN) h.2⟩
theorem WfField.mono {N M : Nat} (hN : N ≤ M) {x : AField} (h : WfField N x) : WfField M x where
  arguments a ha := (h.arguments a ha).mono hN
  type := WfTy.mono hN _ h.type
  calculated := WfOpt.mono hN _ (fun _ _ h => Nat.lt_of_lt_of_le h hN) h.calculated
  condition := WfOpt.mono hN _ (fun _ _ h => Nat.lt_of_lt_of_le h hN) h.condition
  transforms t ht := (h.transforms t ht).mono hN

/-! ## Nothing dangles -/

/-- It does not fail for want of a cell, and what it gives satisfies `Q`. -/
def Tight {α} (Q : α → Prop) (r : R α) : Prop := r ≠ .error .dangling ∧ ∀ a, r = .ok a → Q a

theorem Tight.ok {α} {Q : α → Prop} {a : α} (h : Q a) : Tight Q (.ok a) := by
  refine ⟨by simp, ?_⟩; rintro b ⟨⟩; exact h
theorem Tight.asg {α} {Q : α → Prop} {e : AsgError} : Tight Q (.error (.asg e)) := ⟨by simp, by simp⟩
theorem Tight.panic {α} {Q : α → Prop} {e : String} : Tight Q (.error (.panic e)) := ⟨by simp, by simp⟩
theorem Tight.diverge {α} {Q : α → Prop} : Tight Q (.error .diverge) := ⟨by simp, by simp⟩
theorem Tight.bind {α β} {P : α → Prop} {Q : β → Prop} {r : R α} {f : α → R β} (h : Tight P r)
    (hf : ∀ a, P a → Tight Q (f a)) : Tight Q (r.bind f) := by
  cases r with
  | ok a => exact hf a (h.2 a rfl)
  | error e =>
    refine ⟨fun he => h.1 ?_, ?_⟩
    · have : (Except.error e : R β) = .error .dangling := he
      cases this; rfl
    · rintro b ⟨⟩
theorem Tight.map {α β} {P : α → Prop} {Q : β → Prop} {r : R α} {f : α → β} (h : Tight P r)
    (hf : ∀ a, P a → Q (f a)) : Tight Q (r.map f) := by
  cases r with
  | ok a => exact .ok (hf a (h.2 a rfl))
  | error e =>
    refine ⟨fun he => h.1 ?_, ?_⟩
    · have : (Except.error e : R β) = .error .dangling := he
      cases this; rfl
    · rintro b ⟨⟩
theorem Tight.imp {α} {P Q : α → Prop} {r : R α} (h : Tight P r) (hi : ∀ a, P a → Q a) : Tight Q r :=
  ⟨h.1, fun a ha => hi a (h.2 a ha)⟩
/-- Just not dangling. -/
abbrev Solid {α} (r : R α) : Prop := Tight (fun _ => True) r
theorem Tight.solid {α} {P : α → Prop} {r : R α} (h : Tight P r) : Solid r := h.imp fun _ _ => trivial
theorem Solid.of {α} {r : R α} (h : r ≠ .error .dangling) : Solid r := ⟨h, fun _ _ => trivial⟩

/-- The functions protospec is given do not dangle (they cannot, in Rust), and the types they give are not
references to fields. -/
structure EnvClosed (env : Env) : Prop where
  same : ∀ h a b, env.same h a b ≠ .error .dangling
  ftFrom : ∀ n h t, WfHeap h → WfTy h.length t → env.ftFrom n h t ≠ .error .dangling
  ftTo : ∀ n h t, WfHeap h → WfTy h.length t → env.ftTo n h t ≠ .error .dangling
  ftToPartial : ∀ n h P, WfHeap h → WfP h.length P → env.ftToPartial n h P ≠ .error .dangling
  normalize : ∀ t, env.normalize t ≠ .error .dangling
  load : ∀ n, env.load n ≠ .error .dangling
  ffiType : ∀ n, Tight (fun o => ∀ as, o = some as → ∀ a ∈ as, WfArg 0 a) (env.ffiType n)
  ffiTransform : ∀ n, Tight (fun o => ∀ as, o = some as → ∀ a ∈ as, ∀ t, a.type = some t → WfTy 0 t) (env.ffiTransform n)
  ffiFunction : ∀ n, Tight (fun o => ∀ sig, o = some sig →
    WfTy 0 sig.ret ∧ ∀ a ∈ sig.arguments, ∀ t, a.type = some t → WfTy 0 t) (env.ffiFunction n)
  prelude : ∀ x ∈ env.prelude, WfTy 0 x.2.ret ∧ ∀ a ∈ x.2.arguments, ∀ t, a.type = some t → WfTy 0 t

theorem deref_tight {h : Heap} {f : FId} (hf : f < h.length) :
    Tight (fun x => h[f]? = some x) (deref h f) := by
  unfold deref
  rw [List.getElem?_eq_getElem hf]
  exact .ok rfl

theorem deref_wf {h : Heap} {f : FId} (hh : WfHeap h) (hf : f < h.length) :
    Tight (WfField h.length) (deref h f) := (deref_tight hf).imp fun _ hx => hh f _ hx

theorem resolvedN_tight {h : Heap} (hh : WfHeap h) : ∀ (n : Nat) (t : AType), WfTy h.length t →
    Tight (WfTy h.length) (resolvedN h n t)
  | 0, t, ht => by
    cases t <;> first | exact .diverge | exact .ok ht
  | n + 1, t, ht => by
    cases t with
    | ref f args =>
      rw [WfTy] at ht
      exact .bind (deref_wf hh ht.1) fun x hx => resolvedN_tight hh n _ hx.type
    | _ => exact .ok ht

theorem resolve_tight {h : Heap} (hh : WfHeap h) {t : AType} (ht : WfTy h.length t) :
    Tight (WfTy h.length) (resolve h t) := resolvedN_tight hh _ t ht

theorem toPartialWith_tight {N : Nat} {follow : FId → R PType} (hf : ∀ f, f < N → Tight (WfP N) (follow f)) :
    ∀ (t : AType), WfTy N t → Tight (WfP N) (toPartialWith follow t)
  | .ref f args, ht => by rw [WfTy] at ht; exact hf f ht.1
  | .scalar s, ht => .ok (by rw [WfP] <;> simp)
  | .array _ el _ _, ht => by
    rw [WfTy] at ht
    exact .map (toPartialWith_tight hf el ht.1) fun P hP => by rw [WfP]; exact hP
  | .container .., ht => .ok (by rw [WfP]; exact ht)
  | .enum .., ht => .ok (by rw [WfP]; exact ht)
  | .bitfield .., ht => .ok (by rw [WfP]; exact ht)
  | .foreign _, ht => .ok (by rw [WfP]; exact ht)
  | .f32, ht => .ok (by rw [WfP]; exact ht)
  | .f64, ht => .ok (by rw [WfP]; exact ht)
  | .bool, ht => .ok (by rw [WfP]; exact ht)

theorem toPartialN_tight {h : Heap} (hh : WfHeap h) : ∀ (n : Nat) (t : AType), WfTy h.length t →
    Tight (WfP h.length) (toPartialN h n t)
  | 0, t, ht => toPartialWith_tight (fun _ _ => .diverge) t ht
  | n + 1, t, ht => toPartialWith_tight (fun f hf => .bind (deref_wf hh hf) fun x hx =>
      toPartialN_tight hh n _ hx.type) t ht

theorem toPartial_tight {h : Heap} (hh : WfHeap h) {t : AType} (ht : WfTy h.length t) :
    Tight (WfP h.length) (toPartial h t) := toPartialN_tight hh _ t ht

theorem assignable_solid {env : Env} (he : EnvClosed env) {h : Heap} (hh : WfHeap h) {a b : AType}
    (ha : WfTy h.length a) (hb : WfTy h.length b) : Solid (assignable env h a b) := by
  refine .bind (resolve_tight hh ha) fun a ha => .bind (resolve_tight hh hb) fun b hb => ?_
  unfold assignableRes
  split
  · exact Solid.of (he.ftTo _ _ _ hh ha)
  · exact Solid.of (he.ftFrom _ _ _ hh hb)
  all_goals first | exact Solid.of (he.same _ _ _) | exact Tight.ok (Q := fun _ => True) trivial

theorem canCoerce_solid {h : Heap} (hh : WfHeap h) {a b : AType}
    (ha : WfTy h.length a) (hb : WfTy h.length b) : Solid (canCoerce h a b) :=
  .bind (resolve_tight hh ha) fun _ _ => .bind (resolve_tight hh hb) fun _ _ => .ok trivial

theorem canCast_solid {env : Env} (he : EnvClosed env) {h : Heap} (hh : WfHeap h) {a b : AType}
    (ha : WfTy h.length a) (hb : WfTy h.length b) : Solid (canCast env h a b) := by
  refine .bind (assignable_solid he hh hb ha) fun x _ => ?_
  split
  · exact .ok trivial
  · refine .bind (canCoerce_solid hh hb ha) fun x _ => ?_
    split
    · exact .ok trivial
    · exact .bind (resolve_tight hh ha) fun _ _ => .bind (resolve_tight hh hb) fun _ _ => .ok trivial

theorem wfScalar {N : Nat} {s : EScalar} : WfTy N (.scalar s) := by rw [WfTy]; trivial
theorem wfBool {N : Nat} : WfTy N .bool := by rw [WfTy]; trivial

theorem passignable_solid {env : Env} (he : EnvClosed env) {h : Heap} (hh : WfHeap h) :
    ∀ (P : PType) {t : AType}, WfP h.length P → WfTy h.length t → Solid (P.assignable env h t)
  | .type x, t, hP, ht => by
    rw [PType.assignable]
    refine .bind (resolve_tight hh ht) fun o ho => ?_
    split
    · exact Solid.of (he.ftToPartial _ _ _ hh hP)
    · rw [WfP] at hP; exact assignable_solid he hh hP ho
  | .scalar p, t, hP, ht => by
    rw [PType.assignable]
    refine .bind (resolve_tight hh ht) fun o ho => ?_
    split
    · exact Solid.of (he.ftToPartial _ _ _ hh hP)
    · exact assignable_solid he hh wfScalar ho
    · exact assignable_solid he hh wfScalar ho
    · exact .ok trivial
  | .array none, t, hP, ht => by
    rw [PType.assignable]
    refine .bind (resolve_tight hh ht) fun o ho => ?_
    split
    · exact Solid.of (he.ftToPartial _ _ _ hh hP)
    · exact .ok trivial
    · exact .ok trivial
  | .array (some el), t, hP, ht => by
    rw [PType.assignable]
    refine .bind (resolve_tight hh ht) fun o ho => ?_
    split
    · exact Solid.of (he.ftToPartial _ _ _ hh hP)
    · rw [WfTy] at ho; rw [WfP] at hP; exact passignable_solid he hh el hP ho.1
    · exact .ok trivial
  | .any, t, hP, ht => by
    rw [PType.assignable]
    refine .bind (resolve_tight hh ht) fun o ho => ?_
    split
    · exact Solid.of (he.ftToPartial _ _ _ hh hP)
    · exact .ok trivial

theorem coercable_solid {h : Heap} (hh : WfHeap h) {P : PType} {t : AType} (hP : WfP h.length P)
    (ht : WfTy h.length t) : Solid (P.coercable h t) := by
  refine .bind (resolve_tight hh ht) fun o ho => ?_
  split
  · exact canCoerce_solid hh ho wfScalar
  · exact canCoerce_solid hh ho wfScalar
  · rw [WfP] at hP; exact canCoerce_solid hh ho hP
  · exact .ok trivial

theorem intoType_wf {N : Nat} {P : PType} {t : AType} (hP : WfP N P) (h : P.intoType = some t) : WfTy N t := by
  unfold PType.intoType at h
  split at h
  · cases h; rw [WfP] at hP; exact hP
  · cases h; exact wfScalar
  · cases h; exact wfScalar
  · cases h

/-- A type, if there is one. -/
def WfTyOpt (N : Nat) (o : Option AType) : Prop := ∀ t, o = some t → WfTy N t

theorem getType_tight {h : Heap} (hh : WfHeap h) {S : FId → Prop} : ∀ (e : AExpr), WfE h.length S e →
    Tight (WfTyOpt h.length) (getType h e)
  | .binary op l r, he => by
    rw [WfE] at he
    rw [getType]
    split
    · exact .ok (by rintro t ⟨⟩; exact wfBool)
    · refine .bind (getType_tight hh l he.1) fun a ha => .bind (getType_tight hh r he.2) fun b hb => .ok ?_
      cases a <;> first | exact ha | exact hb
  | .unary _ e, he => by rw [WfE] at he; rw [getType]; exact getType_tight hh e he
  | .cast _ ty, he => by rw [WfE] at he; rw [getType]; exact .ok (by rintro t ⟨⟩; exact he.2)
  | .index a _, he => by
    rw [WfE] at he; rw [getType]
    refine .bind (getType_tight hh a he.1) fun o ho => .ok ?_
    intro t ht
    unfold indexType at ht
    split at ht
    · cases ht
      have := ho _ rfl
      rw [WfTy] at this
      exact this.1
    · cases ht
  | .enumAccess f _, he => by
    rw [WfE] at he; rw [getType]
    exact .bind (deref_wf hh he.1) fun x hx => .ok (by rintro t ⟨⟩; exact hx.type)
  | .int _ k, he => by rw [getType]; exact .ok (by rintro t ⟨⟩; exact wfScalar)
  | .constRef (.mk _ ty v), he => by
    rw [WfE, WfC] at he; rw [getType]; exact .ok (by rintro t ⟨⟩; exact he.1)
  | .inputRef _ ty, he => by rw [WfE] at he; rw [getType]; exact .ok (by rintro t ⟨⟩; exact he)
  | .fieldRef f, he => by
    rw [WfE] at he; rw [getType]
    exact .bind (deref_wf hh he.1) fun x hx => .ok (by rintro t ⟨⟩; exact hx.type)
  | .str tag content, he => by
    rw [getType]
    exact .ok (by rintro t ⟨⟩; rw [WfTy, WfOpt, WfE]; exact ⟨wfScalar, trivial⟩)
  | .ternary _ t f, he => by
    rw [WfE] at he; rw [getType]
    refine .bind (getType_tight hh t he.2.1) fun a ha => ?_
    cases a with
    | some t => exact .ok ha
    | none => exact getType_tight hh f he.2.2
  | .bool _, he => by rw [getType]; exact .ok (by rintro t ⟨⟩; exact wfBool)
  | .call _ ret _, he => by rw [WfE] at he; rw [getType]; exact .ok (by rintro t ⟨⟩; exact he.1)
  | .member e _, he => by
    rw [WfE] at he; rw [getType]
    refine .bind (getType_tight hh e he.1) fun o ho => ?_
    cases o with
    | none => exact .ok (by rintro t ⟨⟩)
    | some t =>
      refine .bind (resolve_tight hh (ho t rfl)) fun r _ => ?_
      split
      · exact .ok (by rintro t ⟨⟩; exact wfBool)
      · exact .ok (by rintro t ⟨⟩)

/-! ## Conversion -/

/-- The declarations of a module. -/
structure WfProg (N : Nat) (p : Prog) : Prop where
  types : ∀ x ∈ p.types, x.2 < N
  consts : ∀ x ∈ p.consts, WfC N x.2
  transforms : ∀ x ∈ p.transforms, ∀ a ∈ x.2, ∀ t, a.type = some t → WfTy N t
  functions : ∀ x ∈ p.functions, WfTy N x.2.ret ∧ ∀ a ∈ x.2.arguments, ∀ t, a.type = some t → WfTy N t

/-- A scope whose fields are in `S`. -/
def WfScope (N : Nat) (S : FId → Prop) (sc : Scope) : Prop :=
  ∀ fr ∈ sc, (∀ x ∈ fr.fields, x.2 < N ∧ S x.2) ∧ ∀ x ∈ fr.inputs, WfTy N x.2

theorem WfProg.mono {N M : Nat} (hN : N ≤ M) {p : Prog} (h : WfProg N p) : WfProg M p where
  types x hx := Nat.lt_of_lt_of_le (h.types x hx) hN
  consts x hx := WfC.mono hN _ (h.consts x hx)
  transforms x hx a ha t ht := WfTy.mono hN _ (h.transforms x hx a ha t ht)
  functions x hx := ⟨WfTy.mono hN _ (h.functions x hx).1, fun a ha t ht => WfTy.mono hN _ ((h.functions x hx).2 a ha t ht)⟩

theorem WfScope.mono {N M : Nat} (hN : N ≤ M) {S T : FId → Prop} (hS : ∀ f, f < N → S f → T f) {sc : Scope}
    (h : WfScope N S sc) : WfScope M T sc := fun fr hfr =>
  ⟨fun x hx => ⟨Nat.lt_of_lt_of_le ((h fr hfr).1 x hx).1 hN, hS _ ((h fr hfr).1 x hx).1 ((h fr hfr).1 x hx).2⟩,
    fun x hx => WfTy.mono hN _ ((h fr hfr).2 x hx)⟩

theorem IMap.get_mem {α} {m : List (String × α)} {n : String} {a : α} (h : IMap.get m n = some a) :
    (n, a) ∈ m := IMap.mem_of_get h

/-! ### What leaves the graph alone -/

/-- On the graph `h`, `m` does not dangle, leaves the graph alone and gives something good. -/
def Keeps {α} (h : Heap) (Q : α → Prop) (m : M α) : Prop :=
  ∀ t, Tight (fun x : α × St => x.2.heap = h ∧ Q x.1) (m ⟨h, t⟩)

theorem Keeps.bind {α β} {h : Heap} {Q : α → Prop} {Q' : β → Prop} {m : M α} {f : α → M β}
    (hm : Keeps h Q m) (hf : ∀ a, Q a → Keeps h Q' (f a)) : Keeps h Q' (m >>= f) := by
  intro t
  rw [run_bind]
  refine Tight.bind (hm t) ?_
  rintro ⟨a, h', t'⟩ ⟨rfl, hq⟩
  exact hf a hq t'
theorem Keeps.pure {α} {h : Heap} {Q : α → Prop} {a : α} (hq : Q a) : Keeps h Q (Pure.pure a : M α) :=
  fun _ => .ok ⟨rfl, hq⟩
theorem Keeps.fail {α} {h : Heap} {Q : α → Prop} {e : AsgError} : Keeps h Q (Sem.fail e : M α) := fun _ => .asg
theorem Keeps.withHeap {α} {h : Heap} {Q : α → Prop} {f : Heap → R α} (hf : Tight Q (f h)) :
    Keeps h Q (withHeap f) := fun _ => Tight.map hf fun _ ha => ⟨rfl, ha⟩
theorem Keeps.liftR {α} {h : Heap} {Q : α → Prop} {r : R α} (hf : Tight Q r) :
    Keeps h Q (liftR r) := fun _ => Tight.map hf fun _ ha => ⟨rfl, ha⟩
theorem Keeps.check {h : Heap} {c : Bool} {e : AsgError} : Keeps h (fun _ => c = true) (check c e) := by
  unfold Sem.check
  split
  · rename_i hc; exact .pure hc
  · exact .fail
theorem Keeps.lookup {α} {h : Heap} {m : List (String × α)} {n : String} {e : AsgError} :
    Keeps h (fun a => (n, a) ∈ m) (lookup m n e) := by
  unfold Sem.lookup
  split
  · rename_i h; exact .pure (IMap.get_mem h)
  · exact .fail
theorem Keeps.imp {α} {h : Heap} {Q Q' : α → Prop} {m : M α} (hm : Keeps h Q m) (hq : ∀ a, Q a → Q' a) :
    Keeps h Q' m := fun t => Tight.imp (hm t) fun _ hx => ⟨hx.1, hq _ hx.2⟩
theorem Keeps.fresh {h : Heap} : Keeps h (fun _ => True) fresh := fun _ => .ok ⟨rfl, trivial⟩
theorem Keeps.attempt {α} {h : Heap} {Q : α → Prop} {m : M α} (hm : Keeps h Q m) :
    Keeps h (fun o => ∀ a, o = some a → Q a) (attempt m) := by
  intro t
  have hm := hm t
  unfold Sem.attempt
  cases he : m ⟨h, t⟩ with
  | ok x =>
    have := hm.2 _ he
    exact .ok ⟨this.1, by rintro a ⟨⟩; exact this.2⟩
  | error e =>
    rw [he] at hm
    cases e with
    | asg e => exact .ok ⟨rfl, by rintro a ⟨⟩⟩
    | panic e => exact .panic
    | diverge => exact .diverge
    | dangling => exact (hm.1 rfl).elim
theorem Keeps.peek {α} {h : Heap} {Q : α → Prop} {m : M α} (hm : Keeps h Q m) : Keeps h Q (peek m) :=
  fun t => Tight.map (hm t) fun _ hx => ⟨rfl, hx.2⟩

theorem finish_keeps {env : Env} (he : EnvClosed env) {h : Heap} (hh : WfHeap h) {P : PType} {S : FId → Prop}
    {e : AExpr} (hP : WfP h.length P) (hx : WfE h.length S e) :
    Keeps h (WfE h.length S) (finish env P e) := by
  refine .withHeap (.bind (getType_tight hh e hx) fun o ho => ?_)
  cases o with
  | none => exact .panic
  | some t =>
    refine .bind (passignable_solid he hh P hP (ho t rfl)) fun a _ => ?_
    split
    · exact .ok hx
    · refine .bind (coercable_solid hh hP (ho t rfl)) fun c _ => ?_
      split
      · split
        · rename_i ty hi; exact .ok (by rw [WfE]; exact ⟨hx, intoType_wf hP hi⟩)
        · exact .asg
      · exact .asg

theorem typeOf_keeps {h : Heap} (hh : WfHeap h) {S : FId → Prop} {e : AExpr} (hx : WfE h.length S e) :
    Keeps h (WfTyOpt h.length) (typeOf e) := .withHeap (getType_tight hh e hx)

theorem toPartial_keeps {h : Heap} (hh : WfHeap h) {t : AType} (ht : WfTy h.length t) :
    Keeps h (WfP h.length) (withHeap fun h => toPartial h t) := .withHeap (toPartial_tight hh ht)

/-- Operands: what converts each of them gives good expressions. -/
theorem convOperands_keeps {h : Heap} (hh : WfHeap h) {S : FId → Prop} {l r : PType → M AExpr} {P : PType}
    (hP : WfP h.length P) (hl : ∀ P, WfP h.length P → Keeps h (WfE h.length S) (l P))
    (hr : ∀ P, WfP h.length P → Keeps h (WfE h.length S) (r P)) :
    Keeps h (fun x => WfE h.length S x.1 ∧ WfE h.length S x.2) (convOperands l r P) := by
  unfold convOperands
  refine .bind (hl P hP).attempt fun o ho => ?_
  refine .bind (Q := WfTyOpt h.length) ?_ fun o' ho' => ?_
  · cases o with
    | none => exact .pure (by rintro t ⟨⟩)
    | some e => exact typeOf_keeps hh (ho e rfl)
  · split
    · rename_i l' lt
      exact .bind (toPartial_keeps hh (ho' _ rfl)) fun P' hP' => .bind (hr P' hP') fun e' he' =>
        .pure ⟨ho _ rfl, he'⟩
    · refine .bind (hr P hP) fun e he => .bind (typeOf_keeps hh he) fun o ho => ?_
      cases o with
      | none => exact .fail
      | some rt =>
        refine .bind (toPartial_keeps hh (ho _ rfl)) fun P' hP' => .bind (hl P' hP') fun e' he' =>
          .bind (typeOf_keeps hh he') fun o _ => ?_
        cases o with
        | none => exact .fail
        | some _ => exact .pure ⟨he', he⟩

theorem wfP_scalar {N : Nat} {k : PScalar} : WfP N (.scalar k) := by rw [WfP] <;> simp
theorem wfP_any {N : Nat} : WfP N .any := by rw [WfP] <;> simp
theorem wfP_bool {N : Nat} : WfP N (.type .bool) := by rw [WfP]; exact wfBool

theorem expectBool_tight {env : Env} (he : EnvClosed env) {h : Heap} (hh : WfHeap h) {P : PType}
    (hP : WfP h.length P) : Solid (expectBoolR env P h) := by
  refine .bind (passignable_solid he hh P hP wfBool) fun b _ => ?_
  split
  · exact .ok trivial
  · exact .asg

theorem initExpected_wf {N : Nat} {P : PType} (hP : WfP N P) (op : BinOp) : WfP N (initExpected op P) := by
  cases op <;> first | exact wfP_scalar | exact wfP_any | exact wfP_bool | exact hP

theorem checkUnary_tight {env : Env} (he : EnvClosed env) {h : Heap} (hh : WfHeap h) {P : PType}
    (hP : WfP h.length P) {S : FId → Prop} {e : AExpr} (hx : WfE h.length S e) (op : UnOp) :
    Solid (checkUnaryR env op P e h) := by
  have other : Solid ((getType h e).bind fun t =>
    match t with
    | none => .ok ()
    | some t => ((PType.scalar .none).assignable env h t).bind fun b =>
      if b then
        match op, t with
        | .negate, .scalar s => if s.scalar.signed then .ok () else .error (.asg .unexpectedType)
        | _, _ => .ok ()
      else .error (.asg .unexpectedType)) := by
    refine .bind (getType_tight hh e hx) fun o ho => ?_
    cases o with
    | none => exact .ok trivial
    | some t =>
      refine .bind (passignable_solid he hh _ wfP_scalar (ho t rfl)) fun b _ => ?_
      split
      · split
        · split
          · exact .ok trivial
          · exact .asg
        · exact .ok trivial
      · exact .asg
  cases op with
  | not => exact expectBool_tight he hh hP
  | _ => exact other

theorem checkCast_tight {env : Env} (he : EnvClosed env) {h : Heap} (hh : WfHeap h) {S : FId → Prop} {e : AExpr}
    (hx : WfE h.length S e) {u : AType} (hu : WfTy h.length u) : Solid (checkCastR env e u h) := by
  refine .bind (getType_tight hh e hx) fun o ho => ?_
  cases o with
  | none => exact .asg
  | some t =>
    refine .bind (canCast_solid he hh (ho t rfl) hu) fun b _ => ?_
    split
    · exact .ok trivial
    · exact .asg

theorem findVariant_mem {vs : List AVariant} {n : String} {v : AVariant} (h : findVariant vs n = some v) : v ∈ vs :=
  List.mem_of_find?_eq_some h
theorem findFlag_mem {vs : List AConst} {n : String} {v : AConst} (h : findFlag vs n = some v) : v ∈ vs :=
  List.mem_of_find?_eq_some h

theorem enumAccess_tight {p : Prog} {h : Heap} (hh : WfHeap h) (hp : WfProg h.length p) {S : FId → Prop}
    (n v : String) : Tight (WfE h.length S) (enumAccessR p n v h) := by
  unfold enumAccessR
  split
  · exact .asg
  · rename_i f hf
    have hlt := hp.types _ (IMap.get_mem hf)
    refine .bind (deref_wf hh hlt) fun x hx => ?_
    have ht := hx.type
    split
    · rename_i he
      rw [he, WfTy, WfVs_iff] at ht
      split
      · exact .asg
      · rename_i c hc
        have := ht _ (findVariant_mem hc)
        rw [WfV] at this
        exact .ok (by rw [WfE]; exact ⟨hlt, this⟩)
      · exact .asg
    · rename_i he
      rw [he, WfTy, WfCs_iff] at ht
      split
      · exact .asg
      · rename_i c hc
        exact .ok (by rw [WfE]; exact ⟨hlt, ht _ (findFlag_mem hc)⟩)
    · exact .asg

theorem convInt_tight {N : Nat} {S : FId → Prop} (v : String) (t : Option Scalar) (P : PType) :
    Tight (WfE N S) (convIntR v t P) := by
  unfold convIntR
  split
  · exact .asg
  · split
    · exact .ok (by rw [WfE]; trivial)
    · exact .asg

theorem convMember_tight {h : Heap} (hh : WfHeap h) {S : FId → Prop} {e : AExpr} (hx : WfE h.length S e)
    (m : String) : Tight (WfE h.length S) (convMemberR e m h) := by
  refine .bind (getType_tight hh e hx) fun o ho => ?_
  cases o with
  | none => exact .asg
  | some t =>
    refine .bind (resolve_tight hh (ho t rfl)) fun r hr => ?_
    split
    · rw [WfTy, WfCs_iff] at hr
      split
      · rename_i c hc
        exact .ok (by rw [WfE]; exact ⟨hx, hr _ (findFlag_mem hc)⟩)
      · exact .asg
    · exact .asg

theorem ternaryRight_tight {h : Heap} (hh : WfHeap h) {S : FId → Prop} {e : AExpr} (hx : WfE h.length S e)
    {P : PType} (hP : WfP h.length P) : Tight (WfP h.length) (ternaryRightR P e h) := by
  unfold ternaryRightR
  split
  · refine .bind (getType_tight hh e hx) fun o ho => ?_
    cases o with
    | none => exact .asg
    | some t => exact toPartial_tight hh (ho t rfl)
  · exact .ok hP

theorem ffiCount_tight {ps : List FfiArg} {n : Nat} : Solid (ffiCountR ps n) := by
  unfold ffiCountR
  dsimp only
  split
  · exact .panic
  · split
    · exact .asg
    · exact .ok trivial
theorem typeCount_tight {ps : List AArg} {n : Nat} : Solid (typeCountR ps n) := by
  unfold typeCountR
  dsimp only
  split
  · exact .asg
  · split
    · exact .asg
    · exact .ok trivial

theorem argExpected_keeps {h : Heap} (hh : WfHeap h) {t : Option AType} (ht : WfTyOpt h.length t) :
    Keeps h (WfP h.length) (argExpected t) := by
  refine .withHeap ?_
  cases t with
  | none => exact .ok wfP_any
  | some t => exact toPartial_tight hh (ht t rfl)

theorem resolveField_wf {N : Nat} {S : FId → Prop} : ∀ {sc : Scope} {n : String} {f : FId},
    WfScope N S sc → resolveField sc n = some f → f < N ∧ S f
  | [], n, f, _, h => by cases h
  | fr :: sc, n, f, hs, h => by
    rw [resolveField] at h
    split at h
    · rename_i hf; cases h; exact (hs fr (by simp)).1 _ (IMap.get_mem hf)
    · exact resolveField_wf (sc := sc) (fun x hx => hs x (by simp [hx])) h
theorem resolveInput_wf {N : Nat} {S : FId → Prop} : ∀ {sc : Scope} {n : String} {t : AType},
    WfScope N S sc → resolveInput sc n = some t → WfTy N t
  | [], n, f, _, h => by cases h
  | fr :: sc, n, f, hs, h => by
    rw [resolveInput] at h
    split at h
    · rename_i hf; cases h; exact (hs fr (by simp)).2 _ (IMap.get_mem hf)
    · exact resolveInput_wf (sc := sc) (fun x hx => hs x (by simp [hx])) h

theorem convRef_keeps {p : Prog} {h : Heap} (hp : WfProg h.length p) {S : FId → Prop} {sc : Scope}
    (hs : WfScope h.length S sc) (n : String) : Keeps h (WfE h.length S) (convRef p sc n) := by
  unfold convRef
  split
  · rename_i f hf; exact .pure (by rw [WfE]; exact resolveField_wf hs hf)
  · split
    · rename_i t ht; exact .pure (by rw [WfE]; exact resolveInput_wf hs ht)
    · split
      · rename_i c hc; exact .pure (by rw [WfE]; exact hp.consts _ (IMap.get_mem hc))
      · exact .fail

mutual
theorem convE_keeps {env : Env} (he : EnvClosed env) {p : Prog} {h : Heap} (hh : WfHeap h)
    (hp : WfProg h.length p) {S : FId → Prop} {sc : Scope} (hs : WfScope h.length S sc) :
    ∀ (e : Ast.Expression) (P : PType), WfP h.length P → Keeps h (WfE h.length S) (convE env p sc e P)
  | .binary op l r, P, hP => by
    rw [convE]
    refine .bind (Q := fun _ => True) (.withHeap ?_) fun _ _ => ?_
    · split
      · exact expectBool_tight he hh hP
      · exact .ok trivial
    · exact .bind (convOperands_keeps hh (initExpected_wf hP op) (fun P hP => convE_keeps he hh hp hs l P hP)
        (fun P hP => convE_keeps he hh hp hs r P hP)) fun x hx =>
        finish_keeps he hh hP (by rw [WfE]; exact hx)
  | .unary op e, P, hP => by
    rw [convE]
    exact .bind (convE_keeps he hh hp hs e P hP).peek fun i hi =>
      .bind (.withHeap (checkUnary_tight he hh hP hi op)) fun _ _ =>
      .bind (convE_keeps he hh hp hs e P hP) fun i hi => finish_keeps he hh hP (by rw [WfE]; exact hi)
  | .cast e ty, P, hP => by
    rw [convE]
    exact .bind .check fun _ hi => .bind (convTy_keeps he hh hp hs ty .expression (.inl hi)) fun t ht =>
      .bind (convE_keeps he hh hp hs e .any wfP_any) fun i hi =>
      .bind (.withHeap (checkCast_tight he hh hi ht)) fun _ _ =>
      finish_keeps he hh hP (by rw [WfE]; exact ⟨hi, ht⟩)
  | .index a i, P, hP => by
    rw [convE]
    exact .bind (convE_keeps he hh hp hs a _ (by rw [WfP]; exact hP)) fun a ha =>
      .bind (convE_keeps he hh hp hs i _ wfP_scalar) fun i hi =>
      finish_keeps he hh hP (by rw [WfE]; exact ⟨ha, hi⟩)
  | .enumAccess n v, P, hP => by
    rw [convE]
    exact .bind (.withHeap (enumAccess_tight hh hp n v)) fun e hx => finish_keeps he hh hP hx
  | .int v t, P, hP => by
    rw [convE]
    exact .bind (.liftR (convInt_tight v t P)) fun e hx => finish_keeps he hh hP hx
  | .ref n, P, hP => by
    rw [convE]
    exact .bind (convRef_keeps hp hs n) fun e hx => finish_keeps he hh hP hx
  | .str c, P, hP => by
    rw [convE]
    exact .bind .fresh fun t _ => finish_keeps he hh hP (by rw [WfE]; trivial)
  | .ternary c t f, P, hP => by
    rw [convE]
    exact .bind (convE_keeps he hh hp hs c _ wfP_bool) fun c hc =>
      .bind (convE_keeps he hh hp hs t P hP) fun t ht =>
      .bind (.withHeap (ternaryRight_tight hh ht hP)) fun Q hQ =>
      .bind (convE_keeps he hh hp hs f Q hQ) fun f hf =>
      finish_keeps he hh hP (by rw [WfE]; exact ⟨hc, ht, hf⟩)
  | .bool b, P, hP => by
    rw [convE]
    exact finish_keeps he hh hP (by rw [WfE]; trivial)
  | .call f args, P, hP => by
    rw [convE]
    refine .bind .lookup fun sig hsig => .bind (.liftR ffiCount_tight) fun _ _ => ?_
    have := hp.functions _ hsig
    refine .bind (convArgs_keeps he hh hp hs args _ ?_) fun as has =>
      finish_keeps he hh hP (by rw [WfE]; exact ⟨this.1, has⟩)
    intro o ho t ht
    obtain ⟨a, ha, rfl⟩ := List.mem_map.1 ho
    exact this.2 a ha t ht
  | .member e m, P, hP => by
    rw [convE]
    exact .bind (convE_keeps he hh hp hs e .any wfP_any) fun e hx =>
      .bind (.withHeap (convMember_tight hh hx m)) fun e hx => finish_keeps he hh hP hx
theorem convArgs_keeps {env : Env} (he : EnvClosed env) {p : Prog} {h : Heap} (hh : WfHeap h)
    (hp : WfProg h.length p) {S : FId → Prop} {sc : Scope} (hs : WfScope h.length S sc) :
    ∀ (es : List Ast.Expression) (ts : List (Option AType)), (∀ o ∈ ts, WfTyOpt h.length o) →
      Keeps h (WfEs h.length S) (convArgs env p sc es ts)
  | [], ts, _ => by rw [convArgs]; exact .pure (by rw [WfEs]; trivial)
  | _ :: _, [], _ => by rw [convArgs]; exact .pure (by rw [WfEs]; trivial)
  | e :: es, t :: ts, ht => by
    rw [convArgs]
    exact .bind (argExpected_keeps hh (ht t (by simp))) fun P hP => .bind (convE_keeps he hh hp hs e P hP) fun e hx =>
      .bind (convArgs_keeps he hh hp hs es ts fun o ho => ht o (by simp [ho])) fun es hes =>
      .pure (by rw [WfEs]; exact ⟨hx, hes⟩)
theorem convOpt_keeps {env : Env} (he : EnvClosed env) {p : Prog} {h : Heap} (hh : WfHeap h)
    (hp : WfProg h.length p) {S : FId → Prop} {sc : Scope} (hs : WfScope h.length S sc) :
    ∀ (e : Option Ast.Expression) (P : PType), WfP h.length P → Keeps h (WfOpt h.length S) (convOpt env p sc e P)
  | none, P, _ => by rw [convOpt]; exact .pure (by rw [WfOpt]; trivial)
  | some e, P, hP => by
    rw [convOpt]
    exact .bind (convE_keeps he hh hp hs e P hP) fun e hx => .pure (by rw [WfOpt]; exact hx)
/-- Types that can be written in line. -/
theorem convTy_keeps {env : Env} (he : EnvClosed env) {p : Prog} {h : Heap} (hh : WfHeap h)
    (hp : WfProg h.length p) {S : FId → Prop} {sc : Scope} (hs : WfScope h.length S sc) :
    ∀ (ty : Ast.Ty) (pu : Purpose), inlinable ty = true ∨ pu = .arrayInterior →
      Keeps h (WfTy h.length) (convTy env p sc ty pu)
  | .container len fl items, pu, hi => by
    rcases hi with hi | rfl
    · cases hi
    · rw [convTy]; exact .bind .check fun _ h => by cases h
  | .enum rep items, pu, hi => by
    rcases hi with hi | rfl
    · cases hi
    · rw [convTy]; exact .bind (Q := fun _ => False) .fail fun _ h => h.elim
  | .bitfield rep items, pu, hi => by
    rcases hi with hi | rfl
    · cases hi
    · rw [convTy]; exact .bind (Q := fun _ => False) .fail fun _ h => h.elim
  | .scalar s, pu, _ => by rw [convTy]; exact .pure wfScalar
  | .array el ex len, pu, _ => by
    rw [convTy]
    refine .bind (convOpt_keeps he hh hp hs len _ ?_) fun l hl =>
      .bind (convTy_keeps he hh hp hs el .arrayInterior (.inr rfl)) fun t ht => .bind .fresh fun _ _ =>
      .pure (by rw [WfTy]; exact ⟨ht, hl.below⟩)
    split
    · rw [WfP]; exact wfP_scalar
    · exact wfP_scalar
  | .f32, pu, _ => by rw [convTy]; exact .pure (by rw [WfTy]; trivial)
  | .f64, pu, _ => by rw [convTy]; exact .pure (by rw [WfTy]; trivial)
  | .bool, pu, _ => by rw [convTy]; exact .pure (by rw [WfTy]; trivial)
  | .ref n args, pu, _ => by
    rw [convTy]
    refine .bind .lookup fun f hf => .bind (.withHeap (deref_wf hh (hp.types _ hf))) fun x hx =>
      .bind (.liftR typeCount_tight) fun _ _ => .bind (convArgs_keeps he hh hp hs args _ ?_) fun as has =>
      .pure (by rw [WfTy]; exact ⟨hp.types _ hf, has.below⟩)
    intro o ho t ht
    obtain ⟨a, ha, rfl⟩ := List.mem_map.1 ho
    cases ht
    exact (hx.arguments a ha).1
end

/-- The value of an item without an expression. -/
theorem implicitValue_keeps {h : Heap} {op : BinOp} {k : Scalar} {acc : RepAcc}
    (ha : ∀ c, acc.last = some c → WfC h.length c) : Keeps h (WfE h.length NoField) (implicitValue op k acc) := by
  refine .liftR ?_
  split
  · exact .panic
  · rename_i c hc
    split
    · exact .ok (by rw [WfE, WfE, WfE]; exact ⟨ha c hc, trivial⟩)
    · exact .asg

theorem checkVariant_keeps {h : Heap} {n : String} {done : List AVariant} {d : Bool} :
    Keeps h (fun _ => True) (checkVariant n done d) := by
  unfold checkVariant
  split
  · exact .fail
  · exact Keeps.check.imp fun _ _ => trivial

theorem convVariants_keeps {env : Env} (he : EnvClosed env) {p : Prog} {h : Heap} (hh : WfHeap h)
    (hp : WfProg h.length p) {sc : Scope} (hs : WfScope h.length NoField sc) (rep : EScalar) :
    ∀ (items : List Ast.EnumItem) (done : List AVariant) (acc : RepAcc) (d : Bool), WfVs h.length done →
      (∀ c, acc.last = some c → WfC h.length c) →
      Keeps h (WfVs h.length) (convVariants env p sc rep items done acc d)
  | [], done, acc, d, hd, ha => by rw [convVariants]; exact .pure hd
  | .mk name .default :: rest, done, acc, d, hd, ha => by
    rw [convVariants]
    refine .bind checkVariant_keeps fun _ _ => convVariants_keeps he hh hp hs rep rest _ _ _ ?_ ha
    rw [WfVs_iff] at hd ⊢
    intro c hc
    rcases List.mem_append.1 hc with hc | hc
    · exact hd c hc
    · rw [List.mem_singleton.1 hc, WfV]; trivial
  | .mk name (.expr e) :: rest, done, acc, d, hd, ha => by
    rw [convVariants]
    refine .bind checkVariant_keeps fun _ _ => .bind (convE_keeps he hh hp hs e _ wfP_scalar) fun v hv => ?_
    have hc : WfC h.length (AConst.mk name (.scalar rep) v) := by rw [WfC]; exact ⟨wfScalar, hv⟩
    refine convVariants_keeps he hh hp hs rep rest _ _ _ ?_ (by rintro c ⟨⟩; exact hc)
    rw [WfVs_iff] at hd ⊢
    intro c hm
    rcases List.mem_append.1 hm with hm | hm
    · exact hd c hm
    · rw [List.mem_singleton.1 hm, WfV]; exact hc
  | .mk name .none :: rest, done, acc, d, hd, ha => by
    rw [convVariants]
    refine .bind checkVariant_keeps fun _ _ => .bind (implicitValue_keeps ha) fun v hv => ?_
    have hc : WfC h.length (AConst.mk name (.scalar rep) v) := by rw [WfC]; exact ⟨wfScalar, hv⟩
    refine convVariants_keeps he hh hp hs rep rest _ _ _ ?_ ha
    rw [WfVs_iff] at hd ⊢
    intro c hm
    rcases List.mem_append.1 hm with hm | hm
    · exact hd c hm
    · rw [List.mem_singleton.1 hm, WfV]; exact hc

theorem convFlags_keeps {env : Env} (he : EnvClosed env) {p : Prog} {h : Heap} (hh : WfHeap h)
    (hp : WfProg h.length p) {sc : Scope} (hs : WfScope h.length NoField sc) (rep : EScalar) :
    ∀ (items : List Ast.BitItem) (done : List AConst) (acc : RepAcc), WfCs h.length done →
      (∀ c, acc.last = some c → WfC h.length c) →
      Keeps h (WfCs h.length) (convFlags env p sc rep items done acc)
  | [], done, acc, hd, ha => by rw [convFlags]; exact .pure hd
  | .mk name (some e) :: rest, done, acc, hd, ha => by
    rw [convFlags]
    refine .bind .check fun _ _ => .bind (convE_keeps he hh hp hs e _ wfP_scalar) fun v hv => ?_
    have hc : WfC h.length (AConst.mk name (.scalar rep) v) := by rw [WfC]; exact ⟨wfScalar, hv⟩
    refine convFlags_keeps he hh hp hs rep rest _ _ ?_ (by rintro c ⟨⟩; exact hc)
    rw [WfCs_iff] at hd ⊢
    intro c hm
    rcases List.mem_append.1 hm with hm | hm
    · exact hd c hm
    · rw [List.mem_singleton.1 hm]; exact hc
  | .mk name none :: rest, done, acc, hd, ha => by
    rw [convFlags]
    refine .bind .check fun _ _ => .bind (implicitValue_keeps ha) fun v hv => ?_
    have hc : WfC h.length (AConst.mk name (.scalar rep) v) := by rw [WfC]; exact ⟨wfScalar, hv⟩
    refine convFlags_keeps he hh hp hs rep rest _ _ ?_ ha
    rw [WfCs_iff] at hd ⊢
    intro c hm
    rcases List.mem_append.1 hm with hm | hm
    · exact hd c hm
    · rw [List.mem_singleton.1 hm]; exact hc

theorem convXforms_keeps {env : Env} (he : EnvClosed env) {p : Prog} {h : Heap} (hh : WfHeap h)
    (hp : WfProg h.length p) {S : FId → Prop} {sc : Scope} (hs : WfScope h.length S sc) :
    ∀ (xs : List Ast.Transform), Keeps h (fun r => ∀ x ∈ r, WfX h.length x) (convXforms env p sc xs)
  | [] => by rw [convXforms]; exact .pure (by simp)
  | .mk name args c :: rest => by
    rw [convXforms]
    refine .bind .lookup fun ps hps => .bind (.liftR ffiCount_tight) fun _ _ =>
      .bind (convArgs_keeps he hh hp hs args _ ?_) fun as has =>
      .bind (convOpt_keeps he hh hp hs c _ wfP_bool) fun c hc =>
      .bind (convXforms_keeps he hh hp hs rest) fun r hr => .pure ?_
    · intro o ho t ht
      obtain ⟨a, ha, rfl⟩ := List.mem_map.1 ho
      exact hp.transforms _ hps a ha t ht
    · intro x hx
      rcases List.mem_cons.1 hx with rfl | hx
      · exact ⟨hc.below, has.below⟩
      · exact hr x hx

theorem containerFlags_keeps {h : Heap} : ∀ (fs : List String) (b : Bool),
    Keeps h (fun _ => True) (containerFlags fs b)
  | [], b => by rw [containerFlags]; exact .pure trivial
  | f :: fs, b => by
    rw [containerFlags]
    split
    · exact containerFlags_keeps fs true
    · exact .fail
theorem fieldFlags_keeps {h : Heap} (fs : List String) : Keeps h (fun _ => True) (fieldFlags fs) := by
  cases fs with
  | nil => exact .pure trivial
  | cons f fs => exact .fail

/-! ### What adds to the graph -/

/-- On any closed graph with at least `N` cells, `m` does not dangle, gives a closed graph with at least as many
cells, and something good for it. -/
def Grows {α} (N : Nat) (Q : Nat → α → Prop) (m : M α) : Prop :=
  ∀ s : St, WfHeap s.heap → N ≤ s.heap.length →
    Tight (fun x : α × St => WfHeap x.2.heap ∧ s.heap.length ≤ x.2.heap.length ∧ Q x.2.heap.length x.1) (m s)

theorem Grows.bind {α β} {N : Nat} {Q : Nat → α → Prop} {Q' : Nat → β → Prop} {m : M α} {f : α → M β}
    (hm : Grows N Q m) (hf : ∀ a M, N ≤ M → Q M a → Grows M Q' (f a)) : Grows N Q' (m >>= f) := by
  intro s hh hN
  rw [run_bind]
  refine Tight.bind (hm s hh hN) ?_
  rintro ⟨a, s'⟩ ⟨hh', hN', hq⟩
  exact (hf a _ (Nat.le_trans hN hN') hq s' hh' (Nat.le_refl _)).imp fun x hx =>
    ⟨hx.1, Nat.le_trans hN' hx.2.1, hx.2.2⟩
theorem Grows.pure {α} {N : Nat} {Q : Nat → α → Prop} {a : α} (hq : ∀ M, N ≤ M → Q M a) :
    Grows N Q (Pure.pure a : M α) := fun _ hh hN => .ok ⟨hh, Nat.le_refl _, hq _ hN⟩
theorem Grows.fail {α} {N : Nat} {Q : Nat → α → Prop} {e : AsgError} : Grows N Q (Sem.fail e : M α) :=
  fun _ _ _ => .asg
theorem Keeps.grows {α} {N : Nat} {Q : Nat → α → Prop} {m : M α}
    (hm : ∀ h, WfHeap h → N ≤ h.length → Keeps h (Q h.length) m) : Grows N Q m := by
  intro s hh hN
  refine (hm s.heap hh hN s.tag).imp ?_
  rintro ⟨a, s'⟩ ⟨e, hq⟩
  simp only at e
  simp only [e]
  exact ⟨hh, Nat.le_refl _, hq⟩
theorem Grows.check {N : Nat} {c : Bool} {e : AsgError} : Grows N (fun _ _ => c = true) (check c e) :=
  Keeps.grows fun _ _ _ => .check
theorem Grows.fresh {N : Nat} : Grows N (fun _ _ => True) fresh := Keeps.grows fun _ _ _ => .fresh
theorem Grows.imp {α} {N : Nat} {Q Q' : Nat → α → Prop} {m : M α} (hm : Grows N Q m)
    (hq : ∀ M a, N ≤ M → Q M a → Q' M a) : Grows N Q' m := fun s hh hN =>
  (hm s hh hN).imp fun _ hx => ⟨hx.1, hx.2.1, hq _ _ (Nat.le_trans hN hx.2.1) hx.2.2⟩
theorem Grows.alloc {N : Nat} {f : AField} (hf : WfField N f) : Grows N (fun M id => id < M) (alloc f) := by
  intro s hh hN
  refine .ok ⟨?_, by simp, by simp⟩
  intro g x hg
  simp only [List.length_append, List.length_singleton] at hg ⊢
  by_cases hlt : g < s.heap.length
  · rw [List.getElem?_append_left hlt] at hg
    exact (hh g x hg).mono (by omega)
  · rw [List.getElem?_append_right (Nat.le_of_not_lt hlt)] at hg
    have : f = x := by
      cases hk : g - s.heap.length with
      | zero => rw [hk] at hg; simpa using hg
      | succ k => rw [hk] at hg; simp at hg
    rw [← this]
    exact hf.mono (by omega)
theorem Grows.update {N : Nat} {id : FId} {g : AField → AField}
    (hg : ∀ M x, N ≤ M → WfField M x → WfField M (g x)) : Grows N (fun _ _ => True) (update id g) := by
  intro s hh hN
  refine .ok ⟨?_, by simp, trivial⟩
  intro f x hx
  simp only [List.length_modify] at hx ⊢
  rw [List.getElem?_modify] at hx
  cases hf : s.heap[f]? with
  | none => rw [hf] at hx; cases hx
  | some y =>
    rw [hf] at hx
    have hx : (if id = f then g else fun a => a) y = x := by
      by_cases hi : id = f <;> simp_all
    rw [← hx]
    split
    · exact hg _ _ hN (hh f y hf)
    · exact hh f y hf

theorem blank_wf {N : Nat} {n : String} {b : Bool} : WfField N (blankField n b) where
  arguments := by intro a ha; cases ha
  type := wfBool
  calculated := by rw [blankField, WfOpt]; trivial
  condition := by rw [blankField, WfOpt]; trivial
  transforms := by intro a ha; cases ha

theorem insert_mem {α} {m : List (String × α)} {k : String} {v : α} {x : String × α}
    (h : x ∈ IMap.insert m k v) : x ∈ m ∨ x = (k, v) := by
  induction m with
  | nil => simp only [IMap.insert, List.mem_singleton] at h; exact .inr h
  | cons y m ih =>
    obtain ⟨n, w⟩ := y
    rw [IMap.insert] at h
    split at h
    · rename_i e
      rcases List.mem_cons.1 h with h | h
      · subst e; exact .inr h
      · exact .inl (List.mem_cons_of_mem _ h)
    · rcases List.mem_cons.1 h with h | h
      · exact .inl (by rw [h]; simp)
      · exact (ih h).imp (List.mem_cons_of_mem _) id

/-- The fields collected so far. -/
structure WfAcc (N : Nat) (a : ItemAcc) : Prop where
  items : ∀ x ∈ a.items, x.2 < N
  declared : ∀ x ∈ a.declared, x.2 < N
  pending : ∀ f ∈ a.pending, f < N

theorem WfAcc.mono {N M : Nat} (hN : N ≤ M) {a : ItemAcc} (h : WfAcc N a) : WfAcc M a :=
  ⟨fun x hx => Nat.lt_of_lt_of_le (h.items x hx) hN, fun x hx => Nat.lt_of_lt_of_le (h.declared x hx) hN,
    fun x hx => Nat.lt_of_lt_of_le (h.pending x hx) hN⟩

theorem addField_grows {N : Nat} {isEnum c : Bool} {n : String} {f : FId} {a : ItemAcc} (hf : f < N)
    (ha : WfAcc N a) : Grows N (fun M a => WfAcc M a) (addField isEnum c n f a) := by
  refine .bind .check fun _ M hM _ => .pure fun M' hM' => ?_
  have hf' : f < M' := Nat.lt_of_lt_of_le hf (Nat.le_trans hM hM')
  have ha' := ha.mono (Nat.le_trans hM hM')
  constructor
  · intro x hx
    rcases insert_mem hx with hx | rfl
    · exact ha'.items x hx
    · exact hf'
  · intro x hx
    rcases insert_mem hx with hx | rfl
    · exact ha'.declared x hx
    · exact hf'
  · intro x hx
    rcases List.mem_append.1 hx with hx | hx
    · exact ha'.pending x hx
    · rw [List.mem_singleton.1 hx]; exact hf'

/-- Any field. -/
def AnyField (_ : FId) : Prop := True

theorem WfScope.any {N M : Nat} (hN : N ≤ M) {S : FId → Prop} {sc : Scope} (h : WfScope N S sc) :
    WfScope M AnyField sc := h.mono hN fun _ _ _ => trivial

theorem WfScope.cons {N : Nat} {sc : Scope} (h : WfScope N AnyField sc) {d : List (String × FId)}
    (hd : ∀ x ∈ d, x.2 < N) : WfScope N AnyField (⟨d, []⟩ :: sc) := by
  intro fr hfr
  rcases List.mem_cons.1 hfr with rfl | hfr
  · exact ⟨fun x hx => ⟨hd x hx, trivial⟩, by intro x hx; cases hx⟩
  · exact h fr hfr

theorem deref_keeps {h : Heap} (hh : WfHeap h) {f : FId} (hf : f < h.length) :
    Keeps h (WfP h.length) (withHeap fun h => (deref h f).bind fun x => toPartial h x.type) :=
  .withHeap (.bind (deref_wf hh hf) fun _ hx => toPartial_tight hh hx.type)

theorem convEnd_grows {env : Env} (he : EnvClosed env) {p : Prog} {N : Nat} (hp : WfProg N p) {sc : Scope}
    {S : FId → Prop} (hs : WfScope N S sc) {f : FId} (hf : f < N) :
    ∀ (x : Ast.Field), Grows N (fun _ _ => True) (convEnd env p sc x f)
  | .mk _ _ none _ _ => by rw [convEnd]; exact .pure fun _ _ => trivial
  | .mk _ _ (some e) _ _ => by
    rw [convEnd]
    refine .bind (Keeps.grows (Q := fun M => WfP M) fun h hh hN => deref_keeps hh (Nat.lt_of_lt_of_le hf hN)) fun P M hM hP =>
      .bind (Keeps.grows (Q := fun M => WfE M AnyField) fun h hh hN =>
        convE_keeps he hh (hp.mono (by omega)) (hs.any (by omega)) e P (WfP.mono hN P hP)) fun e M' hM' hx =>
      .update fun K x hK hy => { hy with calculated := ?_ }
    rw [WfOpt]
    exact (WfE.mono hK e (fun _ _ h => h) hx).below

theorem convEnds_grows {env : Env} (he : EnvClosed env) {p : Prog} {sc : Scope} :
    ∀ (items : List Ast.Item) {N : Nat} (_ : WfProg N p) (_ : WfScope N AnyField sc) (ids : List FId),
      (∀ f ∈ ids, f < N) → Grows N (fun _ _ => True) (convEnds env p sc items ids)
  | [], N, hp, hs, ids, hi => by rw [convEnds]; exact .pure fun _ _ => trivial; all_goals simp
  | .pad _ :: rest, N, hp, hs, ids, hi => by rw [convEnds]; exact convEnds_grows he rest hp hs ids hi
  | .field _ _ :: rest, N, hp, hs, [], hi => by rw [convEnds]; exact .pure fun _ _ => trivial; all_goals simp
  | .field _ f :: rest, N, hp, hs, id :: ids, hi => by
    rw [convEnds]
    exact .bind (convEnd_grows he hp (hs.cons (by simp)) (hi id (by simp)) f) fun _ M hM _ =>
      convEnds_grows he rest (hp.mono hM) (hs.any hM) ids fun g hg => Nat.lt_of_lt_of_le (hi g (by simp [hg])) hM

mutual
theorem convTy_grows {env : Env} (he : EnvClosed env) {p : Prog} :
    ∀ (ty : Ast.Ty) {N : Nat} (_ : WfProg N p) {S : FId → Prop} {sc : Scope} (_ : WfScope N S sc) (pu : Purpose),
      (pu.isDefinition = true → ∀ f, ¬ S f) → Grows N (fun M t => WfTy M t) (convTy env p sc ty pu)
  | .container len fl items, N, hp, S, sc, hs, pu, hd => by
    rw [convTy]
    refine .bind .check fun _ M hM _ => .bind (Keeps.grows (Q := fun M => WfOpt M AnyField) fun h hh hN =>
        convOpt_keeps he hh (hp.mono (by omega)) (hs.any (by omega)) len _ wfP_scalar) fun l M1 hM1 hl =>
      .bind (Keeps.grows (Q := fun _ _ => True) fun h hh hN => containerFlags_keeps fl false) fun isEnum M2 hM2 _ =>
      .bind .check fun _ M3 hM3 _ => .bind (convItems_grows he items (hp.mono (by omega)) (hs.any (by omega)) isEnum _
        ⟨by simp, by simp, by simp⟩) fun acc M4 hM4 hacc => .bind (convEnds_grows he items (hp.mono (by omega))
          ((hs.any (by omega)).cons hacc.declared) _ hacc.pending) fun _ M5 hM5 _ =>
      .bind .fresh fun _ M6 hM6 _ => .pure fun M7 hM7 => ?_
    rw [WfTy]
    exact ⟨(WfOpt.mono (by omega) l (fun _ _ h => h) hl).below, fun x hx => Nat.lt_of_lt_of_le (hacc.items x hx) (by omega)⟩
  | .enum rep items, N, hp, S, sc, hs, pu, hd => by
    rw [convTy]
    refine .bind (Q := fun _ _ => ∀ f, ¬ S f) ?_ fun n M hM hn => .bind (Keeps.grows (Q := fun M => WfVs M) fun h hh hN =>
        convVariants_keeps he hh (hp.mono (by omega)) (hs.mono (by omega) fun f _ h => hn f h) rep items [] _ _
          (by rw [WfVs]; trivial) (by rintro c ⟨⟩)) fun vs M1 hM1 hvs =>
      .bind .fresh fun _ M2 hM2 _ => .pure fun M3 hM3 => ?_
    · cases pu with
      | typeDefinition n => exact .pure fun _ _ => hd rfl
      | _ => exact .fail
    · rw [WfTy]; exact WfVs.mono (by omega) vs hvs
  | .bitfield rep items, N, hp, S, sc, hs, pu, hd => by
    rw [convTy]
    refine .bind (Q := fun _ _ => ∀ f, ¬ S f) ?_ fun n M hM hn => .bind (Keeps.grows (Q := fun M => WfCs M) fun h hh hN =>
        convFlags_keeps he hh (hp.mono (by omega)) (hs.mono (by omega) fun f _ h => hn f h) rep items [] _
          (by rw [WfCs]; trivial) (by rintro c ⟨⟩)) fun vs M1 hM1 hvs =>
      .bind .fresh fun _ M2 hM2 _ => .pure fun M3 hM3 => ?_
    · cases pu with
      | typeDefinition n => exact .pure fun _ _ => hd rfl
      | _ => exact .fail
    · rw [WfTy]; exact WfCs.mono (by omega) vs hvs
  | .scalar s, N, hp, S, sc, hs, pu, hd => Keeps.grows fun h hh hN =>
      convTy_keeps he hh (hp.mono hN) (hs.any hN) _ pu (.inl rfl)
  | .array el ex len, N, hp, S, sc, hs, pu, hd => Keeps.grows fun h hh hN =>
      convTy_keeps he hh (hp.mono hN) (hs.any hN) _ pu (.inl rfl)
  | .f32, N, hp, S, sc, hs, pu, hd => Keeps.grows fun h hh hN =>
      convTy_keeps he hh (hp.mono hN) (hs.any hN) _ pu (.inl rfl)
  | .f64, N, hp, S, sc, hs, pu, hd => Keeps.grows fun h hh hN =>
      convTy_keeps he hh (hp.mono hN) (hs.any hN) _ pu (.inl rfl)
  | .bool, N, hp, S, sc, hs, pu, hd => Keeps.grows fun h hh hN =>
      convTy_keeps he hh (hp.mono hN) (hs.any hN) _ pu (.inl rfl)
  | .ref n args, N, hp, S, sc, hs, pu, hd => Keeps.grows fun h hh hN =>
      convTy_keeps he hh (hp.mono hN) (hs.any hN) _ pu (.inl rfl)
theorem convItems_grows {env : Env} (he : EnvClosed env) {p : Prog} :
    ∀ (items : List Ast.Item) {N : Nat} (_ : WfProg N p) {sc : Scope} (_ : WfScope N AnyField sc) (isEnum : Bool)
      (acc : ItemAcc), WfAcc N acc → Grows N (fun M a => WfAcc M a) (convItems env p sc isEnum items acc)
  | [], N, hp, sc, hs, isEnum, acc, ha => by rw [convItems]; exact .pure fun M hM => ha.mono hM
  | .field name f :: rest, N, hp, sc, hs, isEnum, acc, ha => by
    rw [convItems]
    exact .bind .check fun _ M hM _ => .bind (.alloc blank_wf) fun id M1 hM1 hid =>
      .bind (convMid_grows he f (hp.mono (by omega)) (((hs.any (by omega)).cons (ha.mono (by omega)).declared).cons
        (by simp)) .fieldInterior (by simp [Purpose.isDefinition]) id) fun c M2 hM2 _ =>
      .bind (addField_grows (Nat.lt_of_lt_of_le hid hM2) (ha.mono (by omega))) fun acc M3 hM3 hacc =>
      convItems_grows he rest (hp.mono (by omega)) (hs.any (by omega)) isEnum acc hacc
  | .pad e :: rest, N, hp, sc, hs, isEnum, acc, ha => by
    rw [convItems]
    refine .bind .check fun _ M hM _ => .bind (Keeps.grows (Q := fun M => WfE M AnyField) fun h hh hN =>
        convE_keeps he hh (hp.mono (by omega)) ((hs.any (by omega)).cons (ha.mono (by omega)).declared) e _ wfP_scalar)
      fun l M1 hM1 hl => .bind .fresh fun t M2 hM2 _ => .bind (.alloc ?_) fun id M3 hM3 hid =>
      convItems_grows he rest (hp.mono (by omega)) (hs.any (by omega)) isEnum _ ?_
    · exact { blank_wf (n := padName acc.padCount) (b := false) with
        type := by
          simp only [padField]
          rw [WfTy, WfOpt]
          exact ⟨wfScalar, (WfE.mono hM2 l (fun _ _ h => h) hl).below⟩ }
    · have ha' := ha.mono (show N ≤ M3 by omega)
      refine ⟨?_, ha'.declared, ha'.pending⟩
      intro x hx
      rcases insert_mem hx with hx | rfl
      · exact ha'.items x hx
      · exact hid
theorem convMid_grows {env : Env} (he : EnvClosed env) {p : Prog} :
    ∀ (f : Ast.Field) {N : Nat} (_ : WfProg N p) {S : FId → Prop} {sc : Scope} (_ : WfScope N S sc) (pu : Purpose),
      (pu.isDefinition = true → ∀ f, ¬ S f) → ∀ id, Grows N (fun _ _ => True) (convMid env p sc f pu id)
  | .mk type flags c condition transforms, N, hp, S, sc, hs, pu, hd, id => by
    rw [convMid]
    refine .bind (convTy_grows he type hp hs pu hd) fun t M hM ht =>
      .bind (Keeps.grows (Q := fun M => WfOpt M AnyField) fun h hh hN =>
        convOpt_keeps he hh (hp.mono (by omega)) (hs.any (by omega)) condition _ wfP_bool) fun co M1 hM1 hco =>
      .bind (Keeps.grows (Q := fun M r => ∀ x ∈ r, WfX M x) fun h hh hN =>
        convXforms_keeps he hh (hp.mono (by omega)) (hs.any (S := S) (by omega)) transforms) fun xs M2 hM2 hxs =>
      .bind (Keeps.grows (Q := fun _ _ => True) fun h hh hN => fieldFlags_keeps flags) fun _ M3 hM3 _ =>
      .bind (.update fun K x hK hy => { hy with
        type := WfTy.mono (by omega) t ht
        condition := (WfOpt.mono (by omega) co (fun _ _ h => h) hco).below
        transforms := fun x hx => (hxs x hx).mono (by omega) }) fun _ M4 hM4 _ => .pure fun _ _ => trivial
end

/-! ### Declarations -/

theorem WfScope.inputs {N : Nat} {S : FId → Prop} {sc : Scope} (h : WfScope N S sc) {d : List (String × AType)}
    (hd : ∀ x ∈ d, WfTy N x.2) : WfScope N S (⟨[], d⟩ :: sc) := by
  intro fr hfr
  rcases List.mem_cons.1 hfr with rfl | hfr
  · exact ⟨(by intro x hx; cases hx), hd⟩
  · exact h fr hfr

theorem WfScope.up {N M : Nat} (hN : N ≤ M) {S : FId → Prop} {sc : Scope} (h : WfScope N S sc) : WfScope M S sc :=
  h.mono hN fun _ _ h => h

theorem topScope_wf {N : Nat} : WfScope N NoField topScope := by
  intro fr hfr
  rw [topScope, List.mem_singleton] at hfr
  subst hfr
  exact ⟨(by intro x hx; cases hx), (by intro x hx; cases hx)⟩

theorem convTypeArgs_grows {env : Env} (he : EnvClosed env) {p : Prog} {sc : Scope} :
    ∀ (as : List Ast.TypeArg) {N : Nat} (_ : WfProg N p) (_ : WfScope N NoField sc) (inputs : List (String × AType))
      (done : List AArg), (∀ x ∈ inputs, WfTy N x.2) → (∀ a ∈ done, WfArg N a) →
      Grows N (fun M r => (∀ x ∈ r.1, WfTy M x.2) ∧ ∀ a ∈ r.2, WfArg M a) (convTypeArgs env p sc as inputs done)
  | [], N, hp, hs, inputs, done, hi, hd => by
    rw [convTypeArgs]
    exact .pure fun M hM => ⟨fun x hx => WfTy.mono hM _ (hi x hx), fun a ha => (hd a ha).mono hM⟩
  | a :: rest, N, hp, hs, inputs, done, hi, hd => by
    rw [convTypeArgs]
    refine .bind (convTy_grows he a.type hp (hs.inputs hi) .expression (by simp [Purpose.isDefinition]))
      fun t M hM ht => ?_
    have hi' : ∀ x ∈ IMap.insert inputs a.name t, WfTy M x.2 := by
      intro x hx
      rcases insert_mem hx with hx | rfl
      · exact WfTy.mono hM _ (hi x hx)
      · exact ht
    refine .bind (Keeps.grows (Q := fun M => WfP M) fun h hh hN => ?_) fun P M1 hM1 hP =>
      .bind (Keeps.grows (Q := fun M => WfOpt M NoField) fun h hh hN =>
        convOpt_keeps he hh (hp.mono (by omega)) ((hs.up (by omega)).inputs fun x hx => WfTy.mono (by omega) _ (hi' x hx))
          a.default P (WfP.mono hN P hP)) fun d M2 hM2 hd' =>
      convTypeArgs_grows he rest (hp.mono (by omega)) (hs.up (by omega)) _ _
        (fun x hx => WfTy.mono (by omega) _ (hi' x hx)) ?_
    · refine .withHeap ?_
      cases a.default with
      | none => exact .ok wfP_any
      | some _ => exact toPartial_tight hh (WfTy.mono hN t ht)
    · intro b hb
      rcases List.mem_append.1 hb with hb | hb
      · exact (hd b hb).mono (by omega)
      · rw [List.mem_singleton.1 hb]
        exact ⟨WfTy.mono (by omega) t ht, hd'.below⟩

theorem convArguments_grows {env : Env} (he : EnvClosed env) {p : Prog} {N : Nat} (hp : WfProg N p) {sc : Scope}
    (hs : WfScope N NoField sc) (as : List Ast.TypeArg) (id : FId) :
    Grows N (fun M sc => WfScope M NoField sc) (convArguments env p sc as id) := by
  refine .bind (convTypeArgs_grows he as hp hs [] [] (by simp) (by simp)) fun r M hM hr => ?_
  obtain ⟨inputs, arguments⟩ := r
  exact .bind (.update fun K x hK hx => { hx with arguments := fun a ha => (hr.2 a ha).mono hK }) fun _ M1 hM1 _ =>
    .pure fun M2 hM2 => (hs.up (by omega)).inputs fun x hx => WfTy.mono (by omega) _ (hr.1 x hx)

theorem convBody_grows {env : Env} (he : EnvClosed env) {p : Prog} {N : Nat} (hp : WfProg N p) {sc : Scope}
    (hs : WfScope N NoField sc) (name : String) (f : Ast.Field) {id : FId} (hid : id < N) :
    Grows N (fun _ _ => True) (convBody env p sc name f id) :=
  .bind (convMid_grows he f hp hs _ (fun _ _ h => h) id) fun _ _ hM _ =>
    convEnd_grows he (hp.mono hM) (hs.up hM) (Nat.lt_of_lt_of_le hid hM) f

theorem declareType_grows {p : Prog} {N : Nat} (hp : WfProg N p) (name : String) :
    Grows N (fun M r => r.1 < M ∧ WfProg M r.2) (declareType name p) := by
  refine .bind .check fun _ M hM _ => .bind (.alloc blank_wf) fun id M1 hM1 hid => .pure fun M2 hM2 => ?_
  have hp' := hp.mono (show N ≤ M2 by omega)
  refine ⟨Nat.lt_of_lt_of_le hid hM2, { hp' with types := ?_ }⟩
  intro x hx
  rcases insert_mem hx with hx | rfl
  · exact hp'.types x hx
  · exact Nat.lt_of_lt_of_le hid hM2

theorem found_tight {α} {Q : α → Prop} {r : R (Option α)} {e : AsgError} (h : Tight (fun o => ∀ a, o = some a → Q a) r) :
    Tight Q (found r e) := by
  refine .bind h fun o ho => ?_
  cases o with
  | none => exact .asg
  | some a => exact .ok (ho a rfl)

theorem convFfi_grows {env : Env} (he : EnvClosed env) (name : String) (k : Ast.FfiKind) {p : Prog} {N : Nat}
    (hp : WfProg N p) : Grows N (fun M p => WfProg M p) (convFfi env name k p) := by
  cases k with
  | type =>
    rw [convFfi]
    refine .bind (Keeps.grows (Q := fun _ as => ∀ a ∈ as, WfArg 0 a) fun h hh hN =>
        .liftR (found_tight (he.ffiType name))) fun as M hM has => .bind .check fun _ M1 hM1 _ =>
      .bind (.alloc ?_) fun id M2 hM2 hid => .pure fun M3 hM3 => ?_
    · exact { blank_wf (n := name) (b := true) with
        arguments := fun a ha => (has a ha).mono (Nat.zero_le _)
        type := by simp only; rw [WfTy]; trivial }
    · have hp' := hp.mono (show N ≤ M3 by omega)
      refine { hp' with types := ?_ }
      intro x hx
      rcases insert_mem hx with hx | rfl
      · exact hp'.types x hx
      · exact Nat.lt_of_lt_of_le hid hM3
  | transform =>
    rw [convFfi]
    refine .bind (Keeps.grows (Q := fun _ as => ∀ a ∈ as, ∀ t, a.type = some t → WfTy 0 t) fun h hh hN =>
        .liftR (found_tight (he.ffiTransform name))) fun as M hM has => .bind .check fun _ M1 hM1 _ =>
      .pure fun M3 hM3 => ?_
    have hp' := hp.mono (show N ≤ M3 by omega)
    refine { hp' with transforms := ?_ }
    intro x hx
    rcases insert_mem hx with hx | rfl
    · exact hp'.transforms x hx
    · exact fun a ha t ht => WfTy.mono (Nat.zero_le _) _ (has a ha t ht)
  | function =>
    rw [convFfi]
    refine .bind (Keeps.grows (Q := fun _ (sig : FnSig) => WfTy 0 sig.ret ∧ ∀ a ∈ sig.arguments, ∀ t, a.type = some t → WfTy 0 t)
        fun h hh hN => .liftR (found_tight (he.ffiFunction name))) fun sig M hM hsig => .bind .check fun _ M1 hM1 _ =>
      .pure fun M3 hM3 => ?_
    have hp' := hp.mono (show N ≤ M3 by omega)
    refine { hp' with functions := ?_ }
    intro x hx
    rcases insert_mem hx with hx | rfl
    · exact hp'.functions x hx
    · exact ⟨WfTy.mono (Nat.zero_le _) _ hsig.1, fun a ha t ht => WfTy.mono (Nat.zero_le _) _ (hsig.2 a ha t ht)⟩

theorem bindItems_tight {N : Nat} {m : String} {cached : Prog} (hc : WfProg N cached) :
    ∀ (items : List Ast.ImportItem) {p : Prog}, WfProg N p → Tight (WfProg N) (bindItems m cached items p)
  | [], p, hp => .ok hp
  | i :: rest, p, hp => by
    rw [bindItems]
    split
    · rename_i f hf
      refine bindItems_tight hc rest { hp with types := ?_ }
      intro x hx
      rcases insert_mem hx with hx | rfl
      · exact hp.types x hx
      · exact hc.types (i.name, _) (IMap.get_mem hf)
    · split
      · rename_i c hf
        refine bindItems_tight hc rest { hp with consts := ?_ }
        intro x hx
        rcases insert_mem hx with hx | rfl
        · exact hp.consts x hx
        · exact hc.consts (i.name, _) (IMap.get_mem hf)
      · split
        · rename_i t hf
          refine bindItems_tight hc rest { hp with transforms := ?_ }
          intro x hx
          rcases insert_mem hx with hx | rfl
          · exact hp.transforms x hx
          · exact hc.transforms (i.name, _) (IMap.get_mem hf)
        · exact .asg

theorem convImport_grows {env : Env} (he : EnvClosed env) {mods : List (String × Prog)} {N : Nat}
    (hm : ∀ x ∈ mods, WfProg N x.2) (items : List Ast.ImportItem) (src : Text) {p : Prog} (hp : WfProg N p) :
    Grows N (fun M p => WfProg M p) (convImport env mods items src p) :=
  .bind (Keeps.grows (Q := fun _ _ => True) fun h hh hN => .liftR (Solid.of (he.normalize src))) fun name M hM _ =>
    .bind (Keeps.grows (Q := fun _ c => (name, c) ∈ mods) fun h hh hN => .lookup) fun c M1 hM1 hc =>
    Keeps.grows fun h hh hN => .liftR (bindItems_tight ((hm _ hc).mono (by omega)) items (hp.mono (by omega)))

theorem convConst_grows {env : Env} (he : EnvClosed env) {p : Prog} {N : Nat} (hp : WfProg N p) {sc : Scope}
    (hs : WfScope N NoField sc) (name : String) (type : Ast.Ty) (value : Ast.Expression) :
    Grows N (fun M p => WfProg M p) (convConst env sc name type value p) := by
  refine .bind .check fun _ M hM _ => .bind (convTy_grows he type (hp.mono hM) (hs.up hM) _ (fun _ _ h => h))
    fun t M1 hM1 ht => .bind .check fun _ M2 hM2 _ =>
    .bind (Keeps.grows (Q := fun M => WfP M) fun h hh hN => toPartial_keeps hh (WfTy.mono (by omega) t ht)) fun P M3 hM3 hP =>
    .bind (Keeps.grows (Q := fun M => WfE M NoField) fun h hh hN => convE_keeps he hh (hp.mono (by omega))
      (hs.up (by omega)) value P (WfP.mono hN P hP)) fun v M4 hM4 hv => .pure fun M5 hM5 => ?_
  have hp' := hp.mono (show N ≤ M5 by omega)
  refine { hp' with consts := ?_ }
  intro x hx
  rcases insert_mem hx with hx | rfl
  · exact hp'.consts x hx
  · simp only; rw [WfC]; exact ⟨WfTy.mono (by omega) t ht, WfE.mono hM5 v (fun _ _ h => h) hv⟩

theorem passFfi_grows {env : Env} (he : EnvClosed env) : ∀ (ast : Ast.Program) {p : Prog} {N : Nat} (_ : WfProg N p),
    Grows N (fun M p => WfProg M p) (passFfi env ast p)
  | [], p, N, hp => .pure fun _ hM => hp.mono hM
  | .ffi n k :: rest, p, N, hp => .bind (convFfi_grows he n k hp) fun _ _ _ hq => passFfi_grows he rest hq
  | .type .. :: rest, p, N, hp => passFfi_grows he rest hp
  | .const .. :: rest, p, N, hp => passFfi_grows he rest hp
  | .import_ .. :: rest, p, N, hp => passFfi_grows he rest hp

theorem passImports_grows {env : Env} (he : EnvClosed env) {mods : List (String × Prog)} :
    ∀ (ast : Ast.Program) {p : Prog} {N : Nat} (_ : WfProg N p) (_ : ∀ x ∈ mods, WfProg N x.2),
    Grows N (fun M p => WfProg M p) (passImports env mods ast p)
  | [], p, N, hp, hm => .pure fun _ hM => hp.mono hM
  | .import_ items src :: rest, p, N, hp, hm => .bind (convImport_grows he hm items src hp) fun _ _ hM hq =>
      passImports_grows he rest hq fun x hx => (hm x hx).mono hM
  | .type .. :: rest, p, N, hp, hm => passImports_grows he rest hp hm
  | .const .. :: rest, p, N, hp, hm => passImports_grows he rest hp hm
  | .ffi .. :: rest, p, N, hp, hm => passImports_grows he rest hp hm

theorem passConsts_grows {env : Env} (he : EnvClosed env) : ∀ (ast : Ast.Program) {p : Prog} {N : Nat} (_ : WfProg N p),
    Grows N (fun M p => WfProg M p) (passConsts env ast p)
  | [], p, N, hp => .pure fun _ hM => hp.mono hM
  | .ffi n k :: rest, p, N, hp => passConsts_grows he rest hp
  | .import_ .. :: rest, p, N, hp => passConsts_grows he rest hp
  | .const name ty v :: rest, p, N, hp =>
    .bind (convConst_grows he hp topScope_wf name ty v) fun _ _ _ hq => passConsts_grows he rest hq
  | .type name args f :: rest, p, N, hp => by
    rw [passConsts]
    split
    · refine .bind (declareType_grows hp name) fun r M hM hr => ?_
      obtain ⟨id, q⟩ := r
      exact .bind (convArguments_grows he hr.2 topScope_wf args id) fun sc M1 hM1 hsc =>
        .bind (convBody_grows he (hr.2.mono hM1) hsc name f (Nat.lt_of_lt_of_le hr.1 hM1)) fun _ M2 hM2 _ =>
        passConsts_grows he rest (hr.2.mono (by omega))
    · exact passConsts_grows he rest hp

theorem passDeclare_grows : ∀ (ast : Ast.Program) {p : Prog} {N : Nat} (_ : WfProg N p),
    Grows N (fun M r => (∀ f ∈ r.1, f < M) ∧ WfProg M r.2) (passDeclare ast p)
  | [], p, N, hp => .pure fun _ hM => ⟨by simp, hp.mono hM⟩
  | .ffi n k :: rest, p, N, hp => passDeclare_grows rest hp
  | .import_ .. :: rest, p, N, hp => passDeclare_grows rest hp
  | .const name ty v :: rest, p, N, hp => passDeclare_grows rest hp
  | .type name args f :: rest, p, N, hp => by
    rw [passDeclare]
    split
    · exact passDeclare_grows rest hp
    · refine .bind (declareType_grows hp name) fun r M hM hr => ?_
      obtain ⟨id, q⟩ := r
      refine .bind (passDeclare_grows rest hr.2) fun r' M1 hM1 hr' => ?_
      obtain ⟨ids, q'⟩ := r'
      refine .pure fun M2 hM2 => ⟨?_, hr'.2.mono hM2⟩
      intro g hg
      rcases List.mem_cons.1 hg with rfl | hg
      · exact Nat.lt_of_lt_of_le hr.1 (Nat.le_trans hM1 hM2)
      · exact Nat.lt_of_lt_of_le (hr'.1 g hg) hM2

theorem passArguments_grows {env : Env} (he : EnvClosed env) {p : Prog} : ∀ (ast : Ast.Program) (ids : List FId) {N : Nat}
    (_ : WfProg N p), Grows N (fun M scs => ∀ sc ∈ scs, WfScope M NoField sc) (passArguments env p ast ids)
  | [], ids, N, hp => by rw [passArguments]; exact .pure fun _ _ => by simp
  | .ffi .. :: rest, ids, N, hp => by rw [passArguments]; exact passArguments_grows he rest ids hp; all_goals simp
  | .import_ .. :: rest, ids, N, hp => by rw [passArguments]; exact passArguments_grows he rest ids hp; all_goals simp
  | .const .. :: rest, ids, N, hp => by rw [passArguments]; exact passArguments_grows he rest ids hp; all_goals simp
  | .type _ args f :: rest, [], N, hp => by rw [passArguments]; exact passArguments_grows he rest [] hp; all_goals simp
  | .type _ args f :: rest, id :: ids, N, hp => by
    rw [passArguments]
    split
    · exact passArguments_grows he rest (id :: ids) hp
    · refine .bind (convArguments_grows he hp topScope_wf args id) fun sc M hM hsc =>
        .bind (passArguments_grows he rest ids (hp.mono hM)) fun scs M1 hM1 hscs => .pure fun M2 hM2 => ?_
      intro sc' hsc'
      rcases List.mem_cons.1 hsc' with rfl | hsc'
      · exact hsc.up (by omega)
      · exact (hscs sc' hsc').up hM2

theorem passBodies_grows {env : Env} (he : EnvClosed env) {p : Prog} : ∀ (ast : Ast.Program) (ids : List FId)
    (scs : List Scope) {N : Nat} (_ : WfProg N p), (∀ f ∈ ids, f < N) → (∀ sc ∈ scs, WfScope N NoField sc) →
    Grows N (fun _ _ => True) (passBodies env p ast ids scs)
  | [], ids, scs, N, hp, hi, hs => by rw [passBodies]; exact .pure fun _ _ => trivial
  | .ffi .. :: rest, ids, scs, N, hp, hi, hs => by
    rw [passBodies]; exact passBodies_grows he rest ids scs hp hi hs; all_goals simp
  | .import_ .. :: rest, ids, scs, N, hp, hi, hs => by
    rw [passBodies]; exact passBodies_grows he rest ids scs hp hi hs; all_goals simp
  | .const .. :: rest, ids, scs, N, hp, hi, hs => by
    rw [passBodies]; exact passBodies_grows he rest ids scs hp hi hs; all_goals simp
  | .type _ args f :: rest, [], scs, N, hp, hi, hs => by
    rw [passBodies]; exact passBodies_grows he rest [] scs hp hi hs; all_goals simp
  | .type _ args f :: rest, id :: ids, [], N, hp, hi, hs => by
    rw [passBodies]; exact passBodies_grows he rest (id :: ids) [] hp hi hs; all_goals simp
  | .type name args f :: rest, id :: ids, sc :: scs, N, hp, hi, hs => by
    rw [passBodies]
    split
    · exact passBodies_grows he rest (id :: ids) (sc :: scs) hp hi hs
    · exact .bind (convBody_grows he hp (hs sc (by simp)) name f (hi id (by simp))) fun _ M hM _ =>
        passBodies_grows he rest ids scs (hp.mono hM) (fun g hg => Nat.lt_of_lt_of_le (hi g (by simp [hg])) hM)
          fun s' hs' => (hs s' (by simp [hs'])).up hM

theorem visitAll_solid {h : Heap} (hh : WfHeap h) {follow : AField → List String → R (List String)}
    (hf : ∀ x seen, WfField h.length x → Solid (follow x seen)) : ∀ (items : List (String × FId)) (seen : List String),
    (∀ x ∈ items, x.2 < h.length) → Solid (visitAll h follow items seen)
  | [], seen, _ => .ok trivial
  | (n, f) :: rest, seen, hi => by
    rw [visitAll]
    refine .bind (P := fun _ => True) (.bind (deref_wf hh (hi (n, f) (by simp))) fun x hx => ?_) fun s _ =>
      visitAll_solid hh hf rest s fun y hy => hi y (by simp [hy])
    split
    · exact .ok trivial
    · exact hf _ _ hx

theorem containedWith_solid {h : Heap} (hh : WfHeap h) {follow : AField → List String → R (List String)}
    (hf : ∀ x seen, WfField h.length x → Solid (follow x seen)) : ∀ (t : AType) (seen : List String),
    WfTy h.length t → Solid (containedWith h follow t seen)
  | .array _ el _ _, seen, ht => by
    rw [WfTy] at ht; rw [containedWith]; exact containedWith_solid hh hf el seen ht.1
  | .container _ _ items _, seen, ht => by
    rw [WfTy] at ht; rw [containedWith]; exact visitAll_solid hh hf items seen ht.2
  | .ref f _, seen, ht => by
    rw [WfTy] at ht; rw [containedWith]
    refine .bind (deref_wf hh ht.1) fun x hx => ?_
    split
    · exact .ok trivial
    · exact hf _ _ hx
  | .enum .., seen, ht => .ok trivial
  | .bitfield .., seen, ht => .ok trivial
  | .scalar .., seen, ht => .ok trivial
  | .foreign .., seen, ht => .ok trivial
  | .f32, seen, ht => .ok trivial
  | .f64, seen, ht => .ok trivial
  | .bool, seen, ht => .ok trivial

theorem containedN_solid {h : Heap} (hh : WfHeap h) : ∀ (n : Nat) (t : AType) (seen : List String),
    WfTy h.length t → Solid (containedN h n t seen)
  | 0, t, seen, ht => containedWith_solid hh (fun _ _ _ => .diverge) t seen ht
  | n + 1, t, seen, ht => containedWith_solid hh (fun x seen hx => containedN_solid hh n _ seen hx.type) t seen ht

theorem scanCycles_tight {N : Nat} : ∀ (ts : List (String × FId)) (h : Heap), WfHeap h → N ≤ h.length →
    (∀ x ∈ ts, x.2 < N) → Tight (fun h' => WfHeap h' ∧ h'.length = h.length) (scanCycles ts h)
  | [], h, hh, hN, _ => .ok ⟨hh, rfl⟩
  | (n, f) :: rest, h, hh, hN, ht => by
    rw [scanCycles]
    refine .bind (P := fun h' => WfHeap h' ∧ h'.length = h.length) ?_ fun h' hh' =>
      (scanCycles_tight rest h' hh'.1 (by omega) fun x hx => ht x (by simp [hx])).imp fun h2 hh2 => ⟨hh2.1, by omega⟩
    refine .bind (deref_wf hh (Nat.lt_of_lt_of_le (ht (n, f) (by simp)) hN)) fun x hx =>
      .bind (containedN_solid hh _ _ _ hx.type) fun names _ => ?_
    split
    · have := Grows.update (N := 0) (id := f) (g := fun x => { x with cyclical := true })
        (fun M x _ hx => { hx with }) ⟨h, 0⟩ hh (Nat.zero_le _)
      exact .ok ⟨(this.2 _ rfl).1, by simp⟩
    · exact .ok ⟨hh, rfl⟩

theorem scanM_grows {p : Prog} {N : Nat} (hp : WfProg N p) : Grows N (fun _ _ => True) (scanM p) := by
  intro s hh hN
  refine Tight.map (scanCycles_tight (N := N) p.types s.heap hh hN hp.types) fun h' hh' => ⟨hh'.1, ?_, trivial⟩
  simp only [hh'.2]; omega

theorem addPrelude_wf {N : Nat} : ∀ {fns : List (String × FnSig)} (_ : ∀ x ∈ fns, WfTy 0 x.2.ret ∧
    ∀ a ∈ x.2.arguments, ∀ t, a.type = some t → WfTy 0 t) {p : Prog}, WfProg N p → WfProg N (addPrelude fns p)
  | [], _, p, hp => hp
  | x :: fns, hf, p, hp => by
    refine addPrelude_wf (fns := fns) (fun y hy => hf y (by simp [hy]))
      (p := { p with functions := IMap.insert p.functions x.1 x.2 }) { hp with functions := ?_ }
    intro y hy
    rcases insert_mem hy with hy | rfl
    · exact hp.functions y hy
    · have := hf x (by simp)
      exact ⟨WfTy.mono (Nat.zero_le _) _ this.1, fun a ha t ht => WfTy.mono (Nat.zero_le _) _ (this.2 a ha t ht)⟩

theorem fromAstImported_grows {env : Env} (he : EnvClosed env) {mods : List (String × Prog)} {N : Nat}
    (hm : ∀ x ∈ mods, WfProg N x.2) (ast : Ast.Program) :
    Grows N (fun M p => WfProg M p) (fromAstImported env mods ast) := by
  have h0 : WfProg N (addPrelude env.prelude ⟨[], [], [], []⟩) :=
    addPrelude_wf he.prelude ⟨by simp, by simp, by simp, by simp⟩
  refine .bind (passFfi_grows he ast h0) fun p M hM hp => .bind (passImports_grows he ast hp fun x hx => (hm x hx).mono hM)
    fun p M1 hM1 hp => .bind (passConsts_grows he ast hp) fun p M2 hM2 hp => .bind (passDeclare_grows ast hp)
    fun r M3 hM3 hr => ?_
  obtain ⟨ids, p⟩ := r
  exact .bind (passArguments_grows he ast ids hr.2) fun scs M4 hM4 hscs =>
    .bind (passBodies_grows he ast ids scs (hr.2.mono hM4) (fun g hg => Nat.lt_of_lt_of_le (hr.1 g hg) hM4) hscs)
    fun _ M5 hM5 _ => .bind (scanM_grows (hr.2.mono (by omega))) fun _ M6 hM6 _ => .pure fun M7 hM7 => hr.2.mono (by omega)

/-- The modules converted so far. -/
def WfCache (N : Nat) (c : Cache) : Prop := ∀ x ∈ c.mods, WfProg N x.2

theorem WfCache.mono {N M : Nat} (hN : N ≤ M) {c : Cache} (h : WfCache N c) : WfCache M c := fun x hx => (h x hx).mono hN

theorem loadDecls_grows {env : Env} (he : EnvClosed env) {load : String → Cache → M Cache}
    (hl : ∀ {N} n c, WfCache N c → Grows N (fun M c => WfCache M c) (load n c)) :
    ∀ (ast : Ast.Program) {N : Nat} (c : Cache), WfCache N c → Grows N (fun M c => WfCache M c) (loadDecls env load ast c)
  | [], N, c, hc => .pure fun _ hM => hc.mono hM
  | .ffi .. :: rest, N, c, hc => loadDecls_grows he hl rest c hc
  | .const .. :: rest, N, c, hc => loadDecls_grows he hl rest c hc
  | .type .. :: rest, N, c, hc => loadDecls_grows he hl rest c hc
  | .import_ _ src :: rest, N, c, hc => by
    rw [loadDecls]
    refine .bind (Keeps.grows (Q := fun _ _ => True) fun h hh hN => .liftR (Solid.of (he.normalize src))) fun name M hM _ => ?_
    split
    · exact loadDecls_grows he hl rest c (hc.mono hM)
    · exact .bind (hl name c (hc.mono hM)) fun c M1 hM1 hc => loadDecls_grows he hl rest c hc

theorem loadModule_grows {env : Env} (he : EnvClosed env) {imports : Ast.Program → Cache → M Cache}
    (hi : ∀ {N} ast c, WfCache N c → Grows N (fun M c => WfCache M c) (imports ast c)) {N : Nat} (name : String) (c : Cache)
    (hc : WfCache N c) : Grows N (fun M c => WfCache M c) (loadModule env imports name c) := by
  refine .bind (Keeps.grows (Q := fun _ _ => True) fun h hh hN => .liftR (found_tight (Tight.imp (Solid.of (he.load name)) fun _ _ _ _ => trivial)))
    fun o M hM _ => .bind (Keeps.grows (Q := fun _ _ => True) fun h hh hN => .liftR (found_tight (.ok fun _ _ => trivial)))
    fun ast M1 hM1 _ => .bind (hi ast { c with loads := c.loads ++ [name] } (WfCache.mono (show N ≤ M1 by omega) hc)) fun c M2 hM2 hc =>
    .bind (fromAstImported_grows he hc ast) fun p M3 hM3 hp => .pure fun M4 hM4 => ?_
  intro x hx
  rcases insert_mem hx with hx | rfl
  · exact (hc x hx).mono (by omega)
  · exact hp.mono hM4

theorem loadImports_grows {env : Env} (he : EnvClosed env) : ∀ (n : Nat) (ast : Ast.Program) {N : Nat} (c : Cache),
    WfCache N c → Grows N (fun M c => WfCache M c) (loadImports env n ast c)
  | 0, ast, N, c, hc => loadDecls_grows he (fun _ _ _ _ _ _ => .diverge) ast c hc
  | n + 1, ast, N, c, hc => loadDecls_grows he (fun name c hc => loadModule_grows he
      (fun ast c hc => loadImports_grows he n ast c hc) name c hc) ast c hc

/-- Conversion does not dangle, and its graph is closed. -/
theorem convert_tight {env : Env} (he : EnvClosed env) (n : Nat) (ast : Ast.Program) :
    Tight (fun r => WfHeap r.2.1 ∧ WfProg r.2.1.length r.1) (convert env n ast) := by
  have h0 : WfHeap ([] : Heap) := by intro f x hx; simp at hx
  have : Grows 0 (fun M (r : Prog × List String) => WfProg M r.1) (fromAst env n ast) :=
    .bind (loadImports_grows he n ast ⟨[], []⟩ (by intro x hx; cases hx)) fun c M hM hc =>
      .bind (fromAstImported_grows he hc ast) fun p M1 hM1 hp => .pure fun M2 hM2 => hp.mono hM2
  exact Tight.map (this ⟨[], 0⟩ h0 (Nat.zero_le _)) fun x hx => ⟨hx.1, hx.2.2⟩

end Verif.Sem
