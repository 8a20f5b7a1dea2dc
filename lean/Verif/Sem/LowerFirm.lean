import Verif.Sem.LowerShape
import Verif.Sem.Closed
import Verif.ExprLemmas
/-!
# The generators find every field they look for, and refer to fields that are there
-/
namespace Verif.Sem
open Verif

/-- It does not fail for want of a cell, and what it gives satisfies `Q`. -/
def Firm {α} (Q : α → Prop) (x : G α) : Prop := x ≠ .error .dangling ∧ ∀ a, x = .ok a → Q a

theorem Firm.ok {α} {Q : α → Prop} {a : α} (h : Q a) : Firm Q (.ok a : G α) := by
  refine ⟨by simp, ?_⟩; rintro b ⟨⟩; exact h
theorem Firm.error {α} {Q : α → Prop} {e : GFault} (h : e ≠ .dangling) : Firm Q (.error e : G α) :=
  ⟨by simpa using h, by simp⟩
theorem Firm.panic {α} {Q : α → Prop} {p : GenPanic} : Firm Q (.error (.panic p) : G α) := .error (by simp)
theorem Firm.outside {α} {Q : α → Prop} : Firm Q (.error .outside : G α) := .error (by simp)
theorem Firm.shape {α} {Q : α → Prop} : Firm Q (.error .shape : G α) := .error (by simp)
theorem Firm.bind {α β} {P : α → Prop} {Q : β → Prop} {x : G α} {f : α → G β} (h : Firm P x)
    (hf : ∀ a, P a → Firm Q (f a)) : Firm Q (x >>= f) := by
  cases x with
  | ok a => exact hf a (h.2 a rfl)
  | error e =>
    refine ⟨fun he => h.1 ?_, ?_⟩
    · have : (Except.error e : G β) = .error .dangling := he
      cases this; rfl
    · rintro b ⟨⟩
theorem Firm.map {α β} {P : α → Prop} {Q : β → Prop} {x : G α} {f : α → β} (h : Firm P x)
    (hf : ∀ a, P a → Q (f a)) : Firm Q (x.map f) := by
  cases x with
  | ok a => exact .ok (hf a (h.2 a rfl))
  | error e =>
    refine ⟨fun he => h.1 ?_, ?_⟩
    · have : (Except.error e : G β) = .error .dangling := he
      cases this; rfl
    · rintro b ⟨⟩
theorem Firm.imp {α} {P Q : α → Prop} {x : G α} (h : Firm P x) (hi : ∀ a, P a → Q a) : Firm Q x :=
  ⟨h.1, fun a ha => hi a (h.2 a ha)⟩

/-- It works or never returns. -/
def Calm {α} (Q : α → Prop) (r : R α) : Prop := r = .error .diverge ∨ ∃ a, r = .ok a ∧ Q a

theorem Calm.ok {α} {Q : α → Prop} {a : α} (h : Q a) : Calm Q (.ok a) := .inr ⟨a, rfl, h⟩
theorem Calm.bind {α β} {P : α → Prop} {Q : β → Prop} {r : R α} {f : α → R β} (h : Calm P r)
    (hf : ∀ a, P a → Calm Q (f a)) : Calm Q (r.bind f) := by
  rcases h with rfl | ⟨a, rfl, h⟩
  · exact .inl rfl
  · exact hf a h
theorem Calm.firm {α} {Q : α → Prop} {r : R α} (h : Calm Q r) : Firm Q (ofR r) := by
  rcases h with rfl | ⟨a, rfl, h⟩
  · exact .error (by simp)
  · exact .ok h

theorem deref_calm {h : Heap} {f : FId} (hh : WfHeap h) (hf : f < h.length) :
    Calm (fun x => h[f]? = some x ∧ WfField h.length x) (deref h f) := by
  unfold deref
  rw [List.getElem?_eq_getElem hf]
  exact .ok ⟨rfl, hh f _ (List.getElem?_eq_getElem hf)⟩

theorem resolvedN_calm {h : Heap} (hh : WfHeap h) : ∀ (n : Nat) (t : AType), WfTy h.length t →
    Calm (WfTy h.length) (resolvedN h n t)
  | 0, t, ht => by
    cases t <;> first | exact .inl rfl | exact .ok ht
  | n + 1, t, ht => by
    cases t with
    | ref f args =>
      rw [WfTy] at ht
      exact .bind (deref_calm hh ht.1) fun x hx => resolvedN_calm hh n _ hx.2.type
    | _ => exact .ok ht

theorem resolve_calm {h : Heap} (hh : WfHeap h) {t : AType} (ht : WfTy h.length t) :
    Calm (WfTy h.length) (resolve h t) := resolvedN_calm hh _ t ht

theorem getType_calm {h : Heap} (hh : WfHeap h) {S : FId → Prop} : ∀ (e : AExpr), WfE h.length S e →
    Calm (WfTyOpt h.length) (getType h e)
  | .binary op l r, he => by
    rw [WfE] at he
    rw [getType]
    split
    · exact .ok (by rintro t ⟨⟩; exact wfBool)
    · refine .bind (getType_calm hh l he.1) fun a ha => .bind (getType_calm hh r he.2) fun b hb => .ok ?_
      cases a <;> first | exact ha | exact hb
  | .unary _ e, he => by rw [WfE] at he; rw [getType]; exact getType_calm hh e he
  | .cast _ ty, he => by rw [WfE] at he; rw [getType]; exact .ok (by rintro t ⟨⟩; exact he.2)
  | .index a _, he => by
    rw [WfE] at he; rw [getType]
    refine .bind (getType_calm hh a he.1) fun o ho => .ok ?_
    intro t ht
    unfold indexType at ht
    split at ht
    · cases ht
      have := ho _ rfl
      rw [WfTy] at this
      exact this.1
    · cases ht
  | .enumAccess f _, he => by
    rw [WfE] at he; rw [getType]
    exact .bind (deref_calm hh he.1) fun x hx => .ok (by rintro t ⟨⟩; exact hx.2.type)
  | .int _ k, he => by rw [getType]; exact .ok (by rintro t ⟨⟩; exact wfScalar)
  | .constRef (.mk _ ty v), he => by
    rw [WfE, WfC] at he; rw [getType]; exact .ok (by rintro t ⟨⟩; exact he.1)
  | .inputRef _ ty, he => by rw [WfE] at he; rw [getType]; exact .ok (by rintro t ⟨⟩; exact he)
  | .fieldRef f, he => by
    rw [WfE] at he; rw [getType]
    exact .bind (deref_calm hh he.1) fun x hx => .ok (by rintro t ⟨⟩; exact hx.2.type)
  | .str tag content, he => by
    rw [getType]
    exact .ok (by rintro t ⟨⟩; rw [WfTy, WfOpt, WfE]; exact ⟨wfScalar, trivial⟩)
  | .ternary _ t f, he => by
    rw [WfE] at he; rw [getType]
    refine .bind (getType_calm hh t he.2.1) fun a ha => ?_
    cases a with
    | some t => exact .ok ha
    | none => exact getType_calm hh f he.2.2
  | .bool _, he => by rw [getType]; exact .ok (by rintro t ⟨⟩; exact wfBool)
  | .call _ ret _, he => by rw [WfE] at he; rw [getType]; exact .ok (by rintro t ⟨⟩; exact he.1)
  | .member e _, he => by
    rw [WfE] at he; rw [getType]
    refine .bind (getType_calm hh e he.1) fun o ho => ?_
    cases o with
    | none => exact .ok (by rintro t ⟨⟩)
    | some t =>
      refine .bind (resolve_calm hh (ho t rfl)) fun r _ => ?_
      split
      · exact .ok (by rintro t ⟨⟩; exact wfBool)
      · exact .ok (by rintro t ⟨⟩)

theorem castTarget_firm (t : AType) : Firm (fun _ => True) (castTarget t) := by
  unfold castTarget
  split
  · split <;> exact .ok trivial
  · exact .panic

theorem typeOfG_firm {h : Heap} (hh : WfHeap h) {S : FId → Prop} {e : AExpr} (he : WfE h.length S e) :
    Firm (WfTy h.length) (typeOfG h e) := by
  refine Firm.bind (getType_calm hh e he).firm fun t ht => ?_
  split
  · exact .ok (ht _ rfl)
  · exact .panic

theorem castSource_firm {h : Heap} (hh : WfHeap h) {S : FId → Prop} {e : AExpr} (he : WfE h.length S e) :
    Firm (fun _ => True) (castSource h e) := by
  refine Firm.bind (typeOfG_firm hh he) fun t ht => Firm.bind (resolve_calm hh ht).firm fun r _ => ?_
  split <;> exact .ok trivial

theorem lenSize_firm {h : Heap} (hh : WfHeap h) {t : AType} (ht : WfTy h.length t) :
    Firm (fun _ => True) (lenSize h t) := by
  refine Firm.bind (resolve_calm hh ht).firm fun r _ => ?_
  split <;> first | exact .ok trivial | exact .panic

/-- The name is that of a cell in `S` that is no container. -/
def Named (h : Heap) (S : FId → Prop) (n : String) : Prop :=
  ∃ (f : FId) (x : AField), S f ∧ h[f]? = some x ∧ x.name = n ∧ x.type.isContainer = false

/-- The references of emitted code. -/
def RefsIn (h : Heap) (S : FId → Prop) (e : Expr) : Prop := ∀ n ∈ e.refs, Named h S n

theorem Named.mono {h : Heap} {S T : FId → Prop} (hS : ∀ f, S f → T f) {n : String} (hn : Named h S n) : Named h T n :=
  let ⟨f, x, h1, h2⟩ := hn
  ⟨f, x, hS f h1, h2⟩

theorem noField_named {h : Heap} {S : FId → Prop} {e : Expr} (he : RefsIn h NoField e) : RefsIn h S e :=
  fun n hn => let ⟨_, _, h1, _⟩ := he n hn; h1.elim

theorem lowerE_firm {h : Heap} (hh : WfHeap h) (e : AExpr) : ∀ {S : FId → Prop}, WfE h.length S e →
    Firm (RefsIn h S) (lowerE h e) := by
  fun_induction lowerE h e with
  | case1 op l r il ir =>
    intro S he; rw [WfE] at he
    refine .bind (il he.1) fun _ h1 => .bind (ir he.2) fun _ h2 => .ok ?_
    intro n hn; rw [Expr.refs, List.mem_append] at hn; exact hn.elim (h1 n) (h2 n)
  | case2 op e ie =>
    intro S he; rw [WfE] at he
    exact .bind (ie he) fun _ h1 => .ok h1
  | case3 e ty ie =>
    intro S he; rw [WfE] at he
    exact .bind (ie he.1) fun _ h1 => .bind (castTarget_firm _) fun _ _ => .bind (castSource_firm hh he.1) fun _ _ => .ok h1
  | case4 a i ia ii =>
    intro S he; rw [WfE] at he
    refine .bind (ia he.1) fun _ h1 => .bind (ii he.2) fun _ h2 => .ok ?_
    intro n hn; rw [Expr.refs, List.mem_append] at hn; exact hn.elim (h1 n) (h2 n)
  | case5 f n t v iv =>
    intro S he; rw [WfE, WfC] at he
    refine .bind (deref_calm hh he.1).firm fun _ _ => .bind (iv he.2.2) fun _ _ => .ok ?_
    intro n hn; rw [Expr.refs] at hn; cases hn
  | case6 => intro S he; exact .ok fun n hn => by rw [Expr.refs] at hn; cases hn
  | case7 n t v iv =>
    intro S he; rw [WfE, WfC] at he
    exact .bind (iv he.2) fun _ h1 => .ok (noField_named h1)
  | case8 => intro S he; exact .ok fun n hn => by rw [Expr.refs] at hn; cases hn
  | case9 f =>
    intro S he; rw [WfE] at he
    refine .bind (deref_calm hh he.1).firm fun x hx => ?_
    split
    · exact .outside
    · rename_i hc
      refine .ok fun n hn => ?_
      rw [Expr.refs, List.mem_singleton] at hn
      subst hn
      exact ⟨f, x, he.2, hx.1, rfl, by simpa using hc⟩
  | case10 => intro S he; exact .ok fun n hn => by rw [Expr.refs] at hn; cases hn
  | case11 c t f ic it iF =>
    intro S he; rw [WfE] at he
    refine .bind (ic he.1) fun _ h1 => .bind (it he.2.1) fun _ h2 => .bind (iF he.2.2) fun _ h3 => .ok ?_
    intro n hn; rw [Expr.refs, List.mem_append, List.mem_append] at hn
    exact hn.elim (fun hn => hn.elim (h1 n) (h2 n)) (h3 n)
  | case12 => intro S he; exact .ok fun n hn => by rw [Expr.refs] at hn; cases hn
  | case13 t a ia =>
    intro S he; rw [WfE, WfEs] at he
    exact .bind (typeOfG_firm hh he.2.1) fun _ ht => .bind (lenSize_firm hh ht) fun _ _ =>
      .bind (ia he.2.1) fun _ h1 => .ok h1
  | case14 t a =>
    intro S he; rw [WfE, WfEs] at he
    refine .bind (P := fun _ => True) ?_ fun _ _ => .ok fun n hn => by rw [Expr.refs] at hn; cases hn
    unfold blenTarget
    split
    · have := he.2.1
      rw [WfE] at this
      exact .map (deref_calm hh this.1).firm fun _ _ => trivial
    · exact .panic
  | case15 t a ia =>
    intro S he; rw [WfE, WfEs] at he
    refine .bind (typeOfG_firm hh he.2.1) fun _ _ => .bind (ia he.2.1) fun _ h1 => ?_
    split
    · exact .ok h1
    · exact .panic
  | case16 t a ia => intro S he; rw [WfE, WfEs] at he; exact .bind (ia he.2.1) fun _ h1 => .ok h1
  | case17 t a c ia ic =>
    intro S he; rw [WfE, WfEs, WfEs] at he
    refine .bind (ia he.2.1) fun _ h1 => .bind (ic he.2.2.1) fun _ h2 => .ok ?_
    intro n hn; rw [Expr.refs, List.mem_append] at hn; exact hn.elim (h1 n) (h2 n)
  | case18 => intro S he; exact .outside
  | case19 e n t v ie iv =>
    intro S he; rw [WfE, WfC] at he
    exact .bind (ie he.1) fun _ h1 => .bind (iv he.2.2) fun _ _ => .ok h1

theorem lowerEs_firm {h : Heap} (hh : WfHeap h) {S : FId → Prop} : ∀ es, WfEs h.length S es →
    Firm (fun es' => ∀ e ∈ es', RefsIn h S e) (lowerEs h es)
  | [], _ => .ok (by simp)
  | e :: es, he => by
    rw [WfEs] at he
    refine .bind (lowerE_firm hh e he.1) fun _ h1 => .bind (lowerEs_firm hh es he.2) fun _ h2 => .ok ?_
    intro e hm
    rcases List.mem_cons.1 hm with rfl | hm
    · exact h1
    · exact h2 e hm

theorem lowerOpt_firm {h : Heap} (hh : WfHeap h) {S : FId → Prop} : ∀ e, WfOpt h.length S e →
    Firm (fun o => ∀ e ∈ o.toList, RefsIn h S e) (lowerOpt h e)
  | none, _ => .ok (by simp)
  | some e, he => by
    rw [WfOpt] at he
    exact .map (lowerE_firm hh e he) fun _ h1 e hm => by
      rw [Option.toList, List.mem_singleton] at hm; subst hm; exact h1

theorem constInt_firm {h : Heap} (hh : WfHeap h) (oc : Bool) {S : FId → Prop} {e : AExpr} (he : WfE h.length S e) :
    Firm (fun _ => True) (constInt oc h e) := by
  refine .bind (lowerE_firm hh e he) fun e' _ => ?_
  split <;> first | exact .ok trivial | exact .outside | exact .panic

theorem lowerVariants_firm {h : Heap} (hh : WfHeap h) (oc : Bool) : ∀ vs, WfVs h.length vs →
    Firm (fun _ => True) (lowerVariants oc h vs)
  | [], _ => .ok trivial
  | .default _ :: vs, hv => by
    rw [WfVs] at hv; exact .bind (lowerVariants_firm hh oc vs hv.2) fun _ _ => .ok trivial
  | .value (.mk _ _ v) :: vs, hv => by
    rw [WfVs, WfV, WfC] at hv
    exact .bind (constInt_firm hh oc hv.1.2) fun _ _ => .bind (lowerVariants_firm hh oc vs hv.2) fun _ _ => .ok trivial

theorem lowerFlags_firm {h : Heap} (hh : WfHeap h) (oc : Bool) : ∀ vs, WfCs h.length vs →
    Firm (fun _ => True) (lowerFlags oc h vs)
  | [], _ => .ok trivial
  | .mk _ _ v :: vs, hv => by
    rw [WfCs, WfC] at hv
    exact .bind (constInt_firm hh oc hv.1.2) fun _ _ => .bind (lowerFlags_firm hh oc vs hv.2) fun _ _ => .ok trivial

theorem lowerRepr_firm {h : Heap} (hh : WfHeap h) (oc : Bool) {t : AType} (ht : WfTy h.length t) :
    Firm (fun _ => True) (lowerRepr oc h t) := by
  unfold lowerRepr
  split
  · rw [WfTy] at ht; exact .bind (lowerVariants_firm hh _ _ ht) fun _ _ => .ok trivial
  · rw [WfTy] at ht; exact .bind (lowerFlags_firm hh _ _ ht) fun _ _ => .ok trivial
  · exact .ok trivial

theorem lowerResolved_firm {h : Heap} (hh : WfHeap h) (oc : Bool) {t : AType} (ht : WfTy h.length t) :
    Firm (fun _ => True) (lowerResolved oc h t) := by
  refine .bind (resolve_calm hh ht).firm fun r hr => .bind (lowerRepr_firm hh _ hr) fun _ _ => ?_
  split <;> exact .ok trivial

theorem lowerTy_firm {h : Heap} (hh : WfHeap h) (oc : Bool) : ∀ t, WfTy h.length t →
    Firm (fun _ => True) (lowerTy oc h t)
  | .container .., _ => .shape
  | .enum .., _ => .shape
  | .bitfield .., _ => .shape
  | .foreign _, _ => .shape
  | .scalar _, _ => .ok trivial
  | .f32, _ => .ok trivial
  | .f64, _ => .ok trivial
  | .bool, _ => .ok trivial
  | .array _ el x len, ht => by
    rw [WfTy] at ht
    rw [lowerTy]
    refine .bind (lowerTy_firm hh oc el ht.1) fun _ _ => .bind (P := fun _ => True) ?_ fun _ _ => .ok trivial
    unfold lowerLen
    split
    · exact .ok trivial
    · have := ht.2; rw [WfOpt] at this; exact .map (lowerE_firm hh _ this) fun _ _ => trivial
    · have := ht.2; rw [WfOpt] at this; exact .map (lowerE_firm hh _ this) fun _ _ => trivial
    · exact .shape
  | .ref f args, ht => by
    have ht' := ht
    rw [WfTy] at ht'
    exact .bind (deref_calm hh ht'.1).firm fun _ _ => .bind (lowerEs_firm hh _ ht'.2) fun _ _ =>
      .bind (lowerResolved_firm hh oc ht) fun _ _ => .ok trivial

theorem lowerXforms_firm {h : Heap} (hh : WfHeap h) : ∀ xs : List AXform, (∀ x ∈ xs, WfX h.length x) →
    Firm (fun _ => True) (lowerXforms h xs)
  | [], _ => .ok trivial
  | x :: xs, hx => .bind (lowerOpt_firm hh _ (hx x List.mem_cons_self).1) fun _ _ =>
      .bind (lowerEs_firm hh _ (hx x List.mem_cons_self).2) fun _ _ =>
      .bind (lowerXforms_firm hh xs fun y hy => hx y (List.mem_cons_of_mem _ hy)) fun _ _ => .ok trivial

theorem lowerAttr_firm {h : Heap} (hh : WfHeap h) {x : AField} (hx : WfField h.length x) :
    Firm (fun _ => True) (lowerAttr h x) :=
  .bind (lowerOpt_firm hh _ hx.condition) fun _ _ => .bind (lowerXforms_firm hh _ hx.transforms) fun _ _ =>
    .bind (lowerOpt_firm hh _ hx.calculated) fun _ _ => .ok trivial

theorem contItem_firm {a : FAttr} {l : Option Expr} {i r : Fields} : Firm (fun _ => True) (contItem a l i r) := by
  unfold contItem
  split
  · exact .outside
  · split
    · exact .panic
    · exact .ok trivial

theorem lowerPad_firm {h : Heap} (hh : WfHeap h) {x : AField} (hx : WfField h.length x) :
    Firm (fun _ => True) (lowerPad h x) := by
  unfold lowerPad
  split
  · rename_i ht
    split
    · have := hx.type
      rw [ht, WfTy, WfOpt] at this
      exact (lowerE_firm hh _ this.2).imp fun _ _ => trivial
    · exact .shape
  · exact .shape

theorem lowerItemsWith_firm {h : Heap} (hh : WfHeap h) (oc : Bool) {nested : List (String × FId) → G Fields}
    (hn : ∀ its : List (String × FId), (∀ x ∈ its, x.2 < h.length) → Firm (fun _ => True) (nested its)) :
    ∀ its : List (String × FId), (∀ x ∈ its, x.2 < h.length) → Firm (fun _ => True) (lowerItemsWith oc h nested its)
  | [], _ => .ok trivial
  | (n, f) :: rest, hi => by
    have hr := lowerItemsWith_firm hh oc hn rest fun x hx => hi x (List.mem_cons_of_mem _ hx)
    rw [lowerItemsWith]
    refine .bind (deref_calm hh (hi _ List.mem_cons_self)).firm fun x hx => ?_
    split
    · exact .shape
    · split
      · exact .bind (lowerPad_firm hh hx.2) fun _ _ => .bind hr fun _ _ => .ok trivial
      · split
        · exact .shape
        · rename_i ht
          have hw := hx.2.type
          rw [ht, WfTy] at hw
          exact .bind (lowerAttr_firm hh hx.2) fun _ _ => .bind (lowerOpt_firm hh _ hw.1) fun _ _ =>
            .bind (hn _ hw.2) fun _ _ => .bind hr fun _ _ => contItem_firm
        · exact .bind (lowerAttr_firm hh hx.2) fun _ _ => .bind (lowerTy_firm hh oc _ hx.2.type) fun _ _ =>
            .bind hr fun _ _ => .ok trivial

theorem lowerItems_firm {h : Heap} (hh : WfHeap h) (oc : Bool) : ∀ (n : Nat) (its : List (String × FId)),
    (∀ x ∈ its, x.2 < h.length) → Firm (fun _ => True) (lowerItems oc h n its)
  | 0, _, _ => .error (by simp)
  | n + 1, its, hi => lowerItemsWith_firm hh oc (lowerItems_firm hh oc n) its hi

theorem lowerArm_firm {h : Heap} (hh : WfHeap h) (oc : Bool) (n : Nat) (name : String) {f : FId} (hf : f < h.length) :
    Firm (fun _ => True) (lowerArm oc h n name f) := by
  refine .bind (deref_calm hh hf).firm fun x hx => ?_
  split
  · exact .shape
  · refine .bind (lowerAttr_firm hh hx.2) fun a _ => ?_
    split
    · exact .outside
    · split
      · exact .shape
      · rename_i ht
        have hw := hx.2.type
        rw [ht, WfTy] at hw
        exact .bind (lowerOpt_firm hh _ hw.1) fun _ _ => .bind (lowerItems_firm hh oc n _ hw.2) fun _ _ => .ok trivial
      · exact .bind (lowerTy_firm hh oc _ hx.2.type) fun _ _ => .ok trivial

theorem lowerArms_firm {h : Heap} (hh : WfHeap h) (oc : Bool) (n : Nat) : ∀ its : List (String × FId),
    (∀ x ∈ its, x.2 < h.length) → Firm (fun _ => True) (lowerArms oc h n its)
  | [], _ => .ok trivial
  | (_, _) :: rest, hi => .bind (lowerArm_firm hh oc n _ (hi _ List.mem_cons_self)) fun _ _ =>
      .bind (lowerArms_firm hh oc n rest fun x hx => hi x (List.mem_cons_of_mem _ hx)) fun _ _ => .ok trivial

theorem lowerParams_firm : ∀ as, Firm (fun _ => True) (lowerParams as)
  | [] => .ok trivial
  | a :: as => by
    rw [lowerParams]
    split
    · exact .outside
    · split
      · exact .map (lowerParams_firm as) fun _ _ => trivial
      · exact .panic

theorem lowerBody_firm {h : Heap} (hh : WfHeap h) (oc : Bool) (n : Nat) {x : AField} (hx : WfField h.length x) :
    Firm (fun _ => True) (lowerBody oc h n x) := by
  refine .bind (lowerOpt_firm hh _ hx.condition) fun c _ => ?_
  have hw := hx.type
  split
  · rename_i ht
    rw [ht, WfTy] at hw
    refine .bind (lowerOpt_firm hh _ hw.1) fun l _ => ?_
    split
    · exact .outside
    · split
      · exact .bind (lowerArms_firm hh oc n _ hw.2) fun _ _ => .ok trivial
      · exact .bind (lowerItems_firm hh oc n _ hw.2) fun _ _ => .ok trivial
  · refine .bind (lowerRepr_firm hh oc hw) fun r _ => ?_
    split
    · split
      · exact .outside
      · exact .ok trivial
    · exact .bind (lowerTy_firm hh oc _ hw) fun _ _ => .ok trivial

theorem lowerDecl_firm {h : Heap} (hh : WfHeap h) (oc : Bool) (n : Nat) {f : FId} (hf : f < h.length) :
    Firm (fun _ => True) (lowerDecl oc h n f) := by
  refine .bind (deref_calm hh hf).firm fun x hx => .bind (lowerParams_firm _) fun _ _ =>
    .bind (lowerXforms_firm hh _ hx.2.transforms) fun _ _ => .bind (lowerBody_firm hh oc n hx.2) fun _ _ => ?_
  split
  · exact .outside
  · exact .ok trivial

theorem lowerTypes_firm {h : Heap} (hh : WfHeap h) (oc : Bool) (n : Nat) : ∀ ts : List (String × FId),
    (∀ x ∈ ts, x.2 < h.length) → Firm (fun _ => True) (lowerTypes oc h n ts)
  | [], _ => .ok trivial
  | (name, f) :: rest, hi => by
    have hr := lowerTypes_firm hh oc n rest fun x hx => hi x (List.mem_cons_of_mem _ hx)
    rw [lowerTypes]
    refine .bind (deref_calm hh (hi _ List.mem_cons_self)).firm fun x hx => ?_
    split
    · exact hr
    · split
      · exact .outside
      · exact .bind (lowerDecl_firm hh oc n (hi _ List.mem_cons_self)) fun _ _ => .bind hr fun _ _ => .ok trivial

end Verif.Sem
