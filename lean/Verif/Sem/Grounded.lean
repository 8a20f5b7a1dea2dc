import Verif.Props.Typed
import Verif.Sem.History
/-!
# The variants and flags that expressions of an accepted program mention exist
-/
namespace Verif.Sem
open Verif Props

/-- The cell is an enum with this variant, or a bitfield with this flag. -/
def HasItem (h : Heap) (f : FId) (c : AConst) : Prop := ∃ x : AField, h[f]? = some x ∧
  ((∃ tg nm rep items, x.type = .enum tg nm rep items ∧ .value c ∈ items) ∨
   (∃ tg nm rep items, x.type = .bitfield tg nm rep items ∧ c ∈ items))

/-- The type of the expression is a bitfield with this flag. -/
def HasFlag (h : Heap) (e : AExpr) (c : AConst) : Prop := ∃ t, HasType h e t ∧
  ∃ tg nm rep items, resolve h t = .ok (.bitfield tg nm rep items) ∧ c ∈ items

mutual
/-- All variants and flags mentioned are there. -/
def Grounded (h : Heap) : AExpr → Prop
  | .binary _ l r => Grounded h l ∧ Grounded h r
  | .unary _ e => Grounded h e
  | .cast e _ => Grounded h e
  | .index a i => Grounded h a ∧ Grounded h i
  | .enumAccess f c => HasItem h f c
  | .ternary c t f => Grounded h c ∧ Grounded h t ∧ Grounded h f
  | .call _ _ args => GroundedAll h args
  | .member e c => Grounded h e ∧ HasFlag h e c
  | .int _ _ | .constRef _ | .inputRef _ _ | .fieldRef _ | .str _ _ | .bool _ => True
def GroundedAll (h : Heap) : List AExpr → Prop
  | [] => True
  | e :: es => Grounded h e ∧ GroundedAll h es
end

theorem HasItem.seen {V : View} {sc : Scope} {h0 : Heap} (s : Seen V sc h0) {f : FId} {c : AConst}
    (h : HasItem h0 f c) : HasItem V.h f c := by
  obtain ⟨x, hx, h⟩ := h
  obtain ⟨y, hy, -, -, ⟨e, -⟩ | ⟨e, -⟩⟩ := s f x hx
  · exact ⟨y, hy, by rw [e]; exact h⟩
  · rw [e] at h
    rcases h with ⟨_, _, _, _, h, _⟩ | ⟨_, _, _, _, h, _⟩ <;> cases h

/-- What is behind a type stays the same in a graph that only has changed types that were `bool`. -/
theorem resolvedN_kept {h0 h : Heap} (s : ∀ (i : FId) (x : AField), h0[i]? = some x → ∃ y : AField, h[i]? = some y ∧
    (y.type = x.type ∨ x.type = .bool)) : ∀ {n : Nat} {t r : AType}, r ≠ .bool → resolvedN h0 n t = .ok r →
    resolvedN h n t = .ok r
  | 0, t, r, hr, h1 => by cases t <;> first | cases h1; done | (cases h1; rfl)
  | n + 1, t, r, hr, h1 => by
    cases t with
    | ref f args =>
      simp only [resolvedN, rbind_ok, deref_ok] at h1 ⊢
      obtain ⟨x, hx, h1⟩ := h1
      obtain ⟨y, hy, e | e⟩ := s f x hx
      · exact ⟨y, hy, resolvedN_kept s hr (e ▸ h1)⟩
      · rw [e] at h1
        cases n <;> cases h1 <;> exact absurd rfl hr
    | _ => cases h1; rfl

theorem length_kept {h0 h : Heap} (s : ∀ (i : FId) (x : AField), h0[i]? = some x → ∃ y : AField, h[i]? = some y ∧
    (y.type = x.type ∨ x.type = .bool)) : h0.length ≤ h.length := by
  apply Nat.le_of_not_lt
  intro hlt
  obtain ⟨y, hy, -⟩ := s h.length h0[h.length] (List.getElem?_eq_getElem hlt)
  simp at hy

theorem resolve_kept {h0 h : Heap} (s : ∀ (i : FId) (x : AField), h0[i]? = some x → ∃ y : AField, h[i]? = some y ∧
    (y.type = x.type ∨ x.type = .bool)) {t r : AType} (hr : r ≠ .bool) (h1 : resolve h0 t = .ok r) :
    resolve h t = .ok r :=
  resolvedN_mono (resolvedN_kept s hr h1) (Nat.succ_le_succ (length_kept s))

theorem Seen.kept {V : View} {sc : Scope} {h0 : Heap} (s : Seen V sc h0) (i : FId) (x : AField) (hx : h0[i]? = some x) :
    ∃ y : AField, V.h[i]? = some y ∧ (y.type = x.type ∨ x.type = .bool) := by
  obtain ⟨y, hy, -, -, ⟨e, -⟩ | ⟨e, -⟩⟩ := s i x hx
  · exact ⟨y, hy, .inl e⟩
  · exact ⟨y, hy, .inr e⟩

theorem HasItem.typed {V : View} {sc : Scope} {h0 : Heap} (s : Seen V sc h0) {f : FId} {c : AConst}
    (h : HasItem h0 f c) {o : Option AType} (hg : getType h0 (.enumAccess f c) = .ok o) :
    getType V.h (.enumAccess f c) = .ok o := by
  obtain ⟨x, hx, h⟩ := h
  simp only [getType, rbind_ok, deref_ok] at hg ⊢
  obtain ⟨x', hx', hg⟩ := hg
  rw [hx] at hx'
  cases hx'
  obtain ⟨y, hy, e | e⟩ := s.kept f x hx
  · exact ⟨y, hy, e ▸ hg⟩
  · rw [e] at h
    rcases h with ⟨_, _, _, _, h, _⟩ | ⟨_, _, _, _, h, _⟩ <;> cases h

/-- A well typed expression keeps its type. -/
theorem WellTyped.kept {V : View} {sc : Scope} {h0 : Heap} (s : Seen V sc h0) {env : Env} {q : Prog} :
    ∀ (e : AExpr), WellTyped env q sc h0 e → ∀ {o : Option AType}, getType h0 e = .ok o → getType V.h e = .ok o
  | .binary op l r, h, o, hg => by
    cases h with
    | binary _ _ h1 h2 =>
      simp only [getType] at hg ⊢
      split at hg
      · rename_i hb; rw [if_pos hb]; exact hg
      · rename_i hb
        rw [if_neg hb]
        simp only [rbind_ok] at hg ⊢
        obtain ⟨a, ha, b, hb, hg⟩ := hg
        exact ⟨a, WellTyped.kept s l h1 ha, b, WellTyped.kept s r h2 hb, hg⟩
    | name h => cases h
  | .unary op e, h, o, hg => by
    rw [getType] at hg ⊢
    cases h with
    | name h => cases h
    | not _ h => exact WellTyped.kept s e h hg
    | bitNot _ h => exact WellTyped.kept s e h hg
    | negate _ h => exact WellTyped.kept s e h hg
  | .cast e t, h, o, hg => hg
  | .index a i, h, o, hg => by
    simp only [getType, rbind_ok] at hg ⊢
    obtain ⟨t, ht, hg⟩ := hg
    cases h with
    | name h => cases h
    | index h1 h2 => exact ⟨t, WellTyped.kept s a h1 ht, hg⟩
  | .enumAccess f c, h, o, hg => by
    cases h with
    | name h => cases h
    | variant h1 h2 h3 => exact HasItem.typed s ⟨_, h2, .inl h3⟩ hg
    | flag h1 h2 h3 => exact HasItem.typed s ⟨_, h2, .inr h3⟩ hg
  | .ternary c t f, h, o, hg => by
    simp only [getType, rbind_ok] at hg ⊢
    obtain ⟨a, ha, hg⟩ := hg
    cases h with
    | name h => cases h
    | ternary _ _ h1 h2 h3 =>
      refine ⟨a, WellTyped.kept s t h2 ha, ?_⟩
      cases a with
      | some _ => exact hg
      | none => exact WellTyped.kept s f h3 hg
  | .call fn r args, h, o, hg => hg
  | .member e c, h, o, hg => by
    cases h with
    | name h => cases h
    | member h1 h2 h3 =>
      obtain ⟨tg, nm, rep, items, h3, -⟩ := h3
      have h4 := WellTyped.kept s e h1 h2
      have h5 := resolve_kept s.kept (by simp) h3
      simp only [getType, rbind_ok] at hg ⊢
      obtain ⟨t, ht, hg⟩ := hg
      rw [h2] at ht
      cases ht
      simp only [memberType, rbind_ok] at hg
      obtain ⟨r, hr, hg⟩ := hg
      rw [h3] at hr
      cases hr
      refine ⟨_, h4, ?_⟩
      simp only [memberType, rbind_ok]
      exact ⟨_, h5, hg⟩
  | .int _ _, _, _, hg => hg
  | .constRef _, _, _, hg => hg
  | .inputRef _ _, _, _, hg => hg
  | .fieldRef f, h, o, hg => by
    cases h with
    | name h =>
      cases h with
      | field hv =>
        simp only [getType, rbind_ok, deref_ok] at hg ⊢
        obtain ⟨x, hx, hg⟩ := hg
        obtain ⟨y, hy, -, -, ⟨e, -⟩ | ⟨-, e, -⟩⟩ := s f x hx
        · exact ⟨y, hy, e ▸ hg⟩
        · exact absurd hv (e _)
  | .str _ _, _, _, hg => hg
  | .bool _, _, _, hg => hg

mutual
theorem WellTyped.grounded {V : View} {sc : Scope} {h0 : Heap} (s : Seen V sc h0) {env : Env} {q : Prog} :
    ∀ (e : AExpr), WellTyped env q sc h0 e → Grounded V.h e
  | .binary op l r, h => by
    cases h with
    | binary _ _ h1 h2 => exact ⟨WellTyped.grounded s l h1, WellTyped.grounded s r h2⟩
    | name h => cases h
  | .unary op e, h => by
    cases h with
    | name h => cases h
    | not _ h => exact WellTyped.grounded s e h
    | bitNot _ h => exact WellTyped.grounded s e h
    | negate _ h => exact WellTyped.grounded s e h
  | .cast e t, h => by
    cases h with
    | name h => cases h
    | cast h => exact WellTyped.grounded s e h
    | widen h => exact WellTyped.grounded s e h
  | .index a i, h => by
    cases h with
    | name h => cases h
    | index h1 h2 => exact ⟨WellTyped.grounded s a h1, WellTyped.grounded s i h2⟩
  | .enumAccess f c, h => by
    cases h with
    | name h => cases h
    | variant h1 h2 h3 => exact HasItem.seen s ⟨_, h2, .inl h3⟩
    | flag h1 h2 h3 => exact HasItem.seen s ⟨_, h2, .inr h3⟩
  | .ternary c t f, h => by
    cases h with
    | name h => cases h
    | ternary _ _ h1 h2 h3 =>
      exact ⟨WellTyped.grounded s c h1, WellTyped.grounded s t h2, WellTyped.grounded s f h3⟩
  | .call fn r args, h => by
    cases h with
    | name h => cases h
    | call h1 h2 h3 h4 => exact WellTypedArgs.grounded s args h4
  | .member e c, h => by
    cases h with
    | name h => cases h
    | member h1 h2 h3 =>
      obtain ⟨tg, nm, rep, items, h3, h4⟩ := h3
      exact ⟨WellTyped.grounded s e h1, _, WellTyped.kept s e h1 h2, tg, nm, rep, items,
        resolve_kept s.kept (by simp) h3, h4⟩
  | .int _ _, _ => trivial
  | .constRef _, _ => trivial
  | .inputRef _ _, _ => trivial
  | .fieldRef _, _ => trivial
  | .str _ _, _ => trivial
  | .bool _, _ => trivial
theorem WellTypedArgs.grounded {V : View} {sc : Scope} {h0 : Heap} (s : Seen V sc h0) {env : Env} {q : Prog} :
    ∀ (es : List AExpr) {ts : List (Option AType)}, WellTypedArgs env q sc h0 es ts → GroundedAll V.h es
  | [], _, _ => trivial
  | e :: es, _, h => by
    cases h with
    | any h1 _ h2 => exact ⟨WellTyped.grounded s e h1, WellTypedArgs.grounded s es h2⟩
    | typed h1 _ _ h2 => exact ⟨WellTyped.grounded s e h1, WellTypedArgs.grounded s es h2⟩
end

theorem Checked.grounded {V : View} {P : PType} {e : AExpr} (h : Checked V P e) : Grounded V.h e := by
  obtain ⟨q, sc, h0, m, -, w⟩ := h
  exact w.grounded m.seen

theorem CheckedAs.grounded {V : View} {t : AType} {e : AExpr} (h : CheckedAs V t e) : Grounded V.h e := by
  obtain ⟨q, sc, h0, P, m, -, -, w⟩ := h
  exact w.grounded m.seen

theorem TypedRep.grounded {V : View} {op : BinOp} {rep : EScalar} {c : AConst} (h : TypedRep V op rep c) :
    Grounded V.h c.value := by
  rcases h.2 with h | ⟨c0, v, h, -⟩
  · exact h.grounded
  · rw [h]; exact ⟨trivial, trivial⟩

/-- The same for the expressions in a type. -/
def GroundedTy (h : Heap) : AType → Prop
  | .container _ len _ _ => ∀ e, len = some e → Grounded h e
  | .enum _ _ _ items => ∀ c, .value c ∈ items → Grounded h c.value
  | .bitfield _ _ _ items => ∀ c ∈ items, Grounded h c.value
  | .array _ el _ len => GroundedTy h el ∧ ∀ e, len = some e → Grounded h e
  | .ref _ args => GroundedAll h args
  | _ => True

theorem TypedTy.grounded {V : View} {t : AType} (h : TypedTy V t) : GroundedTy V.h t := by
  induction h with
  | container h => exact fun e he => (h e he).grounded
  | enum h => exact fun c hc => (h c hc).grounded
  | bitfield h => exact fun c hc => (h c hc).grounded
  | scalar => trivial
  | f32 => trivial
  | f64 => trivial
  | bool => trivial
  | array _ h ih => exact ⟨ih, fun e he => (h e he).grounded⟩
  | terminated _ h ih => exact ⟨ih, fun e he => (h e he).grounded⟩
  | ref m _ _ _ h => exact h.grounded m.seen

/-- In a field. -/
structure GroundedField (h : Heap) (x : AField) : Prop where
  type : GroundedTy h x.type
  condition : ∀ e, x.condition = some e → Grounded h e
  transforms : ∀ t ∈ x.transforms, GroundedAll h t.args ∧ ∀ e, t.condition = some e → Grounded h e
  calculated : ∀ e, x.calculated = some e → Grounded h e

theorem TypedField.grounded {V : View} {x : AField} (h : TypedField V x) : GroundedField V.h x where
  type := h.type.grounded
  condition e he := (h.condition e he).grounded
  transforms t ht := by
    obtain ⟨⟨_, _, _, _, q, sc, h0, m, w⟩, c⟩ := h.transforms t ht
    exact ⟨w.grounded m.seen, fun e he => (c e he).grounded⟩
  calculated e he := (h.calculated e he).grounded

/-- In a field and all the fields in it. -/
def Deep (h : Heap) (f : FId) : Prop := ∀ x : AField, h[f]? = some x → GroundedField h x ∧
  ∀ i, Inside h x.type i → ∀ z : AField, h[i]? = some z → GroundedField h z

theorem Deep.item {h : Heap} {f : FId} {x : AField} (d : Deep h f) (hx : h[f]? = some x) {j : FId} (hj : ItemOf x.type j) :
    Deep h j := fun z hz =>
  ⟨(d x hx).2 j (.item hj) z hz, fun i hi w hw => (d x hx).2 i (.deeper hj hz hi) w hw⟩

/-! ## Later graphs -/

theorem HasItem.later {h h' : Heap} (l : Later h h') {f : FId} {c : AConst} (hi : HasItem h f c) : HasItem h' f c := by
  obtain ⟨x, hx, hi⟩ := hi
  obtain ⟨y, hy, e⟩ := l f x hx
  unfold Flagged at e
  exact ⟨y, hy, by rw [e]; exact hi⟩

theorem Later.kept {h h' : Heap} (l : Later h h') (i : FId) (x : AField) (hx : h[i]? = some x) :
    ∃ y : AField, h'[i]? = some y ∧ y.type = x.type := by
  obtain ⟨y, hy, e⟩ := l i x hx
  unfold Flagged at e
  exact ⟨y, hy, by rw [e]⟩

theorem resolvedN_later {h0 h : Heap} (l : Later h0 h) : ∀ {n : Nat} {t r : AType}, resolvedN h0 n t = .ok r →
    resolvedN h n t = .ok r
  | 0, t, r, h1 => by cases t <;> first | cases h1; done | (cases h1; rfl)
  | n + 1, t, r, h1 => by
    cases t with
    | ref f args =>
      simp only [resolvedN, rbind_ok, deref_ok] at h1 ⊢
      obtain ⟨x, hx, h1⟩ := h1
      obtain ⟨y, hy, e⟩ := l.kept f x hx
      exact ⟨y, hy, resolvedN_later l (e ▸ h1)⟩
    | _ => cases h1; rfl

theorem resolve_later {h h' : Heap} (l : Later h h') {t r : AType} (h1 : resolve h t = .ok r) : resolve h' t = .ok r :=
  resolvedN_mono (resolvedN_later l h1)
    (Nat.succ_le_succ (length_kept fun i x hx => by obtain ⟨y, hy, e⟩ := l.kept i x hx; exact ⟨y, hy, .inl e⟩))

theorem getType_later {h h' : Heap} (l : Later h h') : ∀ (e : AExpr) {o : Option AType}, getType h e = .ok o →
    getType h' e = .ok o
  | .binary op a r, o, hg => by
    simp only [getType] at hg ⊢
    split at hg
    · rename_i hb; rw [if_pos hb]; exact hg
    · rename_i hb
      rw [if_neg hb]
      simp only [rbind_ok] at hg ⊢
      obtain ⟨a', ha, b, hb, hg⟩ := hg
      exact ⟨a', getType_later l a ha, b, getType_later l r hb, hg⟩
  | .unary op e, o, hg => by rw [getType] at hg ⊢; exact getType_later l e hg
  | .cast e t, o, hg => hg
  | .index a i, o, hg => by
    simp only [getType, rbind_ok] at hg ⊢
    obtain ⟨t, ht, hg⟩ := hg
    exact ⟨t, getType_later l a ht, hg⟩
  | .enumAccess f c, o, hg => by
    simp only [getType, rbind_ok, deref_ok] at hg ⊢
    obtain ⟨x, hx, hg⟩ := hg
    obtain ⟨y, hy, e⟩ := l.kept f x hx
    exact ⟨y, hy, e ▸ hg⟩
  | .ternary c t f, o, hg => by
    simp only [getType, rbind_ok] at hg ⊢
    obtain ⟨a, ha, hg⟩ := hg
    refine ⟨a, getType_later l t ha, ?_⟩
    cases a with
    | some _ => exact hg
    | none => exact getType_later l f hg
  | .call fn r args, o, hg => hg
  | .member e c, o, hg => by
    simp only [getType, rbind_ok] at hg ⊢
    obtain ⟨a, ha, hg⟩ := hg
    refine ⟨a, getType_later l e ha, ?_⟩
    cases a with
    | none => exact hg
    | some t =>
      simp only [memberType, rbind_ok] at hg ⊢
      obtain ⟨r, hr, hg⟩ := hg
      exact ⟨r, resolve_later l hr, hg⟩
  | .int _ _, _, hg => hg
  | .constRef _, _, hg => hg
  | .inputRef _ _, _, hg => hg
  | .fieldRef f, o, hg => by
    simp only [getType, rbind_ok, deref_ok] at hg ⊢
    obtain ⟨x, hx, hg⟩ := hg
    obtain ⟨y, hy, e⟩ := l.kept f x hx
    exact ⟨y, hy, e ▸ hg⟩
  | .str _ _, _, hg => hg
  | .bool _, _, hg => hg

theorem HasFlag.later {h h' : Heap} (l : Later h h') {e : AExpr} {c : AConst} (hf : HasFlag h e c) : HasFlag h' e c := by
  obtain ⟨t, h1, tg, nm, rep, items, h2, h3⟩ := hf
  exact ⟨t, getType_later l e h1, tg, nm, rep, items, resolve_later l h2, h3⟩

mutual
theorem Grounded.later {h h' : Heap} (l : Later h h') : ∀ e, Grounded h e → Grounded h' e
  | .binary _ a b, g => ⟨Grounded.later l a g.1, Grounded.later l b g.2⟩
  | .unary _ e, g => Grounded.later l e g
  | .cast e _, g => Grounded.later l e g
  | .index a b, g => ⟨Grounded.later l a g.1, Grounded.later l b g.2⟩
  | .enumAccess _ _, g => HasItem.later l g
  | .ternary a b c, g => ⟨Grounded.later l a g.1, Grounded.later l b g.2.1, Grounded.later l c g.2.2⟩
  | .call _ _ args, g => GroundedAll.later l args g
  | .member e _, g => ⟨Grounded.later l e g.1, g.2.later l⟩
  | .int _ _, _ => trivial
  | .constRef _, _ => trivial
  | .inputRef _ _, _ => trivial
  | .fieldRef _, _ => trivial
  | .str _ _, _ => trivial
  | .bool _, _ => trivial
theorem GroundedAll.later {h h' : Heap} (l : Later h h') : ∀ es, GroundedAll h es → GroundedAll h' es
  | [], _ => trivial
  | e :: es, g => ⟨Grounded.later l e g.1, GroundedAll.later l es g.2⟩
end

theorem GroundedTy.later {h h' : Heap} (l : Later h h') : ∀ t, GroundedTy h t → GroundedTy h' t
  | .container _ _ _ _, g => fun e he => (g e he).later l
  | .enum _ _ _ _, g => fun c hc => (g c hc).later l
  | .bitfield _ _ _ _, g => fun c hc => (g c hc).later l
  | .array _ el _ _, g => ⟨GroundedTy.later l el g.1, fun e he => (g.2 e he).later l⟩
  | .ref _ args, g => GroundedAll.later l args g
  | .scalar _, _ => trivial
  | .f32, _ => trivial
  | .f64, _ => trivial
  | .bool, _ => trivial
  | .foreign _, _ => trivial

theorem GroundedField.later {h h' : Heap} (l : Later h h') {x y : AField} (e : Flagged x y) (g : GroundedField h x) :
    GroundedField h' y := by
  unfold Flagged at e
  rw [e]
  exact ⟨g.type.later l, fun e he => (g.condition e he).later l,
    fun t ht => ⟨(g.transforms t ht).1.later l, fun e he => ((g.transforms t ht).2 e he).later l⟩,
    fun e he => (g.calculated e he).later l⟩

theorem inside_back {h h' : Heap} (l : Later h h') {t : AType} {i : FId} (hi : Inside h' t i) :
    (∀ j, Inside h t j → ∃ z : AField, h[j]? = some z) → Inside h t i := by
  induction hi with
  | item hi => exact fun _ => .item hi
  | deeper hj hx _ ih =>
    intro hall
    obtain ⟨z, hz⟩ := hall _ (.item hj)
    obtain ⟨y, hy, e⟩ := l _ z hz
    rw [hx] at hy
    cases hy
    unfold Flagged at e
    have et : z.type = _ := (congrArg AField.type e).symm
    refine .deeper hj hz ?_
    rw [← et] at ih
    exact ih fun j hj' => hall j (.deeper hj hz hj')

/-- Everything in a type that a module declares. -/
theorem Made.deep {env : Env} {h : Heap} {ast : Ast.Program} {p : Prog} (hc : Made env h ast p) {n : String}
    {args : List Ast.TypeArg} {f : Ast.Field} (hd : .type n args f ∈ ast) {k : FId} (hk : IMap.get p.types n = some k) :
    Deep h k := by
  cases hc with
  | @mk mods texts _ _ s s' h1 h2 h3 h4 =>
    obtain ⟨pre, post, rfl⟩ := List.append_of_mem hd
    obtain ⟨k', x, g1, g2, ⟨-, x', g3, g4, g5⟩, -⟩ := (typed_as_asked_partial env mods _ p s s' h3).1 pre n args f post rfl
    rw [hk] at g1
    cases g1
    have e : x' = x := Option.some.inj (g3.symm.trans g2)
    subst e
    intro z hz
    obtain ⟨y, hy, e⟩ := h4 k x' g3
    rw [hz] at hy
    cases hy
    refine ⟨g4.grounded.later h4 e, fun i hi w hw => ?_⟩
    have et : z.type = x'.type := by unfold Flagged at e; rw [e]
    rw [et] at hi
    have hi' := inside_back h4 hi fun j hj => by
      obtain ⟨-, z, hz, -⟩ := g5 j hj
      exact ⟨z, hz⟩
    obtain ⟨-, v, hv, tv⟩ := g5 i hi'
    obtain ⟨w', hw', e'⟩ := h4 i v hv
    rw [hw] at hw'
    cases hw'
    exact tv.grounded.later h4 e'

/-- A constant of a module. -/
theorem Made.constGrounded {env : Env} {h : Heap} {ast : Ast.Program} {p : Prog} (hc : Made env h ast p) {n : String}
    {t : Ast.Ty} {v : Ast.Expression} (hd : .const n t v ∈ ast) {c : AConst} (hk : IMap.get p.consts n = some c) :
    Grounded h c.value := by
  cases hc with
  | @mk mods texts _ _ s s' h1 h2 h3 h4 =>
    obtain ⟨c', g1, -, g2⟩ := (typed_as_asked_partial env mods _ p s s' h3).2 n t v hd
    rw [hk] at g1
    cases g1
    exact g2.grounded.later h4

end Verif.Sem
