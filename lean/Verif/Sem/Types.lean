import Verif.Sem.Lemmas
/-!
# Lemmas on references, expected types, coercion and casts
-/
namespace Verif.Sem
open Verif

/-- Not a reference. -/
def AType.isRef : AType → Bool
  | .ref .. => true
  | _ => false

theorem resolvedN_plain {h : Heap} {n : Nat} {t : AType} (ht : t.isRef = false) :
    resolvedN h n t = .ok t := by
  cases t <;> first | (cases n <;> rfl) | cases ht

theorem resolve_plain {h : Heap} {t : AType} (ht : t.isRef = false) : resolve h t = .ok t :=
  resolvedN_plain ht

theorem resolvedN_not_ref {h : Heap} : ∀ {n : Nat} {t r : AType},
    resolvedN h n t = .ok r → r.isRef = false := by
  intro n
  induction n with
  | zero => intro t r hr; cases t <;> first | (cases hr; rfl) | cases hr
  | succ n ih =>
    intro t r hr
    cases t with
    | ref f args =>
      simp only [resolvedN, rbind_ok] at hr
      obtain ⟨x, -, hx⟩ := hr
      exact ih hx
    | _ => cases hr; rfl

theorem resolve_not_ref {h : Heap} {t r : AType} (hr : resolve h t = .ok r) : r.isRef = false :=
  resolvedN_not_ref hr

theorem resolve_resolved {h : Heap} {t r : AType} (hr : resolve h t = .ok r) :
    resolve h r = .ok r := resolve_plain (resolve_not_ref hr)

/-- More steps change nothing once the end of the chain is reached. -/
theorem resolvedN_mono {h : Heap} : ∀ {n m : Nat} {t r : AType},
    resolvedN h n t = .ok r → n ≤ m → resolvedN h m t = .ok r := by
  intro n
  induction n with
  | zero =>
    intro m t r hr _
    cases t with
    | ref f args => cases hr
    | _ => cases hr; exact resolvedN_plain rfl
  | succ n ih =>
    intro m t r hr hm
    cases t with
    | ref f args =>
      obtain ⟨m, rfl⟩ : ∃ k, m = k + 1 := ⟨m - 1, by omega⟩
      simp only [resolvedN, rbind_ok] at hr ⊢
      obtain ⟨x, hx, hr⟩ := hr
      exact ⟨x, hx, ih hr (by omega)⟩
    | _ => cases hr; exact resolvedN_plain rfl

/-- The expected type made of a resolved type: its shape. -/
def ShapeOf (P : PType) : AType → Prop
  | .scalar s => P = .scalar (.some s.scalar)
  | .array .. => ∃ el, P = .array (some el)
  | t => P = .type t

theorem toPartialN_shape {h : Heap} : ∀ {n : Nat} {t : AType} {P : PType},
    toPartialN h n t = .ok P → ∃ r, resolvedN h n t = .ok r ∧ ShapeOf P r := by
  intro n
  have plain : ∀ (follow : FId → R PType) {t : AType} {P : PType}, t.isRef = false →
      toPartialWith follow t = .ok P → ShapeOf P t := by
    intro follow t P ht hp
    cases t with
    | ref f a => cases ht
    | array tg el x len =>
      simp only [toPartialWith, rmap_ok] at hp
      obtain ⟨q, -, rfl⟩ := hp
      exact ⟨q, rfl⟩
    | _ => cases hp; rfl
  induction n with
  | zero =>
    intro t P hp
    cases ht : t.isRef with
    | false => exact ⟨t, resolvedN_plain ht, plain _ ht hp⟩
    | true => cases t <;> first | (simp [toPartialN, toPartialWith] at hp; done) | cases ht
  | succ n ih =>
    intro t P hp
    cases ht : t.isRef with
    | false => exact ⟨t, resolvedN_plain ht, plain _ ht hp⟩
    | true =>
      cases t with
      | ref f a =>
        simp only [toPartialN, toPartialWith, rbind_ok] at hp
        obtain ⟨x, hx, hp⟩ := hp
        obtain ⟨r, hr, hs⟩ := ih hp
        exact ⟨r, by simp only [resolvedN, rbind_ok]; exact ⟨x, hx, hr⟩, hs⟩
      | _ => cases ht

theorem toPartial_shape {h : Heap} {t : AType} {P : PType} (hp : toPartial h t = .ok P) :
    ∃ r, resolve h t = .ok r ∧ ShapeOf P r := toPartialN_shape hp

theorem assignable_resolved {env : Env} {h : Heap} {a b ra rb : AType}
    (ha : resolve h a = .ok ra) (hb : resolve h b = .ok rb) :
    assignable env h a b = assignableRes env h ra rb := by
  unfold assignable; rw [ha, hb]; rfl

theorem canCoerce_resolved {h : Heap} {a b ra rb : AType}
    (ha : resolve h a = .ok ra) (hb : resolve h b = .ok rb) :
    canCoerce h a b = .ok (coerceRes ra rb) := by
  unfold canCoerce; rw [ha, hb]; rfl

theorem canCast_resolved {env : Env} {h : Heap} {a b ra rb : AType}
    (ha : resolve h a = .ok ra) (hb : resolve h b = .ok rb) :
    canCast env h a b = (assignableRes env h rb ra).bind fun x =>
      .ok (x || coerceRes rb ra || castRes ra rb) := by
  unfold canCast
  rw [assignable_resolved hb ha, canCoerce_resolved hb ha, ha, hb]
  cases assignableRes env h rb ra with
  | error e => rfl
  | ok x => cases x <;> cases coerceRes rb ra <;> rfl

/-- An accepted type, for resolved types that are not foreign. -/
theorem accepts_resolved {env : Env} {h : Heap} {P : PType} {a ra : AType}
    (ha : resolve h a = .ok ra) (hf : ∀ f, ra ≠ .foreign f) : Accepts env h P a →
    match P with
    | .type x => assignable env h x ra = .ok true
    | .scalar (.some k) => assignable env h (.scalar k.toE) ra = .ok true
    | .scalar (.defaults k) => assignable env h (.scalar k.toE) ra = .ok true
    | .scalar .none => True
    | .array _ => ∃ tg el x len, ra = .array tg el x len
    | .any => True := by
  intro hacc
  unfold Accepts at hacc
  cases P with
  | type x =>
    rw [PType.assignable, ha] at hacc
    cases ra <;> first | exact absurd rfl (hf _) | exact hacc
  | scalar p =>
    rw [PType.assignable, ha] at hacc
    cases p <;> cases ra <;> first | exact absurd rfl (hf _) | exact hacc | trivial
  | any => trivial
  | array el =>
    cases el <;> rw [PType.assignable, ha] at hacc <;> cases ra <;>
      first | exact absurd rfl (hf _) | exact ⟨_, _, _, _, rfl⟩ | cases hacc

/-! ## Chains of references that never end -/

/-- The field a type refers to. -/
def target? : AType → Option FId
  | .ref f _ => some f
  | _ => none

/-- A chain of `n` references from `t`. -/
def chain (h : Heap) : Nat → AType → Option (List FId)
  | 0, _ => some []
  | n + 1, t => match t with
    | .ref f _ => match h[f]? with
      | some x => (chain h n x.type).map (f :: ·)
      | none => none
    | _ => none

end Verif.Sem
