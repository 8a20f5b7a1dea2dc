import Verif.Order
/-!
# Lexical scope of a container's expressions

Specification for C54: which fields the expressions of a declaration may refer to.
-/
namespace Verif.Enc
open Verif

/-- The fields of a container itself, without those of the containers in it. -/
def own : Fields → List String
  | .nil => []
  | .pad _ _ rest => own rest
  | .leaf a _ rest => a.name :: own rest
  | .cont _ _ _ rest => own rest

/-- Conditions, transforms, lengths and type arguments refer to fields in `S` (those of the enclosing
containers that are declared before) or declared before in the same container; calculated values refer to
fields in `A`. Nothing refers to a field of a container from outside of it. -/
def Lexical (A : String → Prop) : Fields → (String → Prop) → Prop
  | .nil, _ => True
  | .pad _ e rest, S => In S [e] ∧ Lexical A rest S
  | .leaf a ty rest, S =>
    In S (FAttr.exprs a) ∧ In S (LTy.exprs ty) ∧ In A a.auto.toList ∧ Lexical A rest (fun n => S n ∨ n = a.name)
  | .cont a len items rest, S =>
    In S (FAttr.exprs a) ∧ In S len.toList ∧ Lexical (fun n => S n ∨ n ∈ own items) items S ∧ Lexical A rest S

/-- Calculated values that use `blen` refer to no fields besides the one measured. -/
def LengthsOnly (items : Fields) : Prop := ∀ a ∈ items.leaves, ∀ e, a.auto = some e → e.blens ≠ [] → e.refs = []

/-- The same for the alternatives of a tagged enum: an alternative sees those before it (which no message has
together with it: the generators panic on such a reference). -/
def LexicalArms : List Arm → (String → Prop) → Prop
  | [], _ => True
  | ⟨a, .leaf ty⟩ :: rest, S =>
    In S (FAttr.exprs a) ∧ In S (LTy.exprs ty) ∧ LexicalArms rest (fun n => S n ∨ n = a.name)
  | ⟨a, .cont len items⟩ :: rest, S =>
    In S (FAttr.exprs a) ∧ In S len.toList ∧ Lexical (fun n => S n ∨ n ∈ own items) items S ∧ LexicalArms rest S

/-- A declaration: outside of its container there are no fields to refer to. -/
def LexicalDecl (d : Decl) : Prop :=
  In (fun _ => False) (d.xfs.flatMap XformUse.exprs) ∧
  match d.body with
  | .leaf c ty => In (fun _ => False) c.toList ∧ In (fun _ => False) (LTy.exprs ty)
  | .repr _ => True
  | .struct len items => In (fun _ => False) len.toList ∧ Lexical (fun n => False ∨ n ∈ own items) items (fun _ => False)
  | .tagged len arms => In (fun _ => False) len.toList ∧ LexicalArms arms (fun _ => False)

theorem In.mono {S T : String → Prop} (h : ∀ n, S n → T n) {es : List Expr} (hi : In S es) : In T es :=
  fun e he n hn => h n (hi e he n hn)

theorem lexical_scoped : ∀ (fs : Fields) {A S T : String → Prop}, Lexical A fs S → LengthsOnly fs → (∀ n, S n → T n) →
    Scoped (fun _ _ => true) fs T
  | .nil, A, S, T, _, _, _ => trivial
  | .pad _ e r, A, S, T, h, hl, hs => ⟨h.1.mono hs, lexical_scoped r h.2 hl hs⟩
  | .leaf a ty r, A, S, T, h, hl, hs => by
    refine ⟨h.1.mono hs, h.2.1.mono hs, ?_, ?_⟩
    · intro e ha hb
      have he := hl a (by simp [Fields.leaves]) e ha hb
      refine ⟨?_, by simp [he]⟩
      intro e' hm n hn
      rw [List.mem_singleton] at hm
      subst hm
      rw [he] at hn; cases hn
    · refine lexical_scoped r h.2.2.2 (fun b hb => hl b (by simp [Fields.leaves, hb])) fun n hn => ?_
      exact hn.imp (hs n) fun h => ⟨rfl, h⟩
  | .cont a len i r, A, S, T, h, hl, hs =>
    ⟨h.1.mono hs, h.2.1.mono hs,
      lexical_scoped i h.2.2.1 (fun b hb => hl b (by simp [Fields.leaves, hb])) hs,
      lexical_scoped r h.2.2.2 (fun b hb => hl b (by simp [Fields.leaves, hb])) fun n hn => .inl (hs n hn)⟩

end Verif.Enc
