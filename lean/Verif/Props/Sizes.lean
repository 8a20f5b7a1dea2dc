import Verif.Props.Survive
import Verif.Sizes
/-!
# C69: generated types have a size
-/
namespace Verif.Props
open Verif

/-- **C69.** rustc can lay out all types of a specification exactly if no type holds itself, directly or through others, other than in arrays.
`finiteSizes` decides it. -/
theorem sizes_iff_no_type_holds_itself (F : Sig) (sch : Schema) :
    ((∀ d ∈ sch, Sized F sch (.named d.name)) ↔ ∀ n, ¬ Plus (HeldIn F sch) n n) ∧
    (finiteSizes F sch = true ↔ ∀ n, ¬ Plus (HeldIn F sch) n n) := by
  have hacc : (∀ d ∈ sch, Sized F sch (.named d.name)) → ∀ n, ¬ Plus (HeldIn F sch) n n := by
    intro h n hp
    have hn : (sch.find n).isSome = true := by
      cases hp with
      | one h => exact h.choose_spec.2.2
      | more h _ => exact h.choose_spec.2.2
    obtain ⟨d, hd, rfl⟩ := List.mem_map.1 (find_name hn)
    exact acc_no_cycle (inside_acc (h d hd) _ rfl) hp
  have hall : finiteSizes F sch = true → ∀ d ∈ sch, Sized F sch (.named d.name) := by
    intro h d hd
    exact sizedAfter_sized _ _ (of_decide_eq_true (List.all_eq_true.1 h d.name (List.mem_map.2 ⟨d, hd, rfl⟩)))
  exact ⟨⟨hacc, fun h => hall (finiteSizes_of_acyclic h)⟩, fun h => hacc (hall h), finiteSizes_of_acyclic⟩

/-- Everything that is written anywhere in the declarations has a size then, elements of arrays included. -/
theorem every_written_type_sized (F : Sig) (sch : Schema) (h : finiteSizes F sch = true) (t : RTy) : Sized F sch t :=
  sized_of_inside fun m _ => by
    cases hf : sch.find m with
    | none => exact .foreign hf
    | some d =>
      have hd := List.mem_of_find?_eq_some hf
      have hn := List.find?_some hf
      simp only [beq_iff_eq] at hn
      exact hn ▸ ((sizes_iff_no_type_holds_itself F sch).1.2 ((sizes_iff_no_type_holds_itself F sch).2.1 h)) d hd

/-- The values that a value of a declared type holds. -/
def _root_.Verif.Val.parts : Val → List Val
  | .newtype _ v => [v]
  | .struct _ fs => fs.map (·.2)
  | .variant _ _ v => [v]
  | .variantS _ _ fs => fs.map (·.2)
  | _ => []

theorem hasFields_parts {F : Sig} {sch : Schema} {r : Bool} : ∀ {ts : List (String × RTy)} {fs : List (String × Val)}, HasFields F sch r ts fs →
    ∀ v ∈ fs.map (·.2), ∃ t ∈ ts.map (·.2), Belongs F sch r t v
  | [], _, h, v, hv => by cases h; cases hv
  | (n, t) :: ts, fs, h, v, hv => by
    cases h with
    | cons h1 h2 =>
      simp only [List.map_cons, List.mem_cons] at hv ⊢
      rcases hv with rfl | hv
      · exact ⟨t, .inl rfl, h1⟩
      · obtain ⟨t', ht, hb⟩ := hasFields_parts h2 v hv
        exact ⟨t', .inr ht, hb⟩

/-- The types that `Sized` looks at are those of the values: what a value of a declared type holds is of one of them. -/
theorem parts_are_of_written_types (F : Sig) (sch : Schema) (r : Bool) (n : String) (d : Decl) (hd : sch.find n = some d) (v : Val)
    (h : Belongs F sch r (.named n) v) : ∀ w ∈ v.parts, ∃ t ∈ declTypes F d, Belongs F sch r t w := by
  intro w hw
  cases h with
  | newtype h1 h2 h3 =>
    cases hd.symm.trans h1
    simp only [Val.parts, List.mem_singleton] at hw
    exact ⟨_, by rw [declTypes, h2]; exact List.mem_singleton.2 rfl, hw ▸ h3⟩
  | enm => cases hw
  | bits => cases hw
  | struct h1 h2 h3 =>
    cases hd.symm.trans h1
    rw [declTypes, h2]
    exact hasFields_parts h3 w hw
  | @variant _ _ _ _ arm _ _ h1 h2 h3 h4 h5 =>
    cases hd.symm.trans h1
    simp only [Val.parts, List.mem_singleton] at hw
    rw [declTypes, h2]
    exact ⟨_, List.mem_flatMap.2 ⟨arm, h3, by rw [h4]; exact List.mem_singleton.2 rfl⟩, hw ▸ h5⟩
  | @variantS _ _ _ _ arm _ _ _ h1 h2 h3 h4 h5 =>
    cases hd.symm.trans h1
    obtain ⟨t, ht, hb⟩ := hasFields_parts h5 w hw
    rw [declTypes, h2]
    exact ⟨t, List.mem_flatMap.2 ⟨arm, h3, by rw [h4]; exact ht⟩, hb⟩

/-! ### Cases -/

/-- Trees are fine: the children are in a `Vec`. -/
theorem tree_sized : finiteSizes (ownSig []) treeSchema = true := by decide +kernel

/-- Finding: protospec accepts types that hold themselves, in a conditional field (`Option`), in each other, in an alternative of a tagged enum; rustc
refuses the generated declarations. A type may hold itself only in an array. -/
theorem unsized_findings :
    ((specOf [] "type a = container { n: u8, next: a { n > 0u8 } };").map (finiteSizes (ownSig []))) = some false ∧
    ((specOf [] "type a = container { n: u8, b: b { n > 0u8 } }; type b = container { a: a };").map (finiteSizes (ownSig []))) = some false ∧
    ((specOf [] "type a(n: u8) = container +tagged_enum { end: u8 { n > 0u8 }, more: container { m: u8, a: a(m) } };").map (finiteSizes (ownSig []))) = some false ∧
    ((specOf [] "type a = container { n: u8, next: a[..] };").map (finiteSizes (ownSig []))) = some true ∧
    ((specOf [] "type a = container { n: u8, k: u8[n], b: b { n > 0u8 } }; type b = container { xs: a[2] };").map (finiteSizes (ownSig []))) =
      some true := by decide +kernel

/-- What the check refuses is refused for a reason. -/
theorem list_not_sized : ∃ sch, specOf [] "type a = container { n: u8, next: a { n > 0u8 } };" = some sch ∧ ¬ ∀ d ∈ sch, Sized (ownSig []) sch (.named d.name) := by
  have h := unsized_findings.1
  cases hs : specOf [] "type a = container { n: u8, next: a { n > 0u8 } };" with
  | none => rw [hs] at h; cases h
  | some sch =>
    rw [hs] at h
    refine ⟨sch, rfl, fun hc => ?_⟩
    have h1 := (sizes_iff_no_type_holds_itself (ownSig []) sch).1.1 hc
    have h2 := (sizes_iff_no_type_holds_itself (ownSig []) sch).2.2 h1
    rw [Option.map_some, h2] at h
    cases h

end Verif.Props
