import Verif.Instances
import Verif.Props.Readers
import Verif.Props.Survive
/-!
# C71: decoders are compiled for finitely many reader types
-/
namespace Verif.Props
open Verif Verif.Dec

/-- **C71.** Whichever decoder of a specification a program calls, rustc needs finitely many copies of decoders for it, exactly if no decoder is called again,
directly or through others, by one that it calls with a reader made of its own. `finiteInstances` decides it. -/
theorem finitely_many_instances_iff (A : Api) (sch : Schema) :
    finiteInstances A sch = true ↔ ∀ d ∈ sch, ∃ l : List (String × Rd), ∀ m ρ, Inst A sch d.name m ρ → (m, ρ) ∈ l := by
  refine ⟨fun h d _ => finite_of_check h d.name, fun h => ?_⟩
  cases hc : finiteInstances A sch with
  | true => rfl
  | false =>
    obtain ⟨n, hn, hk⟩ := infinite_of_check hc
    obtain ⟨d, hd, rfl⟩ := List.mem_map.1 hn
    obtain ⟨l, hl⟩ := h d hd
    obtain ⟨G, hG⟩ := exists_bound l
    obtain ⟨ρ, hi, hs⟩ := hk (G + 1)
    have := hG _ (hl _ ρ hi)
    simp only at this
    omega

/-- Specifications without recursion are fine, whatever readers they make. -/
theorem nonrecursive_instances_finite (A : Api) (sch : Schema) (h : ∀ n m, m ∈ (callsOf A sch n).map (·.1) → ¬ Star (fun n => (callsOf A sch n).map (·.1)) m n) :
    finiteInstances A sch = true := by
  cases hc : finiteInstances A sch with
  | true => rfl
  | false =>
    simp only [finiteInstances, List.all_eq_false] at hc
    obtain ⟨n, hn, hc⟩ := hc
    simp only [Bool.not_eq_true, List.all_eq_false] at hc
    obtain ⟨⟨m, rd⟩, hm, hc⟩ := hc
    have hs : Star (heirs A sch) m n := gets_star (grows_iff.1 hc).2
    refine absurd ?_ (h n m (List.mem_map.2 ⟨_, hm, rfl⟩))
    clear hc hm hn
    induction hs with
    | refl => exact .refl
    | step hb _ ih =>
      obtain ⟨rd, h1, -⟩ := mem_heirs.1 hb
      exact .step (List.mem_map.2 ⟨_, h1, rfl⟩) ih

/-! ### Cases -/

/-- Trees are fine: a tree reads its children from its own reader. -/
theorem tree_instances_finite : finiteInstances preludeApi treeSchema = true := by decide +kernel

def finiteText (src : String) : Option Bool := (specOf [] src).map (finiteInstances preludeApi)

/-- Findings: a type that contains itself in a container with a length, directly or through another, is accepted by protospec and not compiled by rustc; in an unbounded array
it is fine, since the elements are read from a `Cursor`. -/
theorem instance_findings :
    finiteText "type t = container { n: u8, c: container [n] { kids: t[2] } };" = some false ∧
    finiteText "type t = container { n: u8, c: container [n] { us: u[2] } }; type u = container { k: u8, ts: t[k] };" = some false ∧
    finiteText "type t = container { n: u8, kids: t[n] };" = some true ∧
    finiteText "type t = container { n: u8, c: container [n] { kids: t[..] } };" = some true := by decide +kernel

end Verif.Props
