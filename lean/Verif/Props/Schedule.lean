import Verif.Props.Survive
import Verif.Schedule
/-!
# C60: how the input arrives
-/
namespace Verif.Props
open Verif Verif.Dec

/-- **C60.** Whatever the schema, its foreign types and transforms, the arguments, the input and the pieces in which the reader
delivers it: the decoder hangs, or it ends as it does on a reader that delivers everything at once, with the same value and the same bytes left, or
with the same error. How the input is cut never changes an answer. -/
theorem arrival_never_changes_the_answer (sch : Schema) (L : LibS) (M : Lib) (h : LibSame L M) (fuel : Nat) (ω : Sched)
    (name : String) (args : List Val) (input : Bytes) :
    runDecodeS sch L fuel ω name args input = .error .diverge ∨
    runDecodeS sch L fuel ω name args input = runDecode sch M fuel name args input :=
  runDecodeS_same h sch fuel ω name args input

/-- **C60, exactly (partial).** If all terminators have at most one byte, the pieces do not matter at all: any two ways of delivering
the input give the same answer, and hang on the same inputs.

Missing: terminators of two bytes or more, for which this is false, `cut_terminator_finding`. -/
theorem arrival_does_not_matter_partial (sch : Schema) (hs : shortTerminators sch = true) (L : LibS) (M : Lib)
    (h : LibExact L M) (fuel : Nat) (ω ω' : Sched) (name : String) (args : List Val) (input : Bytes) :
    runDecodeS sch L fuel ω name args input = runDecodeS sch L fuel ω' name args input ∧
    runDecodeS sch L fuel ω name args input = runDecode sch M fuel name args input := by
  rw [runDecodeS_exact h hs, runDecodeS_exact h hs]
  exact ⟨rfl, rfl⟩

/-- **C59 and C60.** A decoder that passes the check of C59 ends on every input, delivered in any pieces. -/
theorem decoder_survives_any_arrival_partial (P : Plan) (F : Sig) (sch : Schema) (L : LibS) (M : Lib) (h : LibExact L M)
    (hnd : ∀ d ∈ sch, d.FieldsNodup) (hc : survives P F sch M.oc = true) (hL : LibSteady P F sch M)
    (name : String) (d : Decl) (hf : sch.find name = some d) (hp : d.params.length = (F.params name).length)
    (args : List Val) (ha : ArgsRanged F sch (F.params name) args) (input : Bytes) :
    ∃ stack r, Answered input r ∧ ∀ fuel, stack ≤ fuel → ∀ ω, runDecodeS sch L fuel ω name args input = r := by
  obtain ⟨N, r, hr, hN⟩ := decoder_survives_any_input_partial P F sch M hnd hc hL name d hf hp args ha input
  refine ⟨N, r, hr, fun fuel hfu ω => ?_⟩
  rw [runDecodeS_exact h (survives_short hc)]
  exact hN fuel hfu

/-! ### Cases -/

/-- A library that does not look at the pieces. -/
def Lib.scheduled (M : Lib) : LibS := ⟨M.oc, fun _ => M.foreign, fun _ => M.xform⟩

theorem scheduled_exact (M : Lib) : LibExact (Lib.scheduled M) M := ⟨rfl, fun _ => rfl, fun _ => rfl⟩
theorem scheduled_same (M : Lib) : LibSame (Lib.scheduled M) M :=
  ⟨rfl, fun _ _ _ _ => .inr rfl, fun _ _ _ _ => .inr rfl⟩

def textSource : String := "type a = container { d: u8[..\";\"], e: u8 };"
def textSchema : Schema := [⟨"a", [], [], .struct none
  (.leaf (plain "d") (.array u8T (.term (.str [59]))) (.leaf (plain "e") u8T .nil))⟩]
theorem text_spec : specOf [] textSource = some textSchema := by decide +kernel

theorem text_arrival (fuel : Nat) (ω : Sched) (input : Bytes) :
    runDecodeS textSchema (Lib.scheduled noLib) fuel ω "a" [] input = runDecode textSchema noLib fuel "a" [] input :=
  (arrival_does_not_matter_partial textSchema (by decide +kernel) _ _ (scheduled_exact noLib) fuel ω ω "a" [] input).2

/-- The decoder of `textSchema` reads something, in small pieces. -/
theorem text_arrival_value : ∃ v, runDecodeS textSchema (Lib.scheduled noLib) 1 (fun _ => 1) "a" [] [65, 66, 59, 7, 8] = .ok (v, [8]) := by
  rw [text_arrival]
  exact ⟨_, rfl⟩

/-- A reader whose buffer holds two bytes: the first look shows both, the second what is left of them. -/
def twoByteBuffer : Sched := fun p => if p.getLast? = some 0 then 2 else 1

/-- Finding: a terminator of two bytes that falls on the end of the reader's buffer. The input is complete and correct, and is decoded if
it arrives in one piece, but the decoder never returns if the buffer ends between the two bytes of the terminator. -/
theorem cut_terminator_finding :
    ((specOf [] "type a = container { d: u8[..\"--\"] };").map fun sch =>
      (ending (runDecodeS sch (Lib.scheduled noLib) 2 (fun _ => 100) "a" [] [65, 45, 45]),
       ending (runDecodeS sch (Lib.scheduled noLib) 2 twoByteBuffer "a" [] [65, 45, 45])))
    = some ("value", "endless") := by decide +kernel

end Verif.Props
