import Verif.Props.RustTypes
import Verif.Survive
/-!
# C59: decoding hostile input
-/
namespace Verif.Props
open Verif Verif.Dec

/-- Decoding ended in a value, with what is left of the input, or in an `Err` returned to the caller. -/
def Answered (input : Bytes) (r : Res (Val × Bytes)) : Prop :=
  (∃ v rest, r = .ok (v, rest) ∧ rest.length ≤ input.length) ∨ ∃ msg, r = .error (.err msg)

theorem settled_answered {e : Bool} {input : Bytes} {r : Res (Val × Bytes)} (h : Settled (Shrinks e input) r) :
    Answered input r := by
  cases r with
  | ok y => exact .inl ⟨y.1, y.2, rfl, h.1⟩
  | error f =>
    cases f with
    | err m => exact .inr ⟨m, rfl⟩
    | _ => exact h.elim

/-- **C59 (partial).** For every schema that passes the check `survives` — counts are not negative and ask for less
than `2 ^ 63` bytes, arithmetic stays in range (or wraps, in builds without overflow checks), nothing divides by what may be zero,
elements of unbounded arrays read something, terminators have at most one byte, references that come back to a type read something
in between and do not go through a transform — every declared type, arguments of the declared types and **every input**: the generated decoder ends, with
one and the same answer for every stack that is large enough, and the answer is a value or an `Err`. It never
panics, loops or recurses without end.

Missing: schemas that do not pass. For each condition of the check there is one for which this is false: the
findings below. -/
theorem decoder_survives_any_input_partial (P : Plan) (F : Sig) (sch : Schema) (L : Lib)
    (hnd : ∀ d ∈ sch, d.FieldsNodup) (hc : survives P F sch L.oc = true) (hL : LibSteady P F sch L)
    (name : String) (d : Decl) (hf : sch.find name = some d) (hp : d.params.length = (F.params name).length)
    (args : List Val) (ha : ArgsRanged F sch (F.params name) args) (input : Bytes) :
    ∃ stack r, Answered input r ∧ ∀ fuel, stack ≤ fuel → runDecode sch L fuel name args input = r := by
  obtain ⟨N, r, _, hr, h⟩ := specDecode_survives hc hL (name, input.length) d args input rfl hf hp ha
  exact ⟨N, r, settled_answered hr, fun fuel hfu => by rw [decode_refines sch L hnd]; exact h fuel hfu⟩

/-- **C59, stack without recursive types (partial).** If no type refers back to itself, calls nest at most as deep
as the longest chain of references, whatever the input. -/
theorem nonrecursive_stack_partial (P : Plan) (F : Sig) (sch : Schema) (L : Lib) (hflat : P.flat = true)
    (hnd : ∀ d ∈ sch, d.FieldsNodup) (hc : survives P F sch L.oc = true) (hL : LibSteady P F sch L)
    (name : String) (d : Decl) (hf : sch.find name = some d) (hp : d.params.length = (F.params name).length)
    (args : List Val) (ha : ArgsRanged F sch (F.params name) args) (fuel : Nat) (hfuel : P.rank name + 1 ≤ fuel)
    (input : Bytes) : Answered input (runDecode sch L fuel name args input) := by
  obtain ⟨N, r, hN, hr, h⟩ := specDecode_survives hc hL (name, input.length) d args input rfl hf hp ha
  have hN := hN (P.rank name + 1) (by simp [Plan.depth, hflat])
  rw [decode_refines sch L hnd]
  have := h fuel (Nat.le_trans hN hfuel)
  simp only at this
  rw [this]
  exact settled_answered hr

/-- **C59, stack with recursive types (partial).** Where recursion does not go through transforms, calls nest at most
proportionally to the length of the input. -/
theorem recursive_stack_partial (P : Plan) (F : Sig) (sch : Schema) (L : Lib) (hnd : ∀ d ∈ sch, d.FieldsNodup)
    (hc : survives P F sch L.oc = true) (hL : LibSteady P F sch L)
    (name : String) (hstage : P.stage name = 0) (hflat : P.flat = false) (d : Decl) (hf : sch.find name = some d)
    (hp : d.params.length = (F.params name).length) (args : List Val) (ha : ArgsRanged F sch (F.params name) args)
    (input : Bytes) (fuel : Nat) (hfuel : (input.length + 1) * (P.top + 1) ≤ fuel) :
    Answered input (runDecode sch L fuel name args input) := by
  obtain ⟨N, r, hN, hr, h⟩ := specDecode_survives hc hL (name, input.length) d args input rfl hf hp ha
  have hrank : P.rank name ≤ P.top := by
    simp only [survives, Bool.and_eq_true] at hc
    have hn : d.name = name := by simpa using List.find?_some hf
    have := List.all_eq_true.1 hc.2 d (by exact List.mem_of_find?_eq_some hf)
    simp only [declFine, Bool.and_eq_true, decide_eq_true_eq] at this
    rw [← hn]
    exact this.1.1.2
  have hN := hN (input.length * (P.top + 1) + P.rank name + 1) (by simp [Plan.depth, hflat, hstage])
  rw [decode_refines sch L hnd]
  have := h fuel (by rw [Nat.succ_mul] at hfuel; omega)
  simp only at this
  rw [this]
  exact settled_answered hr

/-! ### Cases -/

theorem byteLib_steady (P : Plan) (ps : List (String × List RTy)) (sch : Schema) : LibSteady P (ownSig ps) sch byteLib := by
  refine ⟨?_, ?_, ?_⟩
  · intro n vs bs v rest h
    cases bs with
    | nil => cases h
    | cons b bs => cases h; exact .str
  · intro n vs bs _
    cases bs with
    | nil => trivial
    | cons b bs => exact ⟨Nat.le_succ _, fun _ => Nat.lt_succ_self _⟩
  · intro n vs bs _
    cases bs with
    | nil => trivial
    | cons b bs => exact ⟨Nat.zero_le _, fun h => by cases h⟩

/-- No recursion; types by the length of their chains of references. -/
def flatPlan (ranks : List (String × Nat)) : Plan :=
  ⟨true, fun _ => 0, fun n => (ranks.lookup n).getD 0, ranks.foldl (fun m x => max m x.2) 0, fun _ => false, fun _ => true⟩

/-- From the text to a decoder that answers on every input, with one call on the stack. -/
theorem list_decoder_survives (input : Bytes) (fuel : Nat) (h : 1 ≤ fuel) :
    Answered input (runDecode listSchema byteLib fuel "a" [] input) :=
  nonrecursive_stack_partial (flatPlan []) (ownSig []) listSchema byteLib rfl list_nodup (by decide +kernel)
    (byteLib_steady _ _ _) "a" _ rfl rfl [] .nil fuel h input

/-! The larger specification of C55 passes: three calls deep at most. -/
#guard ((specOf packetModules packetText).map fun sch =>
  survives (flatPlan [("Kind", 0), ("Pair", 0), ("Body", 1), ("Packet", 2)]) (ownSig [("Body", [.named "Kind"])]) sch true) == some true

def treeSource : String := "type node = container { kids: u8, name: u8[kids], children: node[kids] };"
def treeSchema : Schema := [⟨"node", [], [], .struct none
  (.leaf (plain "kids") u8T
  (.leaf (plain "name") (.array u8T (.fixed (.cast .plain (.fieldRef "kids") (.scalar .u64))))
  (.leaf (plain "children") (.array (.ref "node" false .other []) (.fixed (.cast .plain (.fieldRef "kids") (.scalar .u64)))) .nil)))⟩]

def treePlan : Plan := ⟨false, fun _ => 0, fun _ => 0, 0, fun _ => true, fun _ => true⟩

theorem tree_spec : specOf [] treeSource = some treeSchema := by decide +kernel
theorem tree_nodup : ∀ d ∈ treeSchema, d.FieldsNodup := by
  simp [treeSchema, Decl.FieldsNodup, Fields.names, Fields.leaves, plain]

/-- A recursive type: on every input the decoder answers, and calls nest at most once per byte and once more. -/
theorem tree_decoder_survives (input : Bytes) (fuel : Nat) (h : input.length + 1 ≤ fuel) :
    Answered input (runDecode treeSchema byteLib fuel "node" [] input) :=
  recursive_stack_partial treePlan (ownSig []) treeSchema byteLib tree_nodup (by decide +kernel)
    (byteLib_steady _ _ _) "node" rfl rfl _ rfl rfl [] .nil input fuel (by simpa [treePlan] using h)

example : runDecode treeSchema byteLib 3 "node" [] [1, 65, 0, 9] = .ok (.struct "node"
    [("kids", vu8 1), ("name", .arr [vu8 65]), ("children", .arr [.struct "node"
      [("kids", vu8 0), ("name", .arr []), ("children", .arr [])]])], [9]) := by rfl

/-- How a run ended. -/
def ending : Res (Val × Bytes) → String
  | .ok _ => "value"
  | .error (.err _) => "error"
  | .error .panic => "panic"
  | .error .miscount => "panic"
  | .error .diverge => "endless"
  | .error .ill => "ill"

/-- Finding: decoders of accepted specifications that panic, or never end, on some input. In order: a count from
`2 ^ 63` on; an overflow in a build with overflow checks; a division by a decoded
zero; elements that read nothing, until the input ends; a terminator of two bytes that never comes. -/
theorem hostile_input_findings :
    ((specOf [] "type a = container { n: u64, d: u8[n] };").map fun sch =>
      ending (runDecode sch noLib 2 "a" [] [128, 0, 0, 0, 0, 0, 0, 0])) = some "panic" ∧
    ((specOf [] "type a = container { n: u8, d: u8[n - 1u8] };").map fun sch =>
      ending (runDecode sch noLib 2 "a" [] [0])) = some "panic" ∧
    ((specOf [] "type a = container { n: u8, d: u8[16u8 / n] };").map fun sch =>
      ending (runDecode sch noLib 2 "a" [] [0])) = some "panic" ∧
    ((specOf [] "type e = container { }; type a = container { d: e[..] };").map fun sch =>
      ending (runDecode sch noLib 2 "a" [] [0])) = some "endless" ∧
    ((specOf [] "type a = container { d: u8[..\"--\"] };").map fun sch =>
      ending (runDecode sch noLib 2 "a" [] [65])) = some "endless" := by decide +kernel

/-- The bounds tell the two builds apart: this condition overflows on a zero only in a build with overflow checks. -/
theorem wrapping_build_survives :
    ((specOf [] "type a = container { n: u8, d: u8 { n - 1u8 > 2u8 } };").map fun sch =>
      (survives (flatPlan []) (ownSig []) sch false, survives (flatPlan []) (ownSig []) sch true)) = some (true, false) ∧
    ((specOf [] "type a = container { n: u8, d: u8 { n - 1u8 > 2u8 } };").map fun sch =>
      (ending (runDecode sch { noLib with oc := false } 2 "a" [] [0, 7]), ending (runDecode sch noLib 2 "a" [] [0, 7])))
      = some ("value", "panic") := by
  decide +kernel

def loopSource : String := "type a = container { d: a[1] };"
def loopDecl : Decl := ⟨"a", [], [], .struct none
  (.leaf (plain "d") (.array (.ref "a" false .other []) (.fixed (.int ⟨.u64, 1⟩))) .nil)⟩

theorem loop_step (X : Ext) (bs : Bytes) (h : X.call "a" [] bs = .error .diverge) :
    decDecl X loopDecl bs = .error .diverge := by
  have h0 : decLeaf X Env.empty (.ref "a" false .other []) bs = .error .diverge := by
    simp only [decLeaf, List.mapM_nil]
    exact h
  have h1 : decLeaf X Env.empty (.array (.ref "a" false .other []) (.fixed (.int ⟨.u64, 1⟩))) bs = .error .diverge := by
    have hv : ev X Env.empty (.int ⟨.u64, 1⟩) = .ok (.int ⟨.u64, 1⟩) := rfl
    have hc : loopCount (.int ⟨.u64, 1⟩) = .ok 1 := loopCount_int (by decide) (by decide)
    unfold decLeaf
    simp only [hv, ok_bind, LTy.resolved, hc, decN, h0]
    rfl
  simp only [decDecl, loopDecl, List.reverse_nil, decXforms, decLimited, decItems, plain, decCond, h1]
  rfl

/-- Finding: an accepted type that contains itself before anything is read. Its decoder overflows every
stack, on every input. -/
theorem endless_recursion_finding : specOf [] loopSource = some [loopDecl] ∧
    ∀ fuel input, runDecode [loopDecl] noLib fuel "a" [] input = .error .diverge := by
  refine ⟨by decide +kernel, fun fuel input => ?_⟩
  rw [decode_refines _ _ (by simp [loopDecl, Decl.FieldsNodup, Fields.names, Fields.leaves, plain])]
  induction fuel with
  | zero => rfl
  | succ fuel ih =>
    unfold specDecode callDecl
    exact loop_step _ input ih

def bombSource : String := "import_ffi gzip as transform; type a = container { n: u8, d: a[1] -> gzip };"
def bombDecl : Decl := ⟨"a", [], [], .struct none
  (.leaf (plain "n") u8T (.leaf ⟨"d", none, [⟨"gzip", none, []⟩], none⟩ (.array (.ref "a" false .other []) (.fixed (.int ⟨.u64, 1⟩))) .nil))⟩

/-- A transform that finds one byte more than it is given, as a compressed stream may. -/
def growLib (b : UInt8) : Lib := ⟨true, fun _ _ _ => .error (.err "none"), fun _ _ bs => .ok (b :: bs, [])⟩

theorem bomb_step (X : Ext) (b : UInt8) (hx : ∀ n vs bs, X.xform n vs bs = .ok (b :: bs, []))
    (h : X.call "a" [] [b] = .error .diverge) : decDecl X bombDecl [b] = .error .diverge := by
  have h0 (env : Env) : decLeaf X env (.ref "a" false .other []) [b] = .error .diverge := by
    simp only [decLeaf, List.mapM_nil]
    exact h
  have h2 (env : Env) : decLeaf X env (.array (.ref "a" false .other []) (.fixed (.int ⟨.u64, 1⟩))) [b] = .error .diverge := by
    have hv : ev X env (.int ⟨.u64, 1⟩) = .ok (.int ⟨.u64, 1⟩) := rfl
    have hc : loopCount (.int ⟨.u64, 1⟩) = .ok 1 := loopCount_int (by decide) (by decide)
    unfold decLeaf
    simp only [hv, ok_bind, LTy.resolved, hc, decN, h0]
    rfl
  obtain ⟨v, h1⟩ : ∃ v, ∀ env, decLeaf X env u8T [b] = .ok (v, []) := ⟨_, fun _ => rfl⟩
  simp only [decDecl, bombDecl, List.reverse_nil, decXforms, decLimited, decItems, plain, decCond, h1, List.reverse_cons,
    List.nil_append, ok_bind, hx, h2, List.mapM_nil]
  rfl

/-- Finding: reading something before each reference is not enough under a transform, which can make the input longer again.
A recursive type behind a transform overflows every stack on a single byte. -/
theorem bomb_finding : specOf [] bombSource = some [bombDecl] ∧
    ∀ fuel b, runDecode [bombDecl] (growLib b) fuel "a" [] [b] = .error .diverge := by
  refine ⟨by decide +kernel, fun fuel b => ?_⟩
  rw [decode_refines _ _ (by simp [bombDecl, Decl.FieldsNodup, Fields.names, Fields.leaves, plain])]
  induction fuel with
  | zero => rfl
  | succ fuel ih =>
    unfold specDecode callDecl
    exact bomb_step _ b (fun _ _ _ => rfl) ih

end Verif.Props
