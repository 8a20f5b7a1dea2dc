import Verif.Sem.LowerShape
import Verif.Sem.PreludeEnv
import Verif.Props.Names
import Verif.Props.Shape
import Verif.Props.Parser
/-!
# C52: the generators only meet shapes they expect
-/
namespace Verif.Props
open Verif Sem

/-- The account of a declared type that conversion gives, with its place and spelling. -/
theorem declared_sound {env : Env} {n : Nat} {ast : Ast.Program} {p : Prog} {h : Heap} {loads : List String}
    (hs : ∀ d ∈ ast, SpeltDecl d) (hc : convert env n ast = .ok (p, h, loads)) {name : String}
    {args : List Ast.TypeArg} {f : Ast.Field} (hd : .type name args f ∈ ast) :
    ∃ id, IMap.get p.types name = some id ∧ ∀ oc m, Sound (sizeOf f ≤ m) (lowerDecl oc h m id) := by
  have he := names_resolved_lexically env n ast p h loads hc _ hd
  have hp : PlacedDecl (.type name args f) := by
    unfold convert at hc
    rw [rmap_ok] at hc
    obtain ⟨⟨⟨p', l'⟩, s'⟩, hr, he⟩ := hc
    cases he
    unfold fromAst at hr
    rw [StateT.run] at hr
    simp only [bind_run_ok, pure_run_ok] at hr
    obtain ⟨c, s1, -, q, s2, h2, e, rfl⟩ := hr
    exact converted_placed (all_converted h2 _ hd)
  have hsp := hs _ hd
  cases he with
  | type h1 h2 h3 h4 h5 h6 h7 => exact ⟨_, h1, fun oc m => lowerDecl_sound h2 h6 hp.2 hsp.2⟩

/-- C52. Of whatever source is accepted, for every type it declares: while generating code for it the
generators do not run into anything they take for impossible: an enum, a bitfield, a tagged enum or a
foreign type written in place, a container as an array's element, an array without a length, a padding that
is anything but an array of bytes with a length, a padding as an alternative of a tagged enum. (Whether they
panic for other reasons: see the findings below.) With room for the nesting of the declaration there is
enough room. -/
theorem generator_shapes_partial (env : Env) (n : Nat) (src : Text) (ast : Ast.Program) (p : Prog) (h : Heap)
    (loads : List String) (hparse : parse src = .ok ast) (hc : convert env n ast = .ok (p, h, loads))
    (name : String) (args : List Ast.TypeArg) (f : Ast.Field) (hd : .type name args f ∈ ast) :
    ∃ id, IMap.get p.types name = some id ∧ ∀ oc m,
      lowerDecl oc h m id ≠ .error .shape ∧ (sizeOf f ≤ m → lowerDecl oc h m id ≠ .error .fuel) := by
  obtain ⟨toks, -, ht⟩ := parse_source.1 hparse
  exact declared_sound (writable_iff_parsed.1 ⟨_, parse_iff_grammar.2 ht⟩) hc hd

/-! ## Findings: panics of the generators on accepted specifications -/

/-- What becomes of the named type of a source: the source is rejected (`none`), or generating code for it
fails (`some (some _)`) or goes well (`some none`). -/
def generated (src : String) (name : String) : Option (Option GFault) :=
  match parse (ascii src) with
  | .error _ => none
  | .ok ast =>
    match convert (preludeEnv []) 0 ast with
    | .error _ => none
    | .ok (p, h, _) => (IMap.get p.types name).map fun f =>
      match lowerDecl true h 9 f with
      | .ok _ => none
      | .error e => some e

/-- `len` of a field that is a container (`prelude/len.rs`). -/
theorem len_container_finding :
    generated "type a = container { n: u64 = len(c), c: container { x: u8 } };" "a" =
      some (some (.panic .lenOfContainer)) := by decide +kernel

/-- `sum` of anything but an array of scalars (`prelude/sum.rs`). -/
theorem sum_scalar_finding :
    generated "import_ffi sum as function; type a = container { n: u64 = sum(x), x: u8 };" "a" =
      some (some (.panic .sumOfOther)) := by decide +kernel

/-- `blen` of anything but a field (`coder/encode/container.rs`). -/
theorem blen_literal_finding :
    generated "type a = container { n: u64 = blen(1u8), x: u8 };" "a" =
      some (some (.panic .blenOfOther)) := by decide +kernel

/-- An integer is converted to a bitfield where one is expected, but there is no code for that
(`compiler/mod.rs`, `emit_type_ref`). -/
theorem cast_to_bitfield_finding :
    generated "type b = bitfield u8 { p = 1 }; type a = container { x: u8, y: b = x };" "a" =
      some (some (.panic .typeRef)) := by decide +kernel

/-- A container as the type of a parameter. -/
theorem container_parameter_finding :
    generated "type a(p: container {}) = u8;" "a" = some (some (.panic .typeRef)) := by decide +kernel

/-- A conditional container of paddings (`coder/decode/field.rs`). -/
theorem conditional_paddings_finding :
    generated "type a = container { c: container { .pad: 1 } {true} };" "a" =
      some (some (.panic .nothingConditional)) := by decide +kernel

/-- Enum values that are no constants, or that have no value. -/
theorem enum_value_finding :
    generated "type a(n: u8) = enum u8 { x = n };" "a" = some (some (.panic .notConstant)) ∧
    generated "type a = enum u8 { x = 1 / 0 };" "a" = some (some (.panic .notConstant)) ∧
    generated "type a = enum u8 { x = 255, y };" "a" = some (some (.panic .notConstant)) := by
  decide +kernel

/-- A type that is itself: the generators never return. -/
theorem self_reference_finding : generated "type a = a;" "a" = some (some .diverge) := by decide +kernel

/-- Nothing of the kind: the declarations of a small protocol. -/
def protocolSource : String :=
  "type Kind = enum u8 { Text = 0, Other = default };
   type Body(k: Kind) = container +tagged_enum {
     text: container { n: u16 = len(s) :> u16, s: u8[n] } { k == Kind::Text },
     rest: u8[..]
   };
   type Packet = container {
     kind: Kind,
     size: u32 = blen(data) :> u32,
     .pad: 2,
     data: container [size] { body: Body(kind) },
     sum: u16 { size > 4 }
   };"

example : generated "type a = container { n: u8, d: container [n] { x: u8[..] } {n > 1}, .pad: 2 };" "a" =
    some none := by decide +kernel
#guard generated protocolSource "Packet" == some none
#guard generated protocolSource "Kind" == some none
#guard generated protocolSource "Body" == some none

end Verif.Props
