import Verif.Props.EndToEnd
import Verif.EncodeSafe
/-!
# C56, C57: the types of generated code
-/
namespace Verif.Props
open Verif

/-- **C56.** For every schema in which declared types and decoders agree (`alignedSchema`: no nested conditions,
no array of an alias of a primitive or enum), every declared type, arguments and input: what the generated decoder returns is a
value of the declared Rust type, with all numbers in range — the fields of structs have the declared names,
order and types, a conditional field is an `Option`, an enum or tagged enum is one of its variants, to any depth.

Missing: the two excluded cases, which the code gets wrong (`nested_condition_finding`,
`alias_array_finding`). -/
theorem decoded_value_has_declared_type_partial (F : Sig) (sch : Schema) (L : Dec.Lib)
    (hnd : ∀ d ∈ sch, d.FieldsNodup) (hs : alignedSchema sch = true)
    (hL : ∀ n vs bs v rest, L.foreign n vs bs = .ok (v, rest) → Belongs F sch true (F.foreignTy n) v)
    (fuel : Nat) (name : String) (args : List Val) (input : Bytes) (v : Val) (rest : Bytes)
    (h : Dec.runDecode sch L fuel name args input = .ok (v, rest)) :
    Belongs F sch true (.named name) v := by
  rw [decode_refines sch L hnd] at h
  exact Dec.specDecode_typed hs hL fuel name args input v rest h

/-- **C57.** If the decoders generated from a schema keep to Rust's type rules (`decChecks`: conditions are `bool`,
lengths and counts are numbers, operands of an operator have one type, arguments have the types of the
parameters, …), then, on all inputs and arguments of the declared types, none of them ever does what rustc
rejects: reads a variable that does not exist, uses a value as one of another type, calls a function with
arguments it does not take. -/
theorem checked_decoder_never_ill (F : Sig) (sch : Schema) (L : Dec.Lib)
    (hnd : ∀ d ∈ sch, d.FieldsNodup) (hc : decChecks F sch L.oc = true) (hL : Dec.LibSafe F sch L)
    (fuel : Nat) (name : String) (d : Decl) (hf : sch.find name = some d)
    (hp : d.params.length = (F.params name).length) (args : List Val)
    (ha : ArgsTyped F sch (F.params name) args) (input : Bytes) :
    Dec.runDecode sch L fuel name args input ≠ .error .ill := by
  rw [decode_refines sch L hnd]
  exact (Dec.specDecode_safe hc hL fuel name d args input hf hp ha).ne

/-- **C57, encoders.** If the encoders generated from a schema keep to Rust's type rules (`encChecks`, which
follows the statements of an encoder with the types of its variables), then, on all values and arguments
of the declared types, none of them ever does what rustc rejects: reads a variable that does not exist, that is not assigned yet or
went out of scope, uses a value as one of another type, takes an `Option` for its content. -/
theorem checked_encoder_never_ill (F : Sig) (sch : Schema) (L : Enc.Lib) (hc : Enc.encChecks F sch L.oc = true)
    (hL : Enc.LibSafe F sch L) (fuel : Nat) (name : String) (d : Decl) (hf : sch.find name = some d)
    (hp : d.params.length = (F.params name).length) (args : List Val)
    (ha : ArgsTyped F sch (F.params name) args) (v : Val) (hv : Belongs F sch false (.named name) v) :
    Enc.runEncode sch L fuel name args v ≠ .error .ill := by
  rw [encode_refines sch L]
  exact (Enc.specEncode_safe hc hL fuel name d args v hf hp ha hv).ne

/-- **C57, both.** What a decoder returned can be handed to the encoder of the type, with the same or other arguments:
no type error on the way back either. -/
theorem decoded_value_encodes_without_ill (F : Sig) (sch : Schema) (L : Dec.Lib) (M : Enc.Lib)
    (hnd : ∀ d ∈ sch, d.FieldsNodup) (hs : alignedSchema sch = true)
    (hL : ∀ n vs bs v rest, L.foreign n vs bs = .ok (v, rest) → Belongs F sch true (F.foreignTy n) v)
    (hc : Enc.encChecks F sch M.oc = true) (hM : Enc.LibSafe F sch M) (fuel fuel' : Nat) (name : String)
    (d : Decl) (hf : sch.find name = some d) (hp : d.params.length = (F.params name).length)
    (args args' : List Val) (ha : ArgsTyped F sch (F.params name) args') (input : Bytes) (v : Val) (rest : Bytes)
    (h : Dec.runDecode sch L fuel name args input = .ok (v, rest)) :
    Enc.runEncode sch M fuel' name args' v ≠ .error .ill :=
  checked_encoder_never_ill F sch M hc hM fuel' name d hf hp args' ha v
    (decoded_value_has_declared_type_partial F sch L hnd hs hL fuel name args input v rest h).unranged

/-! ### Cases -/

/-- Only declared types, with the given parameters. -/
def ownSig (params : List (String × List RTy)) : Sig :=
  ⟨fun _ => .str, fun _ => [], fun _ => [], fun n => (params.lookup n).getD []⟩

/-- A foreign type that reads one byte into a string of length one or fails, and a transform that drops one byte. -/
def byteLib : Dec.Lib :=
  ⟨true, fun _ _ bs => match bs with
      | [] => .error (.err "eof")
      | b :: bs => .ok (.str (String.singleton (Char.ofNat b.toNat)), bs),
    fun _ _ bs => match bs with
      | [] => .error (.err "eof")
      | _ :: bs => .ok (bs, [])⟩

theorem byteLib_safe (ps : List (String × List RTy)) (sch : Schema) : Dec.LibSafe (ownSig ps) sch byteLib := by
  refine ⟨?_, ?_, ?_⟩
  · intro n vs bs v rest h
    cases bs with
    | nil => cases h
    | cons b bs => cases h; exact .str
  · intro n vs bs _
    cases bs with
    | nil => exact fun h => by cases h
    | cons b bs => trivial
  · intro n vs bs _
    cases bs with
    | nil => exact fun h => by cases h
    | cons b bs => trivial

def listSource : String := "type a = container { n: u8, s: u16[n], t: u8 { n > 1u8 } };"
def listSchema : Schema := [⟨"a", [], [], .struct none
  (.leaf (plain "n") u8T
  (.leaf (plain "s") (.array u16T (.fixed (.cast .plain (.fieldRef "n") (.scalar .u64))))
  (.leaf ⟨"t", some (.binary .gt (.fieldRef "n") (.int ⟨.u8, 1⟩)), [], none⟩ u8T .nil)))⟩]

theorem list_spec : specOf [] listSource = some listSchema := by decide +kernel
theorem list_nodup : ∀ d ∈ listSchema, d.FieldsNodup := by
  simp [listSchema, Decl.FieldsNodup, Fields.names, Fields.leaves, plain]

/-- From the text to a decoder without type errors, on all inputs. -/
theorem list_decoder_never_ill (fuel : Nat) (input : Bytes) :
    Dec.runDecode listSchema byteLib fuel "a" [] input ≠ .error .ill :=
  checked_decoder_never_ill (ownSig []) listSchema byteLib list_nodup (by decide +kernel) (byteLib_safe _ _)
    fuel "a" _ rfl rfl [] .nil input

/-- What it returns: a number, an array of two-byte numbers, and a byte or nothing. -/
theorem list_decoder_shape (input : Bytes) (v : Val) (rest : Bytes)
    (h : Dec.runDecode listSchema byteLib 1 "a" [] input = .ok (v, rest)) :
    ∃ n s t, v = .struct "a" [("n", .int ⟨.u8, n⟩), ("s", .arr s), ("t", .opt t)] ∧
      (∀ x ∈ s, ∃ m, x = .int ⟨.u16, m⟩ ∧ 0 ≤ m ∧ m ≤ 65535) := by
  have := decoded_value_has_declared_type_partial (ownSig []) listSchema byteLib list_nodup (by decide +kernel)
    (fun n vs bs v rest h => by
      cases bs with
      | nil => cases h
      | cons b bs => cases h; exact .str) 1 "a" [] input v rest h
  cases this with
  | newtype h1 h2 _ => cases h1; cases h2
  | enm h1 h2 _ _ => cases h1; cases h2
  | bits h1 h2 _ => cases h1; cases h2
  | variant h1 h2 _ _ _ => cases h1; cases h2
  | variantS h1 h2 _ _ _ => cases h1; cases h2
  | struct h1 h2 h3 =>
    cases h1
    cases h2
    cases h3 with
    | cons a1 h3 =>
      cases a1
      cases h3 with
      | cons a2 h3 =>
        cases a2 with
        | vec a2 =>
          rename_i s
          have hs : ∀ x ∈ s, ∃ m, x = Val.int ⟨.u16, m⟩ ∧ 0 ≤ m ∧ m ≤ 65535 := by
            intro x hx
            cases a2 x hx with
            | int hr =>
              have := hr rfl
              simp only [Scalar.InRange] at this
              exact ⟨_, rfl, this.1, this.2⟩
          cases h3 with
          | cons a3 h3 =>
            cases h3
            cases a3
            · exact ⟨_, _, _, rfl, hs⟩
            · exact ⟨_, _, _, rfl, hs⟩

example : Dec.runDecode listSchema byteLib 1 "a" [] [2, 0, 1, 1, 0, 7, 9] = .ok (.struct "a"
    [("n", vu8 2), ("s", .arr [vu16 1, vu16 256]), ("t", .opt (some (vu8 7)))], [9]) := by rfl

/-! The larger specification of C55, with an enum as a parameter. -/
#guard ((specOf packetModules packetText).map fun sch => decChecks (ownSig [("Body", [.named "Kind"])]) sch true) == some true

def nestedSchema : Schema := [⟨"a", [], [], .struct none
  (.leaf (plain "f") u8T
  (.cont ⟨"c", some (.binary .gt (.fieldRef "f") (.int ⟨.u8, 0⟩)), [], none⟩ none
    (.leaf ⟨"x", some (.binary .eq (.fieldRef "f") (.int ⟨.u8, 2⟩)), [], none⟩ u8T .nil) .nil))⟩]

def nestedValue : Val := .struct "a" [("f", vu8 2), ("x", .opt (some (.opt (some (vu8 7)))))]

/-- Finding: a condition inside a conditional container. The declared type is `Option<u8>`
(`compiler/mod.rs` 333-370), the decoder builds `Option<Option<u8>>` (`coder/decode/field.rs` 36-80): rustc
rejects what is generated from an accepted specification. -/
theorem nested_condition_finding (F : Sig) :
    specOf [] "type a = container { f: u8, c: container { x: u8 { f == 2u8 } } { f > 0u8 } };" = some nestedSchema ∧
    rustFields F false (.cont ⟨"c", some (.bool true), [], none⟩ none
      (.leaf ⟨"x", some (.bool true), [], none⟩ u8T .nil) .nil) = [("x", .opt (.int .u8))] ∧
    Dec.runDecode nestedSchema noLib 1 "a" [] [2, 7] = .ok (nestedValue, []) ∧
    ¬ Belongs F nestedSchema false (.named "a") nestedValue := by
  refine ⟨by decide +kernel, rfl, rfl, fun h => ?_⟩
  cases h with
  | struct h1 h2 h3 =>
    cases h1
    cases h2
    cases h3 with
    | cons _ h3 =>
      cases h3 with
      | cons h4 _ =>
        cases h4 with
        | some h5 => cases h5

def aliasSchema : Schema := [⟨"t", [], [], .leaf none u8T⟩, ⟨"a", [], [], .struct none
  (.leaf (plain "x") (.array (.ref "t" false (.prim (.scalar ⟨.u8, .big⟩)) []) (.fixed (.int ⟨.u64, 2⟩))) .nil)⟩]

def aliasValue : Val := .struct "a" [("x", .arr [vu8 2, vu8 7])]

/-- Finding: an array of an alias. The declared type is `Vec<t>` with `struct t(u8)`, the decoder builds
`Vec<u8>`, since it looks through the alias (`coder/decode/array.rs` 26-84). -/
theorem alias_array_finding (F : Sig) :
    specOf [] "type t = u8; type a = container { x: t[2] };" = some aliasSchema ∧
    Dec.runDecode aliasSchema noLib 1 "a" [] [2, 7] = .ok (aliasValue, []) ∧
    ¬ Belongs F aliasSchema false (.named "a") aliasValue := by
  refine ⟨by decide +kernel, rfl, fun h => ?_⟩
  cases h with
  | struct h1 h2 h3 =>
    cases h1
    cases h2
    cases h3 with
    | cons h3 _ =>
      cases h3 with
      | vec h4 => cases h4 (vu8 2) (by simp)

/-- Finding: a number of an alias type passes as a length, but is `struct t(u8)` in Rust, which has no
`as u64`. -/
theorem alias_length_finding :
    ((specOf [] "type t = u8; type a = container { n: t, x: u8[n] };").map fun sch =>
      (decChecks (ownSig []) sch true, isIll (Dec.runDecode sch noLib 2 "a" [] [2, 3, 4]))) =
    some (false, true) := by decide +kernel

/-! ### Encoders -/

/-- Foreign types write nothing, transforms write one byte more. -/
def byteEncLib : Enc.Lib := ⟨true, fun _ _ _ => .ok [], fun _ _ bs => .ok (0 :: bs)⟩

theorem byteEncLib_safe (ps : List (String × List RTy)) (sch : Schema) :
    Enc.LibSafe (ownSig ps) sch byteEncLib := ⟨fun _ _ _ _ _ => trivial, fun _ _ _ _ => trivial⟩

/-- The encoder of a text with a calculated length: no type error on any value of the type. -/
theorem counted_encoder_never_ill (fuel : Nat) (n : Int) (data : List Val)
    (hd : ∀ x ∈ data, ∃ k, x = vu8 k) :
    Enc.runEncode countedSchema byteEncLib fuel "p" [] (.struct "p" [("n", vu8 n), ("d", .arr data)]) ≠
      .error .ill := by
  refine checked_encoder_never_ill (ownSig []) countedSchema byteEncLib (by decide +kernel) (byteEncLib_safe _ _)
    fuel "p" _ rfl rfl [] .nil _ (.struct rfl rfl ?_)
  refine .cons ht_int (.cons (.vec fun x hx => ?_) .nil)
  obtain ⟨k, rfl⟩ := hd x hx
  exact ht_int

/-! The larger specification of C55. -/
#guard ((specOf packetModules packetText).map fun sch =>
  Enc.encChecks (ownSig [("Body", [.named "Kind"])]) sch true) == some true

/-- Finding: a field that may be absent passes as a number; in Rust it is an `Option`. -/
theorem conditional_reference_finding :
    ((specOf [] "type a = container { f: bool, x: u8 { f }, y: u8[x] };").map fun sch =>
      (isIll (Dec.runDecode sch noLib 2 "a" [] [1, 1, 1]),
        isIll (Enc.runEncode sch noEncLib 2 "a" []
          (.struct "a" [("f", .bool true), ("x", .opt (some (vu8 1))), ("y", .arr [vu8 1])])))) =
    some (true, true) := by decide +kernel

/-- Finding: `?:` with a result of another type than the field's converts the `Option` before it looks into it
(`(x as u64).unwrap_or(..)`). -/
theorem elvis_conversion_finding :
    ((specOf [] "type a = container { f: bool, x: u8 { f }, y: u8[x ?: 0u8] };").map fun sch =>
      (isIll (Dec.runDecode sch noLib 2 "a" [] [1, 1, 1]), decChecks (ownSig []) sch true)) = some (true, false) ∧
    ((specOf [] "type a = container { f: bool, x: u64 { f }, y: u8[x ?: 0u64] };").map fun sch =>
      (decChecks (ownSig []) sch true, Enc.encChecks (ownSig []) sch true)) = some (true, true) := by decide +kernel

/-- Finding: a calculated field inside a conditional container is calculated before the fields of the
container are known to be present (`coder/encode/container.rs` 40-72): `len(y)` of an `Option`. -/
theorem conditional_calculated_finding :
    ((specOf [] "type a = container { f: bool, c: container { n: u8 = len(y) :> u8, y: u8[n] } { f } };").map
      fun sch => (decChecks (ownSig []) sch true, isIll (Enc.runEncode sch noEncLib 2 "a" [] (.struct "a"
        [("f", .bool true), ("n", .opt (some (vu8 1))), ("y", .opt (some (.arr [vu8 1])))])))) =
    some (true, true) := by decide +kernel

/-- Finding: the length of a conditional container is a variable of the block that writes it, and is used
outside of it. -/
theorem conditional_length_finding :
    ((specOf [] "type a = container { f: bool, n: u8 = blen(d) :> u8, d: container[n] { x: u8 } { f } };").map
      fun sch => (decChecks (ownSig []) sch true, isIll (Enc.runEncode sch noEncLib 2 "a" [] (.struct "a"
        [("f", .bool true), ("n", vu8 1), ("x", .opt (some (vu8 1)))])))) =
    some (true, true) := by decide +kernel

end Verif.Props
