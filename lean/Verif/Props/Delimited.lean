import Verif.Props.Survive
import Verif.Delimited
import Verif.Prelude
/-!
# C61: messages end where they say
-/
namespace Verif.Props
open Verif Verif.Dec

/-- **C61 (partial).** For every schema and every type of it that passes the check `delimited` — no `[..]` and no terminated array
outside of transforms, whatever the nesting, conditions and lengths — and every input: if the decoder returns a value, then with more bytes behind the
input it returns the same value, and the bytes it did not need are left for whoever reads next.

Missing: types that do not pass. For these it is false, `truncated_findings`. -/
theorem bytes_behind_do_not_matter_partial (D : Ends) (sch : Schema) (L : Lib) (hnd : ∀ d ∈ sch, d.FieldsNodup)
    (hc : delimited D sch = true) (hL : LibEnds D L) (name : String) (hn : D.own name = true)
    (fuel : Nat) (args : List Val) (input : Bytes) (v : Val) (rest : Bytes)
    (h : runDecode sch L fuel name args input = .ok (v, rest)) (more : Bytes) :
    runDecode sch L fuel name args (input ++ more) = .ok (v, rest ++ more) := by
  rw [decode_refines sch L hnd] at h ⊢
  exact specDecode_stable hc hL fuel name args hn input v rest h more

/-- **C61, truncated messages (partial).** A message that the decoder reads to its end is not accepted if any number of bytes at
its end are missing. -/
theorem truncated_not_accepted_partial (D : Ends) (sch : Schema) (L : Lib) (hnd : ∀ d ∈ sch, d.FieldsNodup)
    (hc : delimited D sch = true) (hL : LibEnds D L) (name : String) (hn : D.own name = true)
    (fuel : Nat) (args : List Val) (start missing : Bytes) (hm : missing ≠ []) (v : Val)
    (h : runDecode sch L fuel name args (start ++ missing) = .ok (v, [])) :
    ∀ w rest, runDecode sch L fuel name args start ≠ .ok (w, rest) := by
  intro w rest hw
  have := bytes_behind_do_not_matter_partial D sch L hnd hc hL name hn fuel args start w rest hw missing
  rw [h] at this
  simp only [Except.ok.injEq, Prod.mk.injEq] at this
  exact hm (List.append_eq_nil_iff.1 this.2.symm).2

/-- **C61, truncated messages of decoders that survive (partial).** With the check of C59 as well, the decoder returns an `Err` for a truncated message. -/
theorem truncated_is_an_error_partial (D : Ends) (P : Plan) (F : Sig) (sch : Schema) (L : Lib) (hnd : ∀ d ∈ sch, d.FieldsNodup)
    (hc : delimited D sch = true) (hL : LibEnds D L) (hs : survives P F sch L.oc = true) (hS : LibSteady P F sch L)
    (name : String) (hn : D.own name = true) (d : Decl) (hf : sch.find name = some d)
    (hp : d.params.length = (F.params name).length) (args : List Val) (ha : ArgsRanged F sch (F.params name) args)
    (start missing : Bytes) (hm : missing ≠ []) :
    ∃ stack, ∀ fuel, stack ≤ fuel → ∀ v, runDecode sch L fuel name args (start ++ missing) = .ok (v, []) →
      ∃ msg, runDecode sch L fuel name args start = .error (.err msg) := by
  obtain ⟨N, r, hr, hN⟩ := decoder_survives_any_input_partial P F sch L hnd hs hS name d hf hp args ha start
  refine ⟨N, fun fuel hfu v h => ?_⟩
  have hno := truncated_not_accepted_partial D sch L hnd hc hL name hn fuel args start missing hm v h
  rw [hN fuel hfu] at hno ⊢
  rcases hr with ⟨w, rest, rfl, _⟩ | ⟨msg, rfl⟩
  · exact (hno w rest rfl).elim
  · exact ⟨msg, rfl⟩

/-- Reads messages one after the other. -/
def readAll (decode : Bytes → Res (Val × Bytes)) : Nat → Bytes → Res (List Val × Bytes)
  | 0, bs => .ok ([], bs)
  | n + 1, bs => do
    let (v, rest) ← decode bs
    let (vs, rest) ← readAll decode n rest
    .ok (v :: vs, rest)

/-- **C61, streams (partial).** Messages put one behind the other are read one after the other: each gives the value it gives on its own, and
what follows the last one is left. -/
theorem messages_in_sequence_partial (D : Ends) (sch : Schema) (L : Lib) (hnd : ∀ d ∈ sch, d.FieldsNodup)
    (hc : delimited D sch = true) (hL : LibEnds D L) (name : String) (hn : D.own name = true)
    (fuel : Nat) (args : List Val) (messages : List (Bytes × Val))
    (h : ∀ m ∈ messages, runDecode sch L fuel name args m.1 = .ok (m.2, [])) (behind : Bytes) :
    readAll (runDecode sch L fuel name args) messages.length ((messages.map (·.1)).flatten ++ behind)
      = .ok (messages.map (·.2), behind) := by
  induction messages with
  | nil => rfl
  | cons m ms ih =>
    have h1 := bytes_behind_do_not_matter_partial D sch L hnd hc hL name hn fuel args m.1 m.2 [] (h m (by simp))
      ((ms.map (·.1)).flatten ++ behind)
    simp only [List.map_cons, List.flatten_cons, List.append_assoc, List.length_cons, readAll]
    rw [h1]
    simp only [List.nil_append, ok_bind]
    rw [ih fun m hm => h m (by simp [hm])]
    rfl

/-- **C61, no message is the beginning of another (partial).** -/
theorem no_message_begins_another_partial (D : Ends) (sch : Schema) (L : Lib) (hnd : ∀ d ∈ sch, d.FieldsNodup)
    (hc : delimited D sch = true) (hL : LibEnds D L) (name : String) (hn : D.own name = true)
    (fuel : Nat) (args : List Val) (a b : Bytes) (v w : Val) (ha : runDecode sch L fuel name args a = .ok (v, []))
    (hb : runDecode sch L fuel name args b = .ok (w, [])) (hab : a <+: b) : a = b := by
  obtain ⟨more, rfl⟩ := hab
  cases more with
  | nil => simp
  | cons x xs =>
    exact (truncated_not_accepted_partial D sch L hnd hc hL name hn fuel args a (x :: xs) (by simp) w hb v [] ha).elim

/-! ### Cases -/

/-- All types, no foreign types or transforms. -/
def ownEnds : Ends := ⟨fun _ => true, fun _ => false, fun _ => false⟩
theorem ownEnds_lib (L : Lib) : LibEnds ownEnds L := ⟨fun _ _ h => (by cases h), fun _ _ h => (by cases h)⟩

/-- A recursive type with counts: truncated trees are errors. -/
theorem truncated_tree (start missing : Bytes) (hm : missing ≠ []) :
    ∃ stack, ∀ fuel, stack ≤ fuel → ∀ v, runDecode treeSchema byteLib fuel "node" [] (start ++ missing) = .ok (v, []) →
      ∃ msg, runDecode treeSchema byteLib fuel "node" [] start = .error (.err msg) :=
  truncated_is_an_error_partial ownEnds treePlan (ownSig []) treeSchema byteLib tree_nodup (by decide +kernel)
    (ownEnds_lib _) (by decide +kernel) (byteLib_steady _ _ _) "node" rfl _ rfl rfl [] .nil start missing hm

example : runDecode treeSchema byteLib 3 "node" [] [1, 65, 0] = .ok (.struct "node"
    [("kids", vu8 1), ("name", .arr [vu8 65]), ("children", .arr [.struct "node"
      [("kids", vu8 0), ("name", .arr []), ("children", .arr [])]])], []) := by rfl

/-- An unbounded array is delimited by the transform around it, not without one. -/
theorem delimited_by_transform :
    ((specOf [] "import_ffi gzip as transform; type a = container { n: u8, d: u8[..] -> gzip };").map
      (delimited ⟨fun _ => true, fun _ => false, fun n => n == "gzip"⟩)) = some true ∧
    ((specOf [] "import_ffi gzip as transform; type a = container { n: u8, d: u8[..] -> gzip { n > 0u8 } };").map
      (delimited ⟨fun _ => true, fun _ => false, fun n => n == "gzip"⟩)) = some false := by decide +kernel

/-- Finding: truncated messages that are accepted. In order: an array without length in a container with one, `container[n]`, although the message says how
long it is; a terminated array without its terminator. -/
theorem truncated_findings :
    ((specOf [] "type a = container { n: u8, c: container [n] { d: u8[..] } };").map fun sch =>
      (ending (runDecode sch noLib 2 "a" [] [3, 7, 8, 9]), ending (runDecode sch noLib 2 "a" [] [3, 7])))
      = some ("value", "value") ∧
    ((specOf [] "type a = container { d: u8[..\";\"] };").map fun sch =>
      (ending (runDecode sch noLib 2 "a" [] [65, 66, 59]), ending (runDecode sch noLib 2 "a" [] [65])))
      = some ("value", "value") := by decide +kernel

/-! ### The types protospec comes with -/

/-- Decoding with one of the functions of `Prelude.lean`, whose `none` is an `Err`. -/
def preludeDecode {α} (toVal : α → Val) (f : Bytes → Option (α × Bytes)) (bs : Bytes) : Res (Val × Bytes) :=
  match f bs with
  | some (a, rest) => .ok (toVal a, rest)
  | none => .error (.err "prelude")

theorem preludeDecode_stable {α} (toVal : α → Val) {f : Bytes → Option (α × Bytes)}
    (h : ∀ bs a rest, f bs = some (a, rest) → ∀ more, f (bs ++ more) = some (a, rest ++ more)) :
    Stable (preludeDecode toVal f) := by
  intro bs a rest hr more
  unfold preludeDecode at hr ⊢
  cases hf : f bs with
  | none => rw [hf] at hr; cases hr
  | some r =>
    rw [hf] at hr
    cases hr
    rw [h bs r.1 r.2 hf more]

theorem varDecLoop_behind (k : Scalar) : ∀ bs i out a rest, varDecLoop k i out bs = some (a, rest) →
    ∀ more, varDecLoop k i out (bs ++ more) = some (a, rest ++ more) := by
  intro bs
  induction bs with
  | nil => intro i out a rest h; cases h
  | cons b bs ih =>
    intro i out a rest h more
    simp only [varDecLoop, List.cons_append] at h ⊢
    split at h
    · rename_i hi
      cases h
      rw [if_pos hi]
    · rename_i hi
      rw [if_neg hi]
      split at h
      · rename_i hb
        rw [if_pos hb]
        exact ih _ _ _ _ h more
      · rename_i hb
        cases h
        rw [if_neg hb]

/-- Variable-length integers of any type end where they say: the hypothesis of C61 holds of them. -/
theorem varint_ends (k : Scalar) (toVal : Int → Val) : Stable (preludeDecode toVal (varDecode k)) := by
  refine preludeDecode_stable toVal fun bs a rest h more => ?_
  unfold varDecode at h ⊢
  cases hl : varDecLoop k 0 0 bs with
  | none => rw [hl] at h; cases h
  | some r =>
    rw [hl] at h
    cases h
    rw [varDecLoop_behind k bs 0 0 r.1 r.2 hl more]
    rfl

/-- So do `utf8(len)` strings. -/
theorem utf8_length_ends (len : Nat) (toVal : String → Val) : Stable (preludeDecode toVal (utf8DecodeLen len)) := by
  refine preludeDecode_stable toVal fun bs a rest h more => ?_
  unfold utf8DecodeLen at h ⊢
  split at h
  · cases h
  · rename_i hl
    rw [if_neg (by simp; omega), List.take_append_of_le_length (by omega), List.drop_append_of_le_length (by omega)]
    cases hs : strOfBytes (bs.take len) with
    | none => rw [hs] at h; cases h
    | some s =>
      rw [hs] at h
      cases h
      rfl

/-- And `utf16(len)` strings. -/
theorem utf16_length_ends (native : Endian) (len : Nat) (toVal : String → Val) :
    Stable (preludeDecode toVal (utf16Decode native len)) := by
  refine preludeDecode_stable toVal fun bs a rest h more => ?_
  unfold utf16Decode at h ⊢
  split at h
  · cases h
  · rename_i hl
    rw [if_neg (by simp; omega), List.take_append_of_le_length (by omega), List.drop_append_of_le_length (by omega)]
    cases hs : charsOfUnits (unitsOf native (bs.take (2 * len))) with
    | none => rw [hs] at h; cases h
    | some s =>
      rw [hs] at h
      cases h
      rfl

/-- Finding: `utf8` without a length does not: a string whose zero byte is missing is accepted. -/
theorem nul_string_truncated_finding :
    utf8DecodeNul [65, 66, 0] = some ("AB", []) ∧ utf8DecodeNul [65] = some ("A", []) := by decide +kernel

end Verif.Props
