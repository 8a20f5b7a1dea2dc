import Verif.Props.Forth
import Verif.Fail
/-!
# C67: readers that fail
-/
namespace Verif.Props
open Verif Verif.Dec

/-- **C67, a failure is not an end.** If a decoder returns a value on a reader that delivers `input` and then fails, the value does not depend on what
would have come instead of the failure: it is what the decoder returns on every continuation of `input`, and nothing of the continuation is
read. So what is there after a lost connection is never taken for the whole message; all schemas, `[..]` and terminated arrays included. -/
theorem failure_is_not_the_end (sch : Schema) (L : Lib) (LF : LibF) (hL : LibFails false L LF) (fuel : Nat) (name : String) (args : List Val)
    (input : Bytes) (v : Val) (rest : Bytes) (h : runDecodeF sch L LF fuel name args input = .ok (v, rest)) (more : Bytes) :
    runDecode sch L fuel name args (input ++ more) = .ok (v, rest ++ more) :=
  (runDecode_fails hL (fun h => by cases h) fuel name args input more).1 v rest h

/-- **C67, an interrupted message is no value.** If a message reaches into what comes after `input`, the decoder does not return
a value on a reader that fails after `input`. It returns an error, or, in front of half a terminator, hangs as at the end of the input
(`half_terminator_finding`). -/
theorem interrupted_is_no_value (sch : Schema) (L : Lib) (LF : LibF) (hL : LibFails false L LF) (fuel : Nat) (name : String) (args : List Val)
    (input more : Bytes) (v : Val) (rest : Bytes) (h : runDecode sch L fuel name args (input ++ more) = .ok (v, rest))
    (hr : rest.length < more.length) : ∃ e, runDecodeF sch L LF fuel name args input = .error e := by
  cases hF : runDecodeF sch L LF fuel name args input with
  | error e => exact ⟨e, rfl⟩
  | ok p =>
    obtain ⟨w, r⟩ := p
    have := failure_is_not_the_end sch L LF hL fuel name args input w r hF more
    rw [h] at this
    cases this
    simp only [List.length_append] at hr
    omega

/-- **C67, a failure behind the message does not matter.** If the decoder returns a value on a reader that ends after `input`, and there is at least
one byte left, it returns this value on a reader that fails after `input`: it does not ask for more than the message. -/
theorem failure_behind_the_message (sch : Schema) (L : Lib) (LF : LibF) (hL : LibFails false L LF) (fuel : Nat) (name : String) (args : List Val)
    (input : Bytes) (v : Val) (rest : Bytes) (h : runDecode sch L fuel name args input = .ok (v, rest)) (hr : rest ≠ []) :
    runDecodeF sch L LF fuel name args input = .ok (v, rest) := by
  have hf := runDecode_fails (sch := sch) hL (fun h => by cases h) fuel name args input []
  rw [List.append_nil] at hf
  cases hF : runDecodeF sch L LF fuel name args input with
  | error e =>
    have := hf.2 e hF (.inr rfl) v rest h
    simp only [List.length_nil] at this
    have := List.length_pos_iff.2 hr
    omega
  | ok p =>
    obtain ⟨w, r⟩ := p
    have := hf.1 w r hF
    rw [h, List.append_nil] at this
    exact this.symm

/-- **C67, a failure right behind the message (partial).** If no terminator is empty, the failure may come directly behind the message: if the decoder leaves
untouched what comes after `input`, it returns the same value if the reader fails there.

Missing: terminators that are the empty string, for which it is false (`empty_terminator_fails`), and terminators that are not written as a literal. -/
theorem failure_right_behind_the_message_partial (sch : Schema) (hs : fullTerminators sch = true) (L : Lib) (LF : LibF) (hL : LibFails true L LF)
    (fuel : Nat) (name : String) (args : List Val) (input more : Bytes) (hm : more ≠ []) (v : Val) (rest : Bytes)
    (h : runDecode sch L fuel name args (input ++ more) = .ok (v, rest)) (hr : more.length ≤ rest.length) :
    ∃ left, rest = left ++ more ∧ runDecodeF sch L LF fuel name args input = .ok (v, left) := by
  have hf := runDecode_fails hL (fun _ d hd => genDecl_full (List.all_eq_true.1 hs d hd)) fuel name args input more
  cases hF : runDecodeF sch L LF fuel name args input with
  | error e =>
    have := hf.2 e hF (.inl rfl) v rest h
    have := List.length_pos_iff.2 hm
    omega
  | ok p =>
    obtain ⟨w, r⟩ := p
    have := hf.1 w r hF
    rw [h] at this
    cases this
    exact ⟨r, rfl, rfl⟩

/-- **C67, exactly (partial).** If no terminator is empty, what a decoder returns on a reader that fails after `input` is what it returns on a
longer input without touching the rest: nothing else, and all of it. Missing as before. -/
theorem failing_reader_iff_partial (sch : Schema) (hs : fullTerminators sch = true) (L : Lib) (LF : LibF) (hL : LibFails true L LF)
    (fuel : Nat) (name : String) (args : List Val) (input more : Bytes) (hm : more ≠ []) (v : Val) (left : Bytes) :
    runDecodeF sch L LF fuel name args input = .ok (v, left) ↔
      runDecode sch L fuel name args (input ++ more) = .ok (v, left ++ more) := by
  constructor
  · exact fun h => (runDecode_fails hL (fun _ d hd => genDecl_full (List.all_eq_true.1 hs d hd)) fuel name args input more).1 v left h
  · intro h
    obtain ⟨l, hl, h⟩ := failure_right_behind_the_message_partial sch hs L LF hL fuel name args input more hm v _ h
      (by rw [List.length_append]; omega)
    rw [List.append_cancel_right hl]
    exact h

theorem weaken_fails {α} {f fF : Bytes → Res (α × Bytes)} (h : Fails true f fF) : Fails false f fF :=
  fun bs m => ⟨(h bs m).1, fun e he _ => (h bs m).2 e he (.inl rfl)⟩

theorem weaken_lib {L : Lib} {LF : LibF} (h : LibFails true L LF) : LibFails false L LF :=
  ⟨h.shr, fun n vs => weaken_fails (h.foreign n vs), fun n vs => weaken_fails (h.xform n vs)⟩

/-! ### Cases -/

def noLibF : LibF := ⟨fun _ _ _ => .error .ill, fun _ _ _ => .error .ill⟩

theorem ill_fails {α} : Fails true (fun _ => (.error .ill : Res (α × Bytes))) (fun _ => .error .ill) :=
  fun _ _ => ⟨fun _ _ h => (by cases h), fun _ _ _ _ _ h => (by cases h)⟩

theorem noLib_fails : LibFails true noLib noLibF :=
  ⟨⟨fun _ _ _ _ _ h => (by cases h), fun _ _ _ _ _ h => (by cases h)⟩, fun _ _ => ill_fails, fun _ _ => ill_fails⟩

/-- Where the decoder stops at the end of the input and at a failure. -/
def endings (sch : Schema) (name : String) (input : Bytes) : String × String :=
  (ending (runDecode sch noLib 3 name [] input), ending (runDecodeF sch noLib noLibF 3 name [] input))

/-- The messages that `truncated_findings` (C61) accepts at the end of the input are errors at a failure. -/
theorem failing_reader_cases :
    ((specOf [] "type a = container { n: u8, c: container [n] { d: u8[..] }, e: u8 };").map fun sch =>
      (endings sch "a" [3, 7, 8, 9, 1], endings sch "a" [3, 7, 8, 9], endings sch "a" [3, 7])) =
      some (("value", "value"), ("error", "error"), ("error", "error")) ∧
    ((specOf [] "type a = container { n: u8, c: container [n] { d: u8[..] } };").map fun sch =>
      (endings sch "a" [3, 7, 8, 9], endings sch "a" [3, 7])) = some (("value", "value"), ("value", "error")) ∧
    ((specOf [] "type a = container { d: u8[..\";\"] };").map fun sch =>
      (endings sch "a" [65, 66, 59], endings sch "a" [65])) = some (("value", "value"), ("value", "error")) ∧
    ((specOf [] "type a = container { d: u16[..] };").map fun sch => endings sch "a" [0, 1]) = some ("value", "error") := by
  decide +kernel

/-- An array that ends with the empty string looks at the reader before it finds that there is nothing to find. -/
theorem empty_terminator_fails :
    ((specOf [] "type a = container { d: u8[..\"\"] };").map fun sch =>
      (ending (runDecode sch noLib 3 "a" [] [9]), endings sch "a" [])) = some ("value", ("value", "error")) := by decide +kernel

/-- Finding: the failure of the reader is not noticed if part of a terminator of two bytes is there: `fill_buf` goes on showing it. -/
theorem half_terminator_finding :
    ((specOf [] "type a = container { d: u8[..\"--\"] };").map fun sch => (endings sch "a" [65, 45, 45], endings sch "a" [65, 45], endings sch "a" [65])) =
      some (("value", "value"), ("endless", "endless"), ("endless", "endless")) := by decide +kernel

theorem demo_fullTerminators : fullTerminators demoSchema = true := by decide +kernel

/-- The hypotheses are met: a failure directly behind a list. -/
theorem list_before_a_failure : ∃ v, runDecodeF demoSchema noLib noLibF 2 "list" [] [6, 2, 1, 7, 8, 0, 9] = .ok (v, []) := by
  have h : ∃ v, runDecode demoSchema noLib 2 "list" [] ([6, 2, 1, 7, 8, 0, 9] ++ [99]) = .ok (v, [99]) := by
    rw [decode_refines demoSchema noLib demo_nodup]
    exact ⟨_, rfl⟩
  obtain ⟨v, h⟩ := h
  obtain ⟨left, hl, h⟩ := failure_right_behind_the_message_partial demoSchema demo_fullTerminators noLib noLibF noLib_fails 2 "list" []
    [6, 2, 1, 7, 8, 0, 9] [99] (by simp) v [99] h (by simp)
  have : left = [] := by
    have := congrArg List.length hl
    simp at this
    exact this
  rw [this] at h
  exact ⟨v, h⟩

/-- A text, its lines ended by two bytes, directly behind a number of them, and the whole closed by a byte. -/
def lineSource : String := "type a = container { n: u8, lines: u8[..\"--\"][n], rest: u16[..\";\"] };"

/-- The hypotheses are met by terminated arrays: the failure comes directly behind the last terminator. The same without terminators in the
message is an error or hangs. -/
theorem lines_before_a_failure :
    ((specOf [] lineSource).map fun sch => (fullTerminators sch,
      (runDecode sch noLib 3 "a" [] ([2, 65, 45, 45, 66, 45, 45, 1, 2, 59] ++ [45])).toOption.map (·.2),
      endings sch "a" [2, 65, 45, 45, 66, 45, 45, 1, 2, 59], endings sch "a" [2, 65, 45, 45, 66, 45, 45, 1, 2])) =
      some (true, some [45], ("value", "value"), ("value", "error")) := by decide +kernel

/-- For every input: a text of lines that is followed by something is a text before a failure. -/
theorem lines_before_any_failure (sch : Schema) (h : specOf [] lineSource = some sch) (fuel : Nat) (input more : Bytes) (hm : more ≠ []) (v : Val)
    (left : Bytes) : runDecodeF sch noLib noLibF fuel "a" [] input = .ok (v, left) ↔
      runDecode sch noLib fuel "a" [] (input ++ more) = .ok (v, left ++ more) := by
  refine failing_reader_iff_partial sch ?_ noLib noLibF noLib_fails fuel "a" [] input more hm v left
  have := lines_before_a_failure
  rw [h] at this
  cases hf : fullTerminators sch with
  | true => rfl
  | false => rw [Option.map_some, hf] at this; cases this

/-- A list is an error if the reader fails anywhere before its end. -/
theorem interrupted_list (input more : Bytes) (hm : more ≠ []) (v : Val)
    (h : runDecode demoSchema noLib 2 "list" [] (input ++ more) = .ok (v, [])) :
    ∃ e, runDecodeF demoSchema noLib noLibF 2 "list" [] input = .error e :=
  interrupted_is_no_value demoSchema noLib noLibF (weaken_lib noLib_fails) 2 "list" [] input more v [] h (List.length_pos_iff.2 hm)

/-! ### The strings protospec comes with -/

/-- `prelude/utf8.rs` 29-59 on a reader that fails: `read_exact` as before; `read_until` is an error if there is no zero byte. -/
def utf8DecF (args : List Val) (bs : Bytes) : Res (Val × Bytes) :=
  match args with
  | [] => if 0 ∈ bs then utf8Dec [] bs else .error ioFault
  | _ => utf8Dec args bs

theorem readUntilNul_found {bs : Bytes} (h : (0 : UInt8) ∈ bs) (m : Bytes) :
    readUntilNul (bs ++ m) = ((readUntilNul bs).1, (readUntilNul bs).2 ++ m) := by
  induction bs with
  | nil => cases h
  | cons b bs ih =>
    simp only [List.cons_append, readUntilNul]
    by_cases hb : b = 0
    · simp [hb]
    · have h2 : (0 : UInt8) ∈ bs := by
        rcases List.mem_cons.1 h with h | h
        · exact (hb h.symm).elim
        · exact h
      simp only [hb, if_false, ih h2]

theorem readUntilNul_missing {bs : Bytes} (h : (0 : UInt8) ∉ bs) (m : Bytes) :
    readUntilNul (bs ++ m) = (bs ++ (readUntilNul m).1, (readUntilNul m).2) := by
  induction bs with
  | nil => rfl
  | cons b bs ih =>
    have hb : b ≠ 0 := fun e => h (by rw [e]; exact List.mem_cons_self)
    simp only [List.cons_append, readUntilNul, hb, if_false, ih (fun h2 => h (List.mem_cons_of_mem _ h2))]

theorem readUntilNul_le (bs : Bytes) : (readUntilNul bs).2.length ≤ bs.length ∧ (bs ≠ [] → (readUntilNul bs).2.length < bs.length) := by
  induction bs with
  | nil => exact ⟨Nat.le_refl _, fun h => (h rfl).elim⟩
  | cons b bs ih =>
    simp only [readUntilNul]
    split
    · simp
    · simp only [List.length_cons]
      exact ⟨by omega, fun _ => by omega⟩

theorem utf8_fails (args : List Val) : Fails true (utf8Dec args) (utf8DecF args) := by
  intro bs m
  unfold utf8DecF utf8Dec preludeDecode
  split
  · by_cases h0 : (0 : UInt8) ∈ bs
    · rw [if_pos h0]
      simp only [utf8DecodeNul, readUntilNul_found h0]
      cases strOfBytes (readUntilNul bs).1 with
      | none => exact ⟨fun _ _ h => (by cases h), fun _ _ _ _ _ h => (by cases h)⟩
      | some s => exact ⟨fun _ _ h => (by cases h; rfl), fun _ h => (by cases h)⟩
    · rw [if_neg h0]
      refine ⟨fun _ _ h => (by cases h), fun e _ _ a r h => ?_⟩
      simp only [utf8DecodeNul, readUntilNul_missing h0] at h
      cases hs : strOfBytes (bs ++ (readUntilNul m).1) with
      | none => rw [hs] at h; cases h
      | some s =>
        rw [hs] at h
        cases h
        cases m with
        | nil => exact Nat.lt_of_lt_of_le Nat.zero_lt_one (Nat.le_max_left _ _)
        | cons b m =>
          exact Nat.lt_of_lt_of_le ((readUntilNul_le (b :: m)).2 (by simp)) (Nat.le_max_right _ _)
  · split
    · contradiction
    · rename_i i _
      simp only [utf8DecodeLen]
      by_cases hl : bs.length < i.val.toNat
      · rw [if_pos hl]
        refine ⟨fun _ _ h => (by cases h), fun e _ _ a r h => ?_⟩
        split at h
        · rename_i hm
          split at hm
          · cases hm
          · obtain ⟨s, _, hm⟩ := Option.map_eq_some_iff.1 hm
            cases hm
            cases h
            simp only [List.length_drop, List.length_append] at *
            omega
        · cases h
      · rw [if_neg hl, if_neg (by rw [List.length_append]; omega), List.take_append_of_le_length (by omega), List.drop_append_of_le_length (by omega)]
        cases strOfBytes (bs.take i.val.toNat) with
        | none => exact ⟨fun _ _ h => (by cases h), fun _ _ _ _ _ h => (by cases h)⟩
        | some s => exact ⟨fun _ _ h => (by cases h; rfl), fun _ h => (by cases h)⟩
    · exact ⟨fun _ _ h => (by cases h), fun _ _ _ _ _ h => (by cases h)⟩

theorem utf8_noMore (args : List Val) : NoMore (utf8Dec args) := by
  intro bs a r h
  unfold utf8Dec preludeDecode at h
  split at h
  · split at h
    · rename_i hm
      obtain ⟨s, _, hm⟩ := Option.map_eq_some_iff.1 hm
      cases hm
      cases h
      exact (readUntilNul_le bs).1
    · cases h
  · split at h
    · rename_i hm
      unfold utf8DecodeLen at hm
      split at hm
      · cases hm
      · obtain ⟨s, _, hm⟩ := Option.map_eq_some_iff.1 hm
        cases hm
        cases h
        simp
    · cases h
  · cases h

def utf8LibF : LibF := ⟨fun n args => if n = "utf8" then utf8DecF args else fun _ => .error .ill, fun _ _ _ => .error .ill⟩

theorem utf8Lib_fails : LibFails true utf8Lib utf8LibF := by
  refine ⟨⟨fun n vs => ?_, fun _ _ _ _ _ h => (by cases h)⟩, fun n vs => ?_, fun _ _ => ill_fails⟩
  · simp only [utf8Lib]
    split
    · exact utf8_noMore vs
    · intro _ _ _ h; cases h
  · simp only [utf8Lib, utf8LibF]
    split
    · exact utf8_fails vs
    · exact ill_fails

/-- A string without its zero byte is a string at the end of the input (C61) and an error at a failure. -/
theorem interrupted_string_case :
    utf8DecodeNul [65] = some ("A", []) ∧
    (match utf8DecF [] [65] with | .ok _ => "value" | .error _ => "error") = "error" ∧
    (match utf8DecF [] [65, 0] with | .ok _ => "value" | .error _ => "error") = "value" := by decide +kernel

/-- Strings of all lengths: what is there when the connection is lost is not taken for the message. -/
theorem interrupted_texts (input more : Bytes) (v : Val) (hm : more ≠ []) (h : runDecode stringSchema utf8Lib 1 "m" [] (input ++ more) = .ok (v, [])) :
    ∃ e, runDecodeF stringSchema utf8Lib utf8LibF 1 "m" [] input = .error e :=
  interrupted_is_no_value stringSchema utf8Lib utf8LibF (weaken_lib utf8Lib_fails) 1 "m" [] input more v [] h (List.length_pos_iff.2 hm)

example : (runDecode stringSchema utf8Lib 1 "m" [] ([1, 65, 66] ++ [0, 9])).toOption.map (·.2) = some [] := by decide +kernel

end Verif.Props
