import Verif.Forth
import Verif.Props.Lossless
/-!
# C66: encoding what was decoded gives the same bytes
-/
namespace Verif.Props
open Verif Verif.Dec

/-- **C66 (partial).** For every schema and every type of it that passes the checks — nothing is lost (C65), no calculated fields, no conditions inside
containers with a condition, expressions over fields that are in scope, lengths of containers below `2 ^ 32` —, and every input: if the decoder reads a
value, the encoder accepts it and writes the very bytes that were read.

Missing: types that do not pass: `forth_findings`. -/
theorem encode_after_decode_partial (K : Lossless) (sch : Schema) (LD : Lib) (LE : Enc.Lib) (hnd : ∀ d ∈ sch, d.FieldsNodup)
    (hL : Forth.LibForth K false LD LE) (hf : Forth.forth K false LD.oc sch = true) (name : String) (hn : K.own false name = true)
    (fuel : Nat) (args : List Val) (input : Bytes) (v : Val) (rest : Bytes) (h : runDecode sch LD fuel name args input = .ok (v, rest)) :
    ∃ message, Enc.runEncode sch LE fuel name args v = .ok message ∧ input = message ++ rest := by
  rw [decode_refines sch LD hnd] at h
  obtain ⟨w, h1, h2⟩ := Forth.specEncode_forth hL hf fuel false name args hn input v rest h (fun h => by cases h)
  exact ⟨w, by rw [encode_refines]; exact Forth.Gives.eq_ok h2, h1⟩

/-- **C66, terminators (partial).** The same for types that may end with a terminator, if the message is not the end of the input. -/
theorem encode_after_decode_before_more_partial (K : Lossless) (sch : Schema) (LD : Lib) (LE : Enc.Lib) (hnd : ∀ d ∈ sch, d.FieldsNodup)
    (hL : Forth.LibForth K false LD LE) (hf : Forth.forth K false LD.oc sch = true) (name : String) (hn : K.own true name = true)
    (fuel : Nat) (args : List Val) (input : Bytes) (v : Val) (rest : Bytes) (hr : rest ≠ [])
    (h : runDecode sch LD fuel name args input = .ok (v, rest)) :
    ∃ message, Enc.runEncode sch LE fuel name args v = .ok message ∧ input = message ++ rest := by
  rw [decode_refines sch LD hnd] at h
  obtain ⟨w, h1, h2⟩ := Forth.specEncode_forth hL hf fuel true name args hn input v rest h (fun _ => hr)
  exact ⟨w, by rw [encode_refines]; exact Forth.Gives.eq_ok h2, h1⟩

/-- **C66, large lengths (partial).** Without the condition on lengths the encoder may fail, but it never writes anything else than what was read. -/
theorem encode_after_decode_or_fails_partial (K : Lossless) (sch : Schema) (LD : Lib) (LE : Enc.Lib) (hnd : ∀ d ∈ sch, d.FieldsNodup)
    (hL : Forth.LibForth K true LD LE) (hf : Forth.forth K true LD.oc sch = true) (name : String) (hn : K.own false name = true)
    (fuel : Nat) (args : List Val) (input : Bytes) (v : Val) (rest : Bytes) (h : runDecode sch LD fuel name args input = .ok (v, rest))
    (message : Bytes) (he : Enc.runEncode sch LE fuel name args v = .ok message) : input = message ++ rest := by
  rw [decode_refines sch LD hnd] at h
  obtain ⟨w, h1, h2⟩ := Forth.specEncode_forth hL hf fuel false name args hn input v rest h (fun h => by cases h)
  rw [encode_refines] at he
  rw [he] at h2
  rw [h1, show message = w from h2]

/-- Messages of one type, one after the other. -/
def decodeMany (dec : Bytes → Res (Val × Bytes)) : Nat → Bytes → Res (List Val × Bytes)
  | 0, bs => .ok ([], bs)
  | n + 1, bs => do
    let (v, bs) ← dec bs
    let (vs, bs) ← decodeMany dec n bs
    .ok (v :: vs, bs)

def encodeMany (enc : Val → Res Bytes) : List Val → Res Bytes
  | [] => .ok []
  | v :: vs => do
    let b ← enc v
    let bs ← encodeMany enc vs
    .ok (b ++ bs)

/-- **C66, streams (partial).** A relay that reads messages and writes them again passes on the bytes it was sent, however many messages there are. -/
theorem relayed_unchanged_partial (K : Lossless) (sch : Schema) (LD : Lib) (LE : Enc.Lib) (hnd : ∀ d ∈ sch, d.FieldsNodup)
    (hL : Forth.LibForth K false LD LE) (hf : Forth.forth K false LD.oc sch = true) (name : String) (hn : K.own false name = true)
    (fuel : Nat) (args : List Val) : ∀ (n : Nat) (input : Bytes) (vs : List Val) (rest : Bytes),
      decodeMany (runDecode sch LD fuel name args) n input = .ok (vs, rest) →
      ∃ messages, encodeMany (Enc.runEncode sch LE fuel name args) vs = .ok messages ∧ input = messages ++ rest
  | 0, input, vs, rest, h => by cases h; exact ⟨[], rfl, rfl⟩
  | n + 1, input, vs, rest, h => by
    unfold decodeMany at h
    obtain ⟨⟨v, b⟩, h1, h⟩ := res_bind_inv h
    obtain ⟨⟨ws, b'⟩, h2, h⟩ := res_bind_inv h
    cases h
    obtain ⟨m, e1, rfl⟩ := encode_after_decode_partial K sch LD LE hnd hL hf name hn fuel args input v b h1
    obtain ⟨ms, e2, h3⟩ := relayed_unchanged_partial K sch LD LE hnd hL hf name hn fuel args n b ws rest h2
    exact ⟨m ++ ms, by simp only [encodeMany, e1, e2, ok_bind], by rw [h3, List.append_assoc]⟩

/-! ### Cases -/

theorem ownLossless_forth (l oc : Bool) (f g x y) : Forth.LibForth ownLossless l ⟨oc, f, x⟩ ⟨oc, g, y⟩ :=
  ⟨rfl, ownLossless_lib _, fun _ _ _ h => by cases h⟩

theorem demo_nodup : ∀ d ∈ demoSchema, d.FieldsNodup := by
  simp [demoSchema, Decl.FieldsNodup, itemDecl, listDecl, Fields.names, Fields.leaves, plain]

theorem demo_forth : Forth.forth ownLossless false true demoSchema = true := by decide +kernel

/-- A condition, an array with a length, a container with a length: for every input. -/
theorem list_forwarded (fuel : Nat) (input : Bytes) (v : Val) (rest : Bytes)
    (h : runDecode demoSchema noLib fuel "list" [] input = .ok (v, rest)) :
    ∃ message, Enc.runEncode demoSchema noEncLib fuel "list" [] v = .ok message ∧ input = message ++ rest :=
  encode_after_decode_partial ownLossless demoSchema noLib noEncLib demo_nodup (ownLossless_forth false true _ _ _ _) demo_forth "list" rfl
    fuel [] input v rest h

example : runDecode demoSchema noLib 2 "list" [] [6, 2, 1, 7, 8, 0, 9, 99] =
    .ok (listVal 6 (itemVal 1 [vu8 7, vu8 8] (some 9)), [99]) := by rfl
example : Enc.runEncode demoSchema noEncLib 2 "list" [] (listVal 6 (itemVal 1 [vu8 7, vu8 8] (some 9))) = .ok [6, 2, 1, 7, 8, 0, 9] := by rfl

/-- The recursive type of C59. -/
theorem tree_forwarded (fuel : Nat) (input : Bytes) (v : Val) (rest : Bytes)
    (h : runDecode treeSchema byteLib fuel "node" [] input = .ok (v, rest)) :
    ∃ message, Enc.runEncode treeSchema noEncLib fuel "node" [] v = .ok message ∧ input = message ++ rest :=
  encode_after_decode_partial ownLossless treeSchema byteLib noEncLib tree_nodup (ownLossless_forth false true _ _ _ _) (by decide +kernel) "node" rfl
    fuel [] input v rest h

/-- Texts that pass, and why others do not: `u16[..]` in the first loses bytes (C65), with `u8[..]` the text passes; a calculated field; the length of a
container in 64 bits, which only the weaker check of `encode_after_decode_or_fails_partial` lets through; a condition inside a container with a condition. -/
theorem forth_texts :
    ((specOf [] "type t = enum i8 { a = 1, b = 2 }; type m = container { n: u8, s: u8[..\";\"], k: t[n], h: container [n] { y: u8, x: u16[..] { y > 1u8 } }, g: container { z: u8, c: container { i: u16 } } { n > 1u8 }, d: u32 };").map
      (Forth.forth ownLossless false true)) = some false ∧
    ((specOf [] "type t = enum i8 { a = 1, b = 2 }; type m = container { n: u8, s: u8[..\";\"], k: t[n], h: container [n] { y: u8, x: u8[..] { y > 1u8 } }, g: container { z: u8, c: container { i: u16 } } { n > 1u8 }, d: u32 };").map
      (Forth.forth ownLossless false true)) = some true ∧
    ((specOf [] "type m = container { n: u8 = 3u8, x: u8 };").map (Forth.forth ownLossless true true)) = some false ∧
    ((specOf [] "type m = container { n: u64, c: container [n] { x: u8[..] } };").map
      fun s => (Forth.forth ownLossless false true s, Forth.forth ownLossless true true s)) = some (false, true) ∧
    ((specOf [] "type m = container { n: u8, c: container { x: u8, y: u8 { x > 1u8 } } { n > 1u8 } };").map (Forth.forth ownLossless true true)) = some false := by
  decide +kernel

/-- `container { n: u64, c: container [n] { x: u8 } }` -/
def longSchema : Schema :=
  [⟨"a", [], [], .struct none (.leaf (plain "n") (.prim (.scalar ⟨.u64, .big⟩))
    (.cont (plain "c") (some (.fieldRef "n")) (.leaf (plain "x") u8T .nil) .nil))⟩]

/-- `container { n: u8 = 3u8, x: u8 }` -/
def threeSchema : Schema :=
  [⟨"a", [], [], .struct none (.leaf ⟨"n", none, [], some (.int ⟨.u8, 3⟩)⟩ u8T (.leaf (plain "x") u8T .nil))⟩]

/-- `container { n: u64, x: u16[n] }` -/
def wrapSchema : Schema :=
  [⟨"a", [], [], .struct none (.leaf (plain "n") (.prim (.scalar ⟨.u64, .big⟩)) (.leaf (plain "x") (.array u16T (.fixed (.fieldRef "n"))) .nil))⟩]

/-- Findings: messages that are decoded and then not encoded to the same bytes. In order: the encoder of a container reserves as many bytes as its length
says, the decoder does not read them: 2 ^ 63 is a length that decodes, but the encoder panics; what is read for a calculated field is not checked, and
another value is written for it; in a build without overflow checks the decoder multiplies the count of elements with their size modulo 2 ^ 64, and the
encoder compares the count itself. -/
theorem forth_findings :
    (runDecode longSchema noLib 1 "a" [] [128, 0, 0, 0, 0, 0, 0, 0, 7] = .ok (.struct "a" [("n", .int ⟨.u64, 2 ^ 63⟩), ("x", vu8 7)], []) ∧
      Enc.runEncode longSchema noEncLib 1 "a" [] (.struct "a" [("n", .int ⟨.u64, 2 ^ 63⟩), ("x", vu8 7)]) = .error .panic) ∧
    (runDecode threeSchema noLib 1 "a" [] [5, 7] = .ok (.struct "a" [("n", vu8 5), ("x", vu8 7)], []) ∧
      Enc.runEncode threeSchema noEncLib 1 "a" [] (.struct "a" [("n", vu8 5), ("x", vu8 7)]) = .ok [3, 7]) ∧
    (runDecode wrapSchema { noLib with oc := false } 1 "a" [] [128, 0, 0, 0, 0, 0, 0, 0] =
        .ok (.struct "a" [("n", .int ⟨.u64, 2 ^ 63⟩), ("x", .arr [])], []) ∧
      Enc.runEncode wrapSchema { noEncLib with oc := false } 1 "a" [] (.struct "a" [("n", .int ⟨.u64, 2 ^ 63⟩), ("x", .arr [])]) = .error .miscount) :=
  ⟨⟨rfl, rfl⟩, ⟨rfl, rfl⟩, ⟨rfl, rfl⟩⟩

/-! ### The types protospec comes with -/

/-- A foreign type of which everything that is read is the text of what was made of it satisfies the hypothesis of C66. -/
theorem preludeDecode_back {α} {l t : Bool} {toVal : α → Val} {f : Bytes → Option (α × Bytes)} {text : α → Bytes} {enc : Val → Res Bytes}
    (he : ∀ a, enc (toVal a) = .ok (text a))
    (h : ∀ bs a rest, f bs = some (a, rest) → (t = true → rest ≠ []) → bs = text a ++ rest) : Forth.Back l t (preludeDecode toVal f) enc := by
  intro bs v r hd ht
  unfold preludeDecode at hd
  cases hf : f bs with
  | none => rw [hf] at hd; cases hd
  | some p =>
    rw [hf] at hd
    cases hd
    exact ⟨text p.1, h _ _ _ hf ht, by rw [he]; rfl⟩

/-- What `utf8` does in the encoder: the bytes of the string, and a zero byte if it has no length. -/
def utf8Enc (args : List Val) : Val → Res Bytes
  | .str s => match args with
    | [] => .ok (utf8EncodeNul s)
    | _ => .ok (utf8EncodeLen s)
  | _ => .error .ill

def utf8Dec (args : List Val) : Bytes → Res (Val × Bytes) :=
  match args with
  | [] => preludeDecode .str utf8DecodeNul
  | [.int i] => preludeDecode .str (utf8DecodeLen i.val.toNat)
  | _ => fun _ => .error .ill

theorem utf8_back (l : Bool) (args : List Val) : Forth.Back l true (utf8Dec args) (utf8Enc args) := by
  unfold utf8Dec
  split
  · refine preludeDecode_back (text := utf8EncodeNul) (fun _ => rfl) fun bs a rest h ht => ?_
    unfold utf8DecodeNul at h
    obtain ⟨s, hs, h⟩ := Option.map_eq_some_iff.1 h
    cases h
    have h2 := (readUntilNul_cut bs).2 (ht rfl)
    rw [utf8EncodeNul, strBytes_strOfBytes _ _ hs]
    exact h2
  · exact preludeDecode_back (text := strBytes) (fun _ => rfl) fun bs a rest h _ => (utf8_len_decode_exact _ bs rest a h).1
  · intro bs v r h; cases h

/-- Strings of `utf8`, and no other foreign types. -/
def withUtf8 : Lossless := ⟨fun _ _ => true, fun t n => t && n == "utf8"⟩

def utf8Lib : Lib := ⟨true, fun n args => if n = "utf8" then utf8Dec args else fun _ => .error .ill, fun _ _ _ => .error .ill⟩
def utf8EncLib : Enc.Lib := ⟨true, fun n args => if n = "utf8" then utf8Enc args else fun _ => .error .ill, fun _ _ _ => .error .ill⟩

theorem utf8_forth (l : Bool) : Forth.LibForth withUtf8 l utf8Lib utf8EncLib := by
  refine ⟨rfl, fun t n vs h => ?_, fun t n vs h => ?_⟩
  · simp only [withUtf8, Bool.and_eq_true, beq_iff_eq] at h
    obtain ⟨rfl, rfl⟩ := h
    simp only [utf8Lib, if_true, utf8Dec]
    split
    · exact utf8_nul_keeps fun x y h => by simpa [Alike, Val.rust] using h
    · exact utf8_length_keeps true _ fun x y h => by simpa [Alike, Val.rust] using h
    · constructor <;> (intros; contradiction)
  · simp only [withUtf8, Bool.and_eq_true, beq_iff_eq] at h
    obtain ⟨rfl, rfl⟩ := h
    exact utf8_back l vs

/-- `container { n: u8, s: utf8(n), t: utf8, k: u8 }` -/
def stringSchema : Schema :=
  [⟨"m", [], [], .struct none (.leaf (plain "n") u8T (.leaf (plain "s") (.ref "utf8" true .other [.fieldRef "n"])
    (.leaf (plain "t") (.ref "utf8" true .other []) (.leaf (plain "k") u8T .nil))))⟩]

/-- Strings are passed on as they came. -/
theorem texts_forwarded (input : Bytes) (v : Val) (rest : Bytes) (h : runDecode stringSchema utf8Lib 1 "m" [] input = .ok (v, rest)) :
    ∃ message, Enc.runEncode stringSchema utf8EncLib 1 "m" [] v = .ok message ∧ input = message ++ rest :=
  encode_after_decode_partial withUtf8 stringSchema utf8Lib utf8EncLib
    (by simp [stringSchema, Decl.FieldsNodup, Fields.names, Fields.leaves, plain]) (utf8_forth false) (by decide +kernel) "m" rfl 1 [] input v rest h

example : (runDecode stringSchema utf8Lib 1 "m" [] [1, 65, 66, 0, 9, 8]).toOption.map (·.2) = some [8] := by decide +kernel

end Verif.Props
