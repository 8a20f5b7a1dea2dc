import Verif.Lossless
import Verif.Props.RoundTrip
import Verif.Props.EndToEnd
import Verif.Props.Prelude
/-!
# C65: decoding loses nothing
-/
namespace Verif.Props
open Verif Verif.Dec

/-- **C65 (partial).** For every schema and every type of it that passes the check `lossless` — no `bool` fields, paddings or transforms, in `[..]` only
elements of a size that divides every length, terminated arrays only where another field certainly follows —, and all inputs: if the decoder gets from
two inputs values that look the same to a Rust program, then it read the same bytes of them.

Missing: types that do not pass. For each kind of them it is false: `lossy_findings`. -/
theorem decoding_loses_nothing_partial (K : Lossless) (sch : Schema) (L : Lib) (hnd : ∀ d ∈ sch, d.FieldsNodup)
    (hc : lossless K sch = true) (hL : LibKeeps K L) (name : String) (hn : K.own false name = true)
    (fuel : Nat) (args : List Val) (a b : Bytes) (v w : Val) (r s : Bytes)
    (ha : runDecode sch L fuel name args a = .ok (v, r)) (hb : runDecode sch L fuel name args b = .ok (w, s)) (h : v.rust = w.rust) :
    v = w ∧ ∃ message, a = message ++ r ∧ b = message ++ s := by
  rw [decode_refines sch L hnd] at ha hb
  exact (specDecode_keeps hc hL fuel false name args hn).once ha hb h (fun h => by cases h)

/-- **C65, terminators (partial).** The same for types that may end with a terminator, if the message is not the end of the input. -/
theorem decoding_loses_nothing_before_more_partial (K : Lossless) (sch : Schema) (L : Lib) (hnd : ∀ d ∈ sch, d.FieldsNodup)
    (hc : lossless K sch = true) (hL : LibKeeps K L) (name : String) (hn : K.own true name = true)
    (fuel : Nat) (args : List Val) (a b : Bytes) (v w : Val) (r s : Bytes) (hr : r ≠ []) (hs : s ≠ [])
    (ha : runDecode sch L fuel name args a = .ok (v, r)) (hb : runDecode sch L fuel name args b = .ok (w, s)) (h : v.rust = w.rust) :
    v = w ∧ ∃ message, a = message ++ r ∧ b = message ++ s := by
  rw [decode_refines sch L hnd] at ha hb
  exact (specDecode_keeps hc hL fuel true name args hn).once ha hb h (fun _ => ⟨hr, hs⟩)

/-- **C65, messages (partial).** Different messages are different values: no two messages say the same. -/
theorem different_messages_differ_partial (K : Lossless) (sch : Schema) (L : Lib) (hnd : ∀ d ∈ sch, d.FieldsNodup)
    (hc : lossless K sch = true) (hL : LibKeeps K L) (name : String) (hn : K.own false name = true)
    (fuel : Nat) (args : List Val) (a b : Bytes) (hab : a ≠ b) (v w : Val)
    (ha : runDecode sch L fuel name args a = .ok (v, [])) (hb : runDecode sch L fuel name args b = .ok (w, [])) : v.rust ≠ w.rust := by
  intro h
  obtain ⟨-, m, rfl, rfl⟩ := decoding_loses_nothing_partial K sch L hnd hc hL name hn fuel args a b v w [] [] ha hb h
  exact hab rfl

/-- **C65, changed bytes (partial).** A message of which some bytes were changed on the way, none added or lost, is refused, or read as a different
value, or ends elsewhere. -/
theorem changed_message_shows_partial (K : Lossless) (sch : Schema) (L : Lib) (hnd : ∀ d ∈ sch, d.FieldsNodup)
    (hc : lossless K sch = true) (hL : LibKeeps K L) (name : String) (hn : K.own false name = true)
    (fuel : Nat) (args : List Val) (sent received : Bytes) (hab : sent ≠ received) (v w : Val) (rest : Bytes)
    (ha : runDecode sch L fuel name args sent = .ok (v, [])) (hb : runDecode sch L fuel name args received = .ok (w, rest))
    (hl : received.length = sent.length) : v.rust ≠ w.rust := by
  intro h
  obtain ⟨-, m, rfl, rfl⟩ := decoding_loses_nothing_partial K sch L hnd hc hL name hn fuel args sent received v w [] rest ha hb h
  have : rest = [] := by simpa using hl
  subst this
  exact hab rfl

/-- **C65, forwarding (partial).** If what was decoded is a value that C04 is about, encoding it gives the very bytes that were read. -/
theorem forwarded_unchanged_partial (K : Lossless) (sch : Schema) (LE : Enc.Lib) (LD : Lib) (C : RT.Closed)
    (ext : String → List Val → Val → Prop) (hi : Inverse LE LD C ext) (hw : WfSchema C sch)
    (hc : lossless K sch = true) (hL : LibKeeps K LD) (fuel : Nat) (name : String) (hn : K.own false name = true) (args : List Val)
    (input : Bytes) (v : Val) (rest : Bytes) (h : runDecode sch LD fuel name args input = .ok (v, rest))
    (hr : C.decl name = true ∨ rest = []) (hf : Fitting sch LE C ext fuel name args v) (out : Bytes)
    (he : Enc.runEncode sch LE fuel name args v = .ok out) : input = out ++ rest := by
  have hb := decode_after_encode sch LE LD C ext hi hw fuel name args v out hf he rest hr
  obtain ⟨-, m, rfl, hm⟩ := decoding_loses_nothing_partial K sch LD (fun d hd => (hw.1 d hd).nodup) hc hL name hn fuel args input
    (out ++ rest) v v rest rest h hb rfl
  rw [hm]

/-! ### Cases -/

/-- All types, with nothing behind them, no foreign types. -/
def ownLossless : Lossless := ⟨fun _ _ => true, fun _ _ => false⟩
theorem ownLossless_lib (L : Lib) : LibKeeps ownLossless L := fun _ _ _ h => by cases h

/-- Two messages of the recursive type of C59 that read the same are the same. -/
theorem trees_differ (fuel : Nat) (a b : Bytes) (hab : a ≠ b) (v w : Val)
    (ha : runDecode treeSchema byteLib fuel "node" [] a = .ok (v, [])) (hb : runDecode treeSchema byteLib fuel "node" [] b = .ok (w, [])) :
    v.rust ≠ w.rust :=
  different_messages_differ_partial ownLossless treeSchema byteLib tree_nodup (by decide +kernel) (ownLossless_lib _) "node" rfl
    fuel [] a b hab v w ha hb

/-- An `item` that was read is written as it came. -/
theorem item_forwarded (flag : Int) (data : List Val) (opt : Option Int) (hf : Scalar.u8.InRange flag)
    (hd : ∀ x ∈ data, RT.HasPrim (.scalar ⟨.u8, .big⟩) x) (hn : data.length < 256)
    (ho : ∀ x, opt = some x → Scalar.u16.InRange x) (hof : opt.isSome = true ↔ flag = 1) (input rest out : Bytes)
    (h : runDecode demoSchema noLib 1 "item" [] input = .ok (itemVal flag data opt, rest))
    (he : Enc.runEncode demoSchema noEncLib 1 "item" [] (itemVal flag data opt) = .ok out) : input = out ++ rest :=
  forwarded_unchanged_partial ownLossless demoSchema noEncLib noLib openEnds _ noLib_inverse wf_demo (by decide +kernel) (ownLossless_lib _)
    1 "item" rfl [] input _ rest h (.inl rfl) (item_fits flag data opt hf hd hn ho hof 0) out he

example : runDecode demoSchema noLib 1 "item" [] [2, 1, 7, 8, 0, 9, 5] = .ok (itemVal 1 [vu8 7, vu8 8] (some 9), [5]) := by rfl

/-- Texts that pass: a terminated string in the middle; one at the end if bytes follow. -/
theorem lossless_texts :
    ((specOf [] "type t = enum i8 { a = 1, b = 2 }; type m = container { n: u8, s: u8[..\";\"], k: t, x: u16[n] { n > 1u8 }, d: u32 };").map
      (lossless ownLossless)) = some true ∧
    ((specOf [] "type s = u8[..\";\"];").map (lossless ⟨fun t _ => t, fun _ _ => false⟩)) = some true ∧
    ((specOf [] "type s = u8[..\";\"];").map (lossless ownLossless)) = some false := by decide +kernel

/-- Finding: what is lost. In order: bytes of a `bool` other than 0 and 1; paddings; a terminator at the end; bytes at the end of `u16[..]` that make
no element. The decoder gets the same value from both inputs, and leaves nothing. -/
theorem lossy_findings :
    (∀ b : UInt8, b ≠ 0 → runDecode [⟨"a", [], [], .leaf none (.prim .bool)⟩] noLib 1 "a" [] [b] = .ok (.newtype "a" (.bool true), [])) ∧
    (∀ b : UInt8, runDecode [⟨"a", [], [], .struct none (.pad "p" (.int ⟨.u64, 1⟩) .nil)⟩] noLib 1 "a" [] [b] = .ok (.struct "a" [], [])) ∧
    (∀ bs ∈ [[65], [65, 0]], runDecode [⟨"a", [], [], .leaf none (.array u8T (.term (.str [0])))⟩] noLib 1 "a" [] bs
      = .ok (.newtype "a" (.arr [vu8 65]), [])) ∧
    (∀ bs ∈ [[], [65]], runDecode [⟨"a", [], [], .leaf none (.array u16T .unbounded)⟩] noLib 1 "a" [] bs = .ok (.newtype "a" (.arr []), [])) := by
  refine ⟨fun b hb => ?_, fun b => rfl, ?_, ?_⟩
  · have h : decide (leNat [b] ≠ 0) = true := by
      have : b.toNat ≠ 0 := fun h => hb (UInt8.toNat_inj.1 (by simpa using h))
      simp [leNat, this]
    show Except.ok (Val.newtype "a" (.bool (decide (leNat [b] ≠ 0))), []) = _
    rw [h]
  · intro bs h
    simp only [List.mem_cons, List.not_mem_nil, or_false] at h
    rcases h with rfl | rfl <;> rfl
  · intro bs h
    simp only [List.mem_cons, List.not_mem_nil, or_false] at h
    rcases h with rfl | rfl <;> rfl

/-! ### The types protospec comes with -/

theorem preludeDecode_keeps {α} {t : Bool} {toVal : α → Val} (hv : ∀ x y, Alike (toVal x) (toVal y) → x = y) {f : Bytes → Option (α × Bytes)}
    {text : α → Bytes} (h : ∀ bs a rest, f bs = some (a, rest) → ∃ w, bs = w ++ rest ∧ (t = true → rest ≠ [] → w = text a) ∧ (t = false → w = text a)) :
    Keeps t Alike (preludeDecode toVal f) := by
  have key : ∀ {bs v r}, preludeDecode toVal f bs = .ok (v, r) → ∃ a, f bs = some (a, r) ∧ v = toVal a := by
    intro bs v r h
    unfold preludeDecode at h
    cases hf : f bs with
    | none => rw [hf] at h; cases h
    | some p =>
      rw [hf] at h
      cases h
      exact ⟨p.1, rfl, rfl⟩
  constructor
  · intro bs v r hh
    obtain ⟨a, ha, rfl⟩ := key hh
    obtain ⟨w, hw, _⟩ := h _ _ _ ha
    exact ⟨w, hw⟩
  · intro b1 b2 v1 v2 r1 r2 e1 e2 hR ht
    obtain ⟨a1, ha1, rfl⟩ := key e1
    obtain ⟨a2, ha2, rfl⟩ := key e2
    have := hv _ _ hR
    subst this
    obtain ⟨w1, rfl, x1, y1⟩ := h _ _ _ ha1
    obtain ⟨w2, rfl, x2, y2⟩ := h _ _ _ ha2
    have : w1 = w2 := by
      cases t with
      | true => rw [x1 rfl (ht rfl).1, x2 rfl (ht rfl).2]
      | false => rw [y1 rfl, y2 rfl]
    subst this
    exact ⟨rfl, w1, rfl, rfl⟩

/-- `utf8(len)` strings lose nothing: the hypothesis of C65 holds of them. -/
theorem utf8_length_keeps (t : Bool) (len : Nat) {toVal : String → Val} (hv : ∀ x y, Alike (toVal x) (toVal y) → x = y) :
    Keeps t Alike (preludeDecode toVal (utf8DecodeLen len)) :=
  preludeDecode_keeps hv (text := strBytes) fun bs a rest h =>
    ⟨strBytes a, (utf8_len_decode_exact len bs rest a h).1, fun _ _ => rfl, fun _ => rfl⟩

theorem readUntilNul_cut : ∀ bs : Bytes, (∃ w, bs = w ++ (readUntilNul bs).2) ∧
    ((readUntilNul bs).2 ≠ [] → bs = (readUntilNul bs).1 ++ [0] ++ (readUntilNul bs).2)
  | [] => ⟨⟨[], rfl⟩, fun h => absurd rfl h⟩
  | b :: bs => by
    obtain ⟨⟨w, h1⟩, h2⟩ := readUntilNul_cut bs
    unfold readUntilNul
    split
    · rename_i hb
      subst hb
      exact ⟨⟨[0], rfl⟩, fun _ => rfl⟩
    · refine ⟨⟨b :: w, ?_⟩, fun h => ?_⟩
      · simp only [List.cons_append, ← h1]
      · simpa using h2 h

/-- So do strings that end with a zero byte, if other bytes follow. -/
theorem utf8_nul_keeps {toVal : String → Val} (hv : ∀ x y, Alike (toVal x) (toVal y) → x = y) :
    Keeps true Alike (preludeDecode toVal utf8DecodeNul) :=
  preludeDecode_keeps hv (text := utf8EncodeNul) fun bs a rest h => by
    unfold utf8DecodeNul at h
    obtain ⟨s, hs, h⟩ := Option.map_eq_some_iff.1 h
    cases h
    obtain ⟨⟨w, h1⟩, h2⟩ := readUntilNul_cut bs
    refine ⟨w, h1, fun _ hr => ?_, fun h => by cases h⟩
    rw [List.append_cancel_right (h1.symm.trans (h2 hr)), utf8EncodeNul, strBytes_strOfBytes _ _ hs]

theorem unit_units {u : Nat} (h : u < 0xD800 ∨ (0xE000 ≤ u ∧ u < 0x10000)) : charUnits (Char.ofNat u) = [u] := by
  have hv : u.isValidChar := by unfold Nat.isValidChar; omega
  have : (Char.ofNat u).toNat = u := by simp [Char.ofNat, hv, Char.ofNatAux, Char.toNat]
  unfold charUnits
  rw [this, if_pos (by omega)]

theorem pair_units {u w : Nat} (hu : 0xD800 ≤ u ∧ u < 0xDC00) (hw : 0xDC00 ≤ w ∧ w < 0xE000) :
    charUnits (Char.ofNat (0x10000 + (u - 0xD800) * 0x400 + (w - 0xDC00))) = [u, w] := by
  have hv : (0x10000 + (u - 0xD800) * 0x400 + (w - 0xDC00)).isValidChar := by unfold Nat.isValidChar; omega
  have : (Char.ofNat (0x10000 + (u - 0xD800) * 0x400 + (w - 0xDC00))).toNat = 0x10000 + (u - 0xD800) * 0x400 + (w - 0xDC00) := by
    simp [Char.ofNat, hv, Char.ofNatAux, Char.toNat]
    omega
  unfold charUnits
  rw [this, if_neg (by omega)]
  have e1 : 0xD800 + (0x10000 + (u - 0xD800) * 0x400 + (w - 0xDC00) - 0x10000) / 0x400 = u := by omega
  have e2 : 0xDC00 + (0x10000 + (u - 0xD800) * 0x400 + (w - 0xDC00) - 0x10000) % 0x400 = w := by omega
  rw [e1, e2]

theorem units_of_chars : ∀ (us : List Nat) (cs : List Char), (∀ u ∈ us, u < 65536) → charsOfUnits us = some cs → us = cs.flatMap charUnits
  | [], cs, _, h => by
    unfold charsOfUnits at h
    cases h; rfl
  | [u], cs, hl, h => by
    have hlu := hl u (by simp)
    unfold charsOfUnits at h
    split at h
    · cases h
    · split at h
      · cases h
      · obtain ⟨cs', h', rfl⟩ := Option.map_eq_some_iff.1 h
        unfold charsOfUnits at h'
        cases h'
        simp only [List.flatMap_cons, List.flatMap_nil, List.append_nil]
        rw [unit_units (by omega)]
  | u :: w :: us, cs, hl, h => by
    have hlu := hl u (by simp)
    unfold charsOfUnits at h
    split at h
    · rename_i hu
      simp only at h
      split at h
      · rename_i hw
        obtain ⟨cs', h', rfl⟩ := Option.map_eq_some_iff.1 h
        rw [List.flatMap_cons, pair_units hu hw, ← units_of_chars us cs' (fun x hx => hl x (by simp [hx])) h']
        rfl
      · cases h
    · split at h
      · cases h
      · obtain ⟨cs', h', rfl⟩ := Option.map_eq_some_iff.1 h
        rw [List.flatMap_cons, unit_units (by omega), ← units_of_chars (w :: us) cs' (fun x hx => hl x (by simp [hx])) h']
        rfl

theorem unitsOf_lt (e : Endian) : ∀ (bs : Bytes), ∀ u ∈ unitsOf e bs, u < 65536
  | [], u, h => by cases h
  | [_], u, h => by cases h
  | a :: b :: bs, u, h => by
    simp only [unitsOf, List.mem_cons] at h
    rcases h with rfl | h
    · have := bytesInt_inRange ⟨.u16, e⟩ [a, b]
      have h2 : bytesInt ⟨.u16, e⟩ [a, b] ≤ 2 ^ 16 - 1 := this.2
      omega
    · exact unitsOf_lt e bs u h

/-- The bytes of units, in the byte order `e`. -/
def unitBytes (e : Endian) (us : List Nat) : Bytes := us.flatMap fun (u : Nat) => intBytes ⟨.u16, e⟩ (u : Int)

theorem unitBytes_unitsOf (e : Endian) : ∀ (bs : Bytes), 2 ∣ bs.length → unitBytes e (unitsOf e bs) = bs
  | [], _ => rfl
  | [_], h => by simp at h
  | a :: b :: bs, h => by
    have h' : 2 ∣ bs.length := by simp only [List.length_cons] at h; omega
    have hr : 0 ≤ bytesInt ⟨.u16, e⟩ [a, b] := (bytesInt_inRange ⟨.u16, e⟩ [a, b]).1
    simp only [unitBytes, unitsOf, List.flatMap_cons] at *
    rw [Int.toNat_of_nonneg hr, intBytes_bytesInt ⟨.u16, e⟩ [a, b] rfl]
    have := unitBytes_unitsOf e bs h'
    simp only [unitBytes] at this
    rw [this]
    rfl

/-- And `utf16(len)` strings. -/
theorem utf16_length_keeps (t : Bool) (native : Endian) (len : Nat) {toVal : String → Val} (hv : ∀ x y, Alike (toVal x) (toVal y) → x = y) :
    Keeps t Alike (preludeDecode toVal (utf16Decode native len)) :=
  preludeDecode_keeps hv (text := fun s => unitBytes native (s.toList.flatMap charUnits)) fun bs a rest h => by
    unfold utf16Decode at h
    split at h
    · cases h
    · rename_i hl
      obtain ⟨cs, hc, h⟩ := Option.map_eq_some_iff.1 h
      cases h
      have hw : bs.take (2 * len) = unitBytes native (cs.flatMap charUnits) := by
        rw [← units_of_chars _ cs (unitsOf_lt native _) hc, unitBytes_unitsOf native _ (by rw [List.length_take]; omega)]
      refine ⟨bs.take (2 * len), (List.take_append_drop _ _).symm, fun _ _ => ?_, fun _ => ?_⟩ <;> simpa using hw

/-- Finding: variable-length integers do: there are several ways to write one. -/
theorem varint_lossy_finding : varDecode .u32 [0x00] = some (0, []) ∧ varDecode .u32 [0x80, 0x00] = some (0, []) := by decide +kernel

end Verif.Props
