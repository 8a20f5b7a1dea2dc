import Verif.Props.Defaults
import Verif.Props.Survive
import Verif.EncodeSurvive
/-!
# C76: encoding any value
-/
namespace Verif.Props
open Verif Verif.Dec

/-- Encoding ended in bytes or in an `Err` returned to the caller. -/
def Delivered (r : Res Bytes) : Prop := (∃ bs, r = .ok bs) ∨ ∃ msg, r = .error (.err msg)

theorem ends_written {r : Res Bytes} (h : Enc.Ends false (fun _ => True) r) : Delivered r := by
  cases r with
  | ok bs => exact .inl ⟨bs, rfl⟩
  | error f =>
    cases f with
    | err msg => exact .inr ⟨msg, rfl⟩
    | miscount => cases h
    | _ => exact h.elim

theorem ends_written_or {r : Res Bytes} (h : Enc.Ends true (fun _ => True) r) : Delivered r ∨ r = .error .miscount := by
  cases r with
  | ok bs => exact .inl (.inl ⟨bs, rfl⟩)
  | error f =>
    cases f with
    | err msg => exact .inl (.inr ⟨msg, rfl⟩)
    | miscount => exact .inr rfl
    | _ => exact h.elim

/-- **C76 (partial).** For every schema without counted arrays that passes the check `encSurvives` — expressions
cannot overflow, divide by zero or leave the range of a parameter or calculated field, the lengths of containers and paddings are below `2 ^ 63`, a
calculated length is cast to the type of its field — every declared type, arguments and **every value** of the declared Rust types, numbers
in their range: the generated encoder ends in bytes or an `Err`, with as many nested calls as declared types are nested in the value.

Missing: the other schemas. For each condition of the check there is one for which this is false: the findings below. -/
theorem encoder_survives_any_value_partial (F : Sig) (sch : Schema) (L : Enc.Lib) (hc : Enc.encSurvives false F sch L.oc = true)
    (hL : Enc.LibFit F sch L) (name : String) (d : Decl) (hf : sch.find name = some d) (hp : d.params.length = (F.params name).length)
    (args : List Val) (ha : ArgsRanged F sch (F.params name) args) (v : Val) (hv : Belongs F sch true (.named name) v)
    (fuel : Nat) (hfuel : v.depth ≤ fuel) : Delivered (Enc.runEncode sch L fuel name args v) := by
  rw [encode_refines]
  exact ends_written (Enc.specEncode_survives hc hL fuel name d args v hf hp ha hv hfuel)

/-- **C76, counted arrays (partial).** With counted arrays, the one way left to panic is an array whose number of elements is not its
declared count. -/
theorem encoder_panics_on_miscount_only_partial (F : Sig) (sch : Schema) (L : Enc.Lib) (hc : Enc.encSurvives true F sch L.oc = true)
    (hL : Enc.LibFit F sch L) (name : String) (d : Decl) (hf : sch.find name = some d) (hp : d.params.length = (F.params name).length)
    (args : List Val) (ha : ArgsRanged F sch (F.params name) args) (v : Val) (hv : Belongs F sch true (.named name) v)
    (fuel : Nat) (hfuel : v.depth ≤ fuel) :
    Delivered (Enc.runEncode sch L fuel name args v) ∨ Enc.runEncode sch L fuel name args v = .error .miscount := by
  rw [encode_refines]
  exact ends_written_or (Enc.specEncode_survives hc hL fuel name d args v hf hp ha hv hfuel)

/-- What came in can be sent on: whatever the decoder made of any input, the encoder ends on it. -/
theorem forwarding_survives_partial (F : Sig) (sch : Schema) (L : Dec.Lib) (M : Enc.Lib) (hnd : ∀ d ∈ sch, d.FieldsNodup)
    (hs : alignedSchema sch = true) (hL : ∀ n vs bs v rest, L.foreign n vs bs = .ok (v, rest) → Belongs F sch true (F.foreignTy n) v)
    (hc : Enc.encSurvives false F sch M.oc = true) (hM : Enc.LibFit F sch M) (fuel : Nat) (name : String)
    (d : Decl) (hf : sch.find name = some d) (hp : d.params.length = (F.params name).length)
    (args args' : List Val) (ha : ArgsRanged F sch (F.params name) args') (input : Bytes) (v : Val) (rest : Bytes)
    (h : Dec.runDecode sch L fuel name args input = .ok (v, rest)) (fuel' : Nat) (hfuel : v.depth ≤ fuel') :
    Delivered (Enc.runEncode sch M fuel' name args' v) :=
  encoder_survives_any_value_partial F sch M hc hM name d hf hp args' ha v
    (decoded_value_has_declared_type_partial F sch L hnd hs hL fuel name args input v rest h) fuel' hfuel

/-- `T::default().encode_sync(..)` does not panic. -/
theorem default_survives_partial (F : Sig) (sch : Schema) (hs : NamedAndRanged sch) (L : Enc.Lib) (hc : Enc.encSurvives false F sch L.oc = true)
    (hL : Enc.LibFit F sch L) (name : String) (d : Decl) (hf : sch.find name = some d) (hp : d.params.length = (F.params name).length)
    (args : List Val) (ha : ArgsRanged F sch (F.params name) args) (v : Val) (hv : IsDefault F sch (.named name) v)
    (fuel : Nat) (hfuel : v.depth ≤ fuel) : Delivered (Enc.runEncode sch L fuel name args v) :=
  encoder_survives_any_value_partial F sch L hc hL name d hf hp args ha v (default_belongs F sch hs _ _ hv) fuel hfuel

/-! ### Cases -/

theorem byteEncLib_fit (ps : List (String × List RTy)) (sch : Schema) : Enc.LibFit (ownSig ps) sch byteEncLib :=
  ⟨fun _ _ _ _ _ => trivial, fun _ _ _ _ => trivial⟩

/-- A recursive type with a calculated length. -/
def chainSource : String := "type node = container { n: u16 = blen(body) :> u16, body: container [n] { k: u8, x: u32 { k > 1u8 }, kids: node[..] } };"
def chainSchema : Schema := [⟨"node", [], [], .struct none
  (.leaf ⟨"n", none, [], some (.cast .plain (.blen "body") (.scalar .u16))⟩ u16T
  (.cont ⟨"body", none, [], none⟩ (some (.cast .plain (.fieldRef "n") (.scalar .u64)))
    (.leaf (plain "k") u8T
    (.leaf ⟨"x", some (.binary .gt (.fieldRef "k") (.int ⟨.u8, 1⟩)), [], none⟩ (.prim (.scalar ⟨.u32, .big⟩))
    (.leaf (plain "kids") (.array (.ref "node" false .other []) .unbounded) .nil))) .nil))⟩]
theorem chain_spec : specOf [] chainSource = some chainSchema := by decide +kernel

/-- A recursive type with a calculated length: on every value the encoder ends in bytes or an `Err`. -/
theorem chain_encoder_survives (v : Val) (hv : Belongs (ownSig []) chainSchema true (.named "node") v) (fuel : Nat) (h : v.depth ≤ fuel) :
    Delivered (Enc.runEncode chainSchema byteEncLib fuel "node" [] v) :=
  encoder_survives_any_value_partial (ownSig []) chainSchema byteEncLib (by decide +kernel) (byteEncLib_fit _ _) "node" _ rfl rfl [] .nil v hv fuel h

/-- Counted arrays: the tree of C59. -/
theorem tree_encoder_survives (v : Val) (hv : Belongs (ownSig []) treeSchema true (.named "node") v) (fuel : Nat) (h : v.depth ≤ fuel) :
    Delivered (Enc.runEncode treeSchema byteEncLib fuel "node" [] v) ∨ Enc.runEncode treeSchema byteEncLib fuel "node" [] v = .error .miscount :=
  encoder_panics_on_miscount_only_partial (ownSig []) treeSchema byteEncLib (by decide +kernel) (byteEncLib_fit _ _) "node" _ rfl rfl [] .nil v hv fuel h

/-- A value that is encoded, one that is answered with an `Err`, one with the wrong number of children. -/
example : Enc.runEncode chainSchema byteEncLib 1 "node" [] (.struct "node" [("n", .int ⟨.u16, 0⟩), ("k", vu8 1), ("x", .opt none), ("kids", .arr [])]) = .ok [0, 1, 1] ∧
    Enc.runEncode chainSchema byteEncLib 1 "node" [] (.struct "node" [("n", .int ⟨.u16, 0⟩), ("k", vu8 2), ("x", .opt none), ("kids", .arr [])]) =
      .error (.err Enc.missingMsg) ∧
    Enc.runEncode treeSchema byteEncLib 2 "node" [] (.struct "node" [("kids", vu8 1), ("name", .arr [vu8 9]), ("children", .arr [])]) = .error .miscount := ⟨rfl, rfl, rfl⟩

/-! The larger specification of C55 passes. -/
#guard ((specOf packetModules packetText).map fun sch => Enc.encSurvives true (ownSig [("Body", [.named "Kind"])]) sch true) == some true

/-- Nested values of `type node = container { kids: node[..] }`. -/
def nestSchema : Schema := [⟨"node", [], [], .struct none (.leaf (plain "kids") (.array (.ref "node" false .other []) .unbounded) .nil)⟩]
theorem nest_spec : specOf [] "type node = container { kids: node[..] };" = some nestSchema := by decide +kernel

def nested : Nat → Val
  | 0 => .struct "node" [("kids", .arr [])]
  | k + 1 => .struct "node" [("kids", .arr [nested k])]

theorem nested_depth : ∀ k, (nested k).depth = k + 1
  | 0 => rfl
  | k + 1 => by simp [nested, Val.depth, depthF, depthP, depthL, nested_depth k]

theorem nested_decl (X : Enc.Ext) (k : Nat) (r : Res Bytes) (h : X.call "node" [] (nested k) = r) :
    Enc.encDecl X (nestSchema.head (by decide)) (nested (k + 1)) = r.map (· ++ []) := by
  have hl : Enc.encLeaf X (upd Enc.Env.empty "kids" (some (.arr [nested k]))) (.array (.ref "node" false .other []) .unbounded) (.arr [nested k])
      = r.map (· ++ []) := by
    show (do let x ← X.call "node" [] (nested k); _) = _
    rw [h]
    cases r <;> rfl
  have hr : Enc.encDecl X (nestSchema.head (by decide)) (nested (k + 1)) = 
     (Enc.encLeaf X (upd Enc.Env.empty "kids" (some (.arr [nested k]))) (.array (.ref "node" false .other []) .unbounded) (.arr [nested k])).map (· ++ []) := by
    have hu : upd Enc.Env.empty "kids" (some (Val.arr [nested k])) "kids" = some (.arr [nested k]) := rfl
    have hb : (Enc.FAttr.blens ⟨"kids", none, [], none⟩).isEmpty = true := rfl
    simp only [nestSchema, List.head, Enc.encDecl, Enc.encXforms, Enc.checkCapacity, nested, Fields.leaves, Enc.encStored, plain, fieldOf, List.lookup,
      Enc.encCalculated, Enc.encItems, Enc.encField, Enc.withBlen, beq_self_eq_true, optRes, bind, Except.bind, hb, Bool.true_or, if_true,
      Option.isSome_none, Option.isNone_none, Bool.false_and, Bool.false_eq_true, if_false, hu, Enc.put, Enc.encFlush]
    cases Enc.encLeaf X (upd Enc.Env.empty "kids" (some (.arr [nested k]))) (.array (.ref "node" false .other []) .unbounded) (.arr [nested k]) <;> rfl
  rw [hr, hl]
  cases r with
  | ok bs => simp [Except.map]
  | error e => rfl

theorem nested_step (f k : Nat) : Enc.runEncode nestSchema noEncLib (f + 1) "node" [] (nested (k + 1)) =
    (Enc.runEncode nestSchema noEncLib f "node" [] (nested k)).map (· ++ []) := by
  rw [encode_refines, encode_refines]
  exact nested_decl ⟨_, _, Enc.specEncode nestSchema noEncLib f, _, _⟩ k _ rfl

/-- The bound on nested calls is exact: with a smaller stack the encoder does not get through. -/
theorem stack_bound_exact : ∀ (f k : Nat),
    (f < (nested k).depth → Enc.runEncode nestSchema noEncLib f "node" [] (nested k) = .error .diverge) ∧
    ((nested k).depth ≤ f → Enc.runEncode nestSchema noEncLib f "node" [] (nested k) = .ok [])
  | 0, k => ⟨fun _ => rfl, fun h => by rw [nested_depth] at h; omega⟩
  | f + 1, 0 => ⟨fun h => by simp [nested_depth] at h, fun _ => rfl⟩
  | f + 1, k + 1 => by
    obtain ⟨h1, h2⟩ := stack_bound_exact f k
    rw [nested_depth] at *
    rw [nested_step]
    exact ⟨fun h => by rw [h1 (by omega)]; rfl, fun h => by rw [h2 (by omega)]; rfl⟩

/-- How encoding ended. -/
def written : Res Bytes → String
  | .ok _ => "bytes"
  | .error (.err _) => "error"
  | .error .panic => "panic"
  | .error .miscount => "miscount"
  | .error .diverge => "endless"
  | .error .ill => "ill"

def endOf (src : String) (v : Val) : String :=
  match specOf [] src with
  | some sch => written (Enc.runEncode sch noEncLib 3 "a" [] v)
  | none => "rejected"

/-- Findings: encoders of accepted specifications that panic on values of the declared type. In order: a calculated field overflows (in a build with
overflow checks); a field read before it gives a container a length from `2 ^ 63` on, for which the encoder reserves memory; the same for padding; a condition divides
by a stored zero; the default value of an array with a count; a calculation on a length overflows. -/
theorem encoder_panic_findings :
    endOf "type a = container { n: u8, d: u8 = n + 1u8 };" (.struct "a" [("n", vu8 255), ("d", vu8 0)]) = "panic" ∧
    endOf "type a = container { n: u64, c: container [n] { x: u8 } };" (.struct "a" [("n", .int ⟨.u64, 2 ^ 63⟩), ("x", vu8 0)]) = "panic" ∧
    endOf "type a = container { n: u64, .pad: n };" (.struct "a" [("n", .int ⟨.u64, 2 ^ 63⟩)]) = "panic" ∧
    endOf "type a = container { n: u8, d: u8 { 8u8 / n > 1u8 } };" (.struct "a" [("n", vu8 0), ("d", .opt none)]) = "panic" ∧
    endOf "type a = u8[4];" (.newtype "a" (.arr [])) = "miscount" ∧
    endOf "type a = container { n: u8 = (blen(c) :> u8) + 1u8, c: container [n] { x: u8[..] } };"
      (.struct "a" [("n", vu8 0), ("x", .arr (List.replicate 255 (vu8 0)))]) = "panic" := by
  decide +kernel

end Verif.Props
