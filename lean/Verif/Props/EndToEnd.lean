import Verif.Props.Scope
import Verif.Props.RoundTrip
/-!
# C55: from source text to bytes and back
-/
namespace Verif.Props
open Verif Sem Enc RT

/-! ### Which specifications -/

/-- The fields that conditions, transforms, lengths and type arguments in a container refer to. -/
def usesOf : Fields → List String
  | .nil => []
  | .pad _ e rest => e.refs ++ usesOf rest
  | .leaf a ty rest => (FAttr.exprs a ++ LTy.exprs ty).flatMap Expr.refs ++ usesOf rest
  | .cont a len items rest => (FAttr.exprs a ++ len.toList).flatMap Expr.refs ++ (usesOf items ++ usesOf rest)

/-- Calculated values that use `blen` refer to nothing else. -/
def plainLengths (items : Fields) : Bool :=
  items.leaves.all fun a => match a.auto with
    | some e => e.blens.isEmpty || e.refs.isEmpty
    | none => true

/-- Arms of tagged enums in the fragment: no struct arm has transforms or calculated fields (both are lost:
`tagged_arm_ignores_transforms`, `tagged_calculated_leaks`), none refers to another arm. -/
def armIn (C : Closed) (names : List String) (arm : Arm) : Bool :=
  decide (arm.attr.xfs.length ≤ 1) &&
  match arm.body with
  | .leaf ty => wfL C ty
  | .cont _ items => arm.attr.xfs.isEmpty && decide items.names.Nodup && wfF C items &&
      (items.leaves.all fun a => a.auto.isNone) && (usesOf items).all fun n => !names.contains n

/-- Declarations in the fragment that round trips. Each condition excludes a defect: chains of transforms
(`chained_transforms_do_not_round_trip`), two fields of one name (which rustc rejects), items that read to the end
of the stream and are not last, calculated fields in conditional containers, overlapping length fields
(`overlapping_lengths_out_of_order`). That nothing is referred to before it is read is not among them: it
follows from acceptance. -/
def declIn (C : Closed) (d : Decl) : Bool :=
  decide (d.xfs.length ≤ 1) &&
  match d.body with
  | .leaf _ ty => wfL C ty
  | .repr _ => true
  | .struct _ items => decide items.names.Nodup && plainLengths items && wfF C items && oneWaiting items .init none
  | .tagged _ arms => arms.all (armIn C (arms.map (·.attr.name)))

/-- Schemas in the fragment; the types that `C` says may be followed by other bytes may be. -/
def schemaIn (C : Closed) (sch : Schema) : Bool :=
  sch.all fun d => declIn C d && (!C.decl d.name || closedD C d)

/-! ### The rest follows from acceptance -/

theorem plainLengths_iff {items : Fields} (h : plainLengths items = true) : LengthsOnly items := by
  intro a ha e he hb
  have := List.all_eq_true.1 h a ha
  simp only [he, Bool.or_eq_true, List.isEmpty_iff] at this
  exact this.resolve_left hb

theorem lexical_without {B : List String} : ∀ (fs : Fields) {A S T : String → Prop}, Lexical A fs S → LengthsOnly fs →
    (∀ n, S n → n ∉ B → T n) → (∀ n ∈ usesOf fs, n ∉ B) → Scoped anyField fs T
  | .nil, A, S, T, _, _, _, _ => trivial
  | .pad _ e r, A, S, T, h, hl, hs, hu => by
    refine ⟨?_, lexical_without r h.2 hl hs fun n hn => hu n (by simp [usesOf, hn])⟩
    intro e' he n hn
    rw [List.mem_singleton] at he
    subst he
    exact hs n (h.1 e' (by simp) n hn) (hu n (by simp [usesOf, hn]))
  | .leaf a ty r, A, S, T, h, hl, hs, hu => by
    refine ⟨?_, ?_, ?_, ?_⟩
    · intro e he n hn
      exact hs n (h.1 e he n hn) (hu n (by simp only [usesOf, List.mem_append, List.mem_flatMap]; exact .inl ⟨e, .inl he, hn⟩))
    · intro e he n hn
      exact hs n (h.2.1 e he n hn) (hu n (by simp only [usesOf, List.mem_append, List.mem_flatMap]; exact .inl ⟨e, .inr he, hn⟩))
    · intro e ha hb
      have he := hl a (by simp [Fields.leaves]) e ha hb
      refine ⟨?_, by simp [he]⟩
      intro e' hm n hn
      rw [List.mem_singleton] at hm
      subst hm
      rw [he] at hn; cases hn
    · refine lexical_without r h.2.2.2 (fun b hb => hl b (by simp [Fields.leaves, hb])) (fun n hn hb => ?_)
        fun n hn => hu n (by simp [usesOf, hn])
      exact hn.imp (fun h => hs n h hb) fun h => ⟨rfl, h⟩
  | .cont a len i r, A, S, T, h, hl, hs, hu => by
    refine ⟨?_, ?_, ?_, ?_⟩
    · intro e he n hn
      exact hs n (h.1 e he n hn) (hu n (by simp only [usesOf, List.mem_append, List.mem_flatMap]; exact .inl ⟨e, .inl he, hn⟩))
    · intro e he n hn
      exact hs n (h.2.1 e he n hn) (hu n (by simp only [usesOf, List.mem_append, List.mem_flatMap]; exact .inl ⟨e, .inr he, hn⟩))
    · exact lexical_without i h.2.2.1 (fun b hb => hl b (by simp [Fields.leaves, hb])) hs
        fun n hn => hu n (by simp [usesOf, hn])
    · exact lexical_without r h.2.2.2 (fun b hb => hl b (by simp [Fields.leaves, hb]))
        (fun n hn hb => .inl (hs n hn hb)) fun n hn => hu n (by simp [usesOf, hn])

theorem arms_wf {C : Closed} {B : List String} : ∀ {arms : List Arm} {S : String → Prop}, LexicalArms arms S →
    (∀ n, S n → n ∈ B) → (∀ arm ∈ arms, arm.attr.name ∈ B) → (∀ arm ∈ arms, armIn C B arm = true) →
    ∀ arm ∈ arms, WfArm C arm
  | ⟨a, .leaf ty⟩ :: rest, S, h, hs, hn, ha, arm, hm => by
    rcases List.mem_cons.1 hm with rfl | hm
    · have := ha _ List.mem_cons_self
      simp only [armIn, Bool.and_eq_true, decide_eq_true_eq] at this
      exact ⟨this.1, this.2⟩
    · refine arms_wf h.2.2 (fun n hx => ?_) (fun x hx => hn x (List.mem_cons_of_mem _ hx))
        (fun x hx => ha x (List.mem_cons_of_mem _ hx)) arm hm
      rcases hx with hx | rfl
      · exact hs n hx
      · exact hn _ List.mem_cons_self
  | ⟨a, .cont len items⟩ :: rest, S, h, hs, hn, ha, arm, hm => by
    rcases List.mem_cons.1 hm with rfl | hm
    · have := ha _ List.mem_cons_self
      simp only [armIn, Bool.and_eq_true, decide_eq_true_eq, List.isEmpty_iff, List.all_eq_true, Bool.not_eq_true',
        Option.isNone_iff_eq_none, List.contains_eq_mem, decide_eq_false_iff_not] at this
      obtain ⟨h1, ⟨⟨⟨h2, h3⟩, h4⟩, h5⟩, h6⟩ := this
      refine ⟨h1, h2, ⟨h3, ?_, h4⟩, h5⟩
      refine lexical_without (B := B) items h.2.2.1 ?_ (fun n hx hb => absurd (hs n hx) hb) h6
      intro b hb e he
      rw [h5 b hb] at he; cases he
    · exact arms_wf h.2.2.2 hs (fun x hx => hn x (List.mem_cons_of_mem _ hx))
        (fun x hx => ha x (List.mem_cons_of_mem _ hx)) arm hm

theorem decl_wf {C : Closed} {d : Decl} (h : LexicalDecl d) (hi : declIn C d = true) : WfDecl C d := by
  unfold declIn at hi
  unfold LexicalDecl at h
  unfold WfDecl
  cases hb : d.body with
  | leaf c ty =>
    rw [hb] at hi
    simp only [Bool.and_eq_true, decide_eq_true_eq] at hi
    exact hi
  | repr r =>
    rw [hb] at hi
    simp only [Bool.and_eq_true, decide_eq_true_eq] at hi
    exact ⟨hi.1, trivial⟩
  | struct len items =>
    rw [hb] at hi h
    simp only [Bool.and_eq_true, decide_eq_true_eq] at hi h
    obtain ⟨h1, ⟨⟨h2, h3⟩, h4⟩, h5⟩ := hi
    exact ⟨h1, ⟨h2, lexical_scoped items h.2.2 (plainLengths_iff h3) (fun n hn => hn.elim), h4⟩, h5⟩
  | tagged len arms =>
    rw [hb] at hi h
    simp only [Bool.and_eq_true, decide_eq_true_eq, List.all_eq_true] at hi h
    exact ⟨hi.1, arms_wf h.2.2 (fun n hn => hn.elim) (fun arm harm => List.mem_map.2 ⟨arm, harm, rfl⟩) hi.2⟩

theorem schema_wf {C : Closed} {sch : Schema} (h : ∀ d ∈ sch, LexicalDecl d) (hi : schemaIn C sch = true) :
    WfSchema C sch := by
  have hi := List.all_eq_true.1 hi
  simp only [Bool.and_eq_true, Bool.or_eq_true, Bool.not_eq_true'] at hi
  refine ⟨fun d hd => decl_wf (h d hd) (hi d hd).1, fun n d hd hn => ?_⟩
  have := (hi d (find_mem hd)).2
  have e : d.name = n := by
    unfold Schema.find at hd
    have := List.find?_some hd
    simpa using this
  rw [e] at this
  exact this.resolve_left (by simp [hn])

/-- C55. A specification that is accepted, whatever the resolver and the modules it imports; code is generated for
it (`sch`), and `schemaIn` holds of that. Then whatever bytes the generated encoder writes for a value of one of its
types, the generated decoder reads that value back from them, and leaves what follows. -/
theorem source_round_trip_partial (env : Sem.Env) (hce : EnvClosed env) (hm : PadFreeModules env) (n : Nat)
    (ast : Ast.Program) (hp : ∀ d ∈ ast, PadFreeDecl d) (p : Sem.Prog) (h : Heap) (loads : List String)
    (hc : convert env n ast = .ok (p, h, loads)) (oc : Bool) (m : Nat) (sch : Schema)
    (hl : lowerTypes oc h m p.types = .ok sch)
    (LE : Lib) (LD : Dec.Lib) (C : Closed) (ext : String → List Val → Val → Prop) (hi : Inverse LE LD C ext)
    (hs : schemaIn C sch = true) (fuel : Nat) (type : String) (args : List Val) (v : Val) (bs : Bytes)
    (hf : Fitting sch LE C ext fuel type args v) (he : runEncode sch LE fuel type args v = .ok bs) (tail : Bytes)
    (ht : C.decl type = true ∨ tail = []) :
    Dec.runDecode sch LD fuel type args (bs ++ tail) = .ok (v, tail) :=
  decode_after_encode sch LE LD C ext hi
    (schema_wf (references_in_scope_partial env hce hm n ast hp p h loads hc oc m sch hl) hs)
    fuel type args v bs hf he tail ht

/-- C55 and the layout: whatever value is given, the bytes are the items in the order of the declaration
(`encoded_in_order`), for containers of accepted specifications where at most one length waits at a time. -/
theorem source_in_order_partial (env : Sem.Env) (hce : EnvClosed env) (hm : PadFreeModules env) (n : Nat)
    (ast : Ast.Program) (hp : ∀ d ∈ ast, PadFreeDecl d) (p : Sem.Prog) (h : Heap) (loads : List String)
    (hc : convert env n ast = .ok (p, h, loads)) (oc : Bool) (m : Nat) (sch : Schema)
    (hl : lowerTypes oc h m p.types = .ok sch) (d : Decl) (hd : d ∈ sch) {len : Option Expr} {items : Fields}
    (hb : d.body = .struct len items) (hnd : items.names.Nodup) (hpl : plainLengths items = true)
    (how : oneWaiting items .init none = true) (X : Ext) (v : Val) (bs : Bytes) (hr : runDecl X d v = .ok bs) :
    ∃ (σ : Enc.Env) (Lg : List (String × Nat)) (content : Bytes),
      Holds X v items σ ∧ Calculated X Lg items σ ∧ wire X items σ = .ok (Lg, content) ∧
      encXforms X .empty d.xfs (.ok ((), content)) = .ok ((), bs) := by
  have hx := references_in_scope_partial env hce hm n ast hp p h loads hc oc m sch hl d hd
  unfold LexicalDecl at hx
  rw [hb] at hx
  exact encoded_in_order X d hb hnd (lexical_scoped items hx.2.2 (plainLengths_iff hpl) fun n hn => hn.elim) how v bs hr

/-! ### Cases -/

/-- The declarations that code is generated from, for a source and the modules it may import. -/
def specOf (modules : List (String × Text)) (src : String) : Option Schema :=
  match parse (ascii src) with
  | .error _ => none
  | .ok ast => match convert (textEnv modules) 3 ast with
    | .error _ => none
    | .ok (p, h, _) => match lowerTypes true h 9 p.types with
      | .error _ => none
      | .ok sch => some sch

mutual
/-- No field has a name that begins with `_pad`. -/
def noPadTy : Ast.Ty → Bool
  | .container _ _ items => ((fieldNames items).all fun n => decide (n.toList.take 4 ≠ "_pad".toList)) && noPadItems items
  | .array el _ _ => noPadTy el
  | _ => true
def noPadItems : List Ast.Item → Bool
  | [] => true
  | .field _ f :: rest => noPadField f && noPadItems rest
  | .pad _ :: rest => noPadItems rest
def noPadField : Ast.Field → Bool
  | .mk type _ _ _ _ => noPadTy type
end
def noPadDecl : Ast.Decl → Bool
  | .type _ args f => (args.all fun a => noPadTy a.type) && noPadField f
  | .const _ ty _ => noPadTy ty
  | _ => true

mutual
theorem noPadTy_sound : ∀ (t : Ast.Ty), noPadTy t = true → PadFreeTy t
  | .container _ _ items, h => by
    rw [noPadTy, Bool.and_eq_true, List.all_eq_true] at h
    rw [PadFreeTy]
    refine ⟨fun n hn k he => ?_, noPadItems_sound items h.2⟩
    have := h.1 n hn
    rw [he] at this
    simp [padName] at this
  | .array el _ _, h => by rw [noPadTy] at h; rw [PadFreeTy]; exact noPadTy_sound el h
  | .enum .., _ => by simp [PadFreeTy]
  | .bitfield .., _ => by simp [PadFreeTy]
  | .scalar .., _ => by simp [PadFreeTy]
  | .ref .., _ => by simp [PadFreeTy]
  | .f32, _ => by simp [PadFreeTy]
  | .f64, _ => by simp [PadFreeTy]
  | .bool, _ => by simp [PadFreeTy]
theorem noPadItems_sound : ∀ (is : List Ast.Item), noPadItems is = true → PadFreeItems is
  | [], _ => by simp [PadFreeItems]
  | .field _ f :: rest, h => by
    rw [noPadItems, Bool.and_eq_true] at h; rw [PadFreeItems]
    exact ⟨noPadField_sound f h.1, noPadItems_sound rest h.2⟩
  | .pad _ :: rest, h => by
    rw [noPadItems] at h; rw [PadFreeItems]; exact noPadItems_sound rest h
theorem noPadField_sound : ∀ (f : Ast.Field), noPadField f = true → PadFreeField f
  | .mk type _ _ _ _, h => by rw [noPadField] at h; rw [PadFreeField]; exact noPadTy_sound type h
end

theorem noPadDecl_sound {d : Ast.Decl} (h : noPadDecl d = true) : PadFreeDecl d := by
  cases d with
  | type n args f =>
    simp only [noPadDecl, Bool.and_eq_true, List.all_eq_true] at h
    exact ⟨fun a ha => noPadTy_sound _ (h.1 a ha), noPadField_sound _ h.2⟩
  | const n ty v => exact noPadTy_sound _ h
  | import_ _ _ => trivial
  | ffi _ _ => trivial

/-- A source none of whose fields has a name that begins with `_pad`. -/
def noPadText (src : Text) : Bool :=
  match parse src with
  | .ok ast => ast.all noPadDecl
  | .error _ => true

/-- C55 for sources: everything that is required can be computed from the text. -/
theorem text_round_trip_partial (modules : List (String × Text)) (src : String) (sch : Schema)
    (hs : specOf modules src = some sch) (hp : noPadText (ascii src) = true)
    (hm : ∀ x ∈ modules, noPadText x.2 = true)
    (LE : Lib) (LD : Dec.Lib) (C : Closed) (ext : String → List Val → Val → Prop) (hi : Inverse LE LD C ext)
    (hin : schemaIn C sch = true) (fuel : Nat) (type : String) (args : List Val) (v : Val) (bs : Bytes)
    (hf : Fitting sch LE C ext fuel type args v) (he : runEncode sch LE fuel type args v = .ok bs) (tail : Bytes)
    (ht : C.decl type = true ∨ tail = []) :
    Dec.runDecode sch LD fuel type args (bs ++ tail) = .ok (v, tail) := by
  unfold specOf at hs
  unfold noPadText at hp
  split at hs
  · cases hs
  · rename_i ast hparse
    rw [hparse] at hp
    split at hs
    · cases hs
    · rename_i p h loads hc
      split at hs
      · cases hs
      · rename_i sch' hl
        cases hs
        refine source_round_trip_partial _ (textEnv_closed modules) ?_ 3 ast
          (fun d hd => noPadDecl_sound (List.all_eq_true.1 hp d hd)) p h loads hc true 9 sch hl LE LD C ext hi hin
          fuel type args v bs hf he tail ht
        intro name a ha d hd
        simp only [textEnv, Except.ok.injEq, Option.map_eq_some_iff] at ha
        obtain ⟨text, h1, h2⟩ := ha
        have h3 := hm _ (IMap.get_mem h1)
        unfold noPadText at h3
        cases hp : parse text with
        | error e => rw [hp] at h2; cases h2
        | ok b =>
          rw [hp] at h2 h3
          cases h2
          exact noPadDecl_sound (List.all_eq_true.1 h3 d hd)

/-- Bytes with their number before them. -/
def countedSource : String := "type p = container { n: u8, d: u8[n] };"

def countedSchema : Schema :=
  [⟨"p", [], [], .struct none (.leaf (plain "n") u8T
    (.leaf (plain "d") (.array u8T (.fixed (.cast .plain (.fieldRef "n") (.scalar .u64)))) .nil))⟩]

theorem counted_spec : specOf [] countedSource = some countedSchema := by decide +kernel

/-- The value with the given bytes. -/
def countedVal (data : List Val) : Val := .struct "p" [("n", vu8 data.length), ("d", .arr data)]

theorem counted_fit (data : List Val) (hd : ∀ x ∈ data, HasPrim (.scalar ⟨.u8, .big⟩) x) (hn : data.length < 256)
    (fuel : Nat) : Fitting countedSchema noEncLib openEnds (fun _ _ _ => False) (fuel + 1) "p" [] (countedVal data) := by
  intro d hd'
  cases hd'
  refine ⟨_, rfl, rfl, ?_⟩
  rintro σ Lg content ⟨h1, -, -⟩
  have g1 : σ "n" = some (vu8 data.length) := by
    obtain ⟨y, hy, hσ⟩ := (h1 (plain "n") (by decide)).1 rfl
    cases hy; exact hσ
  have g2 : σ "d" = some (.arr data) := by
    obtain ⟨y, hy, hσ⟩ := (h1 (plain "d") (by decide)).1 rfl
    cases hy; exact hσ
  refine ⟨⟨?_, fun _ h => nomatch h⟩, ?_⟩
  · simp only [RT.Fits, plain, u8T, FitsLeaf, LTy.resolved]
    refine ⟨?_, ?_, trivial⟩
    · rw [g1]; rintro v ⟨⟩; exact ⟨_, rfl, byte_inRange hn⟩
    · rw [g2]; rintro v ⟨⟩; exact ⟨_, rfl, hd, by simp [Prim.size, Scalar.size]; omega⟩
  · intro q hq
    simp only [List.mem_cons, List.not_mem_nil, or_false] at hq
    rcases hq with rfl | rfl
    · exact g1
    · exact g2

/-- From the text to the bytes and back: whatever up to 255 bytes. -/
theorem counted_round_trip (data : List Val) (hd : ∀ x ∈ data, HasPrim (.scalar ⟨.u8, .big⟩) x) (hn : data.length < 256)
    (bs : Bytes) (he : runEncode countedSchema noEncLib 1 "p" [] (countedVal data) = .ok bs) (tail : Bytes) :
    Dec.runDecode countedSchema noLib 1 "p" [] (bs ++ tail) = .ok (countedVal data, tail) :=
  text_round_trip_partial [] countedSource countedSchema counted_spec (by decide +kernel) (by simp) noEncLib noLib openEnds
    (fun _ _ _ => False) noLib_inverse (by decide +kernel) 1 "p" [] _ bs (counted_fit data hd hn 0) he tail (.inl rfl)

example : runEncode countedSchema noEncLib 1 "p" [] (countedVal [vu8 7, vu8 8, vu8 9]) = .ok [3, 7, 8, 9] := by
  decide +kernel

/-- A specification with an imported type, a calculated length, a condition and a tagged enum. -/
def packetModules : List (String × Text) :=
  [("kinds", ascii "type Kind = enum u8 { Text = 0, Other = default }; type Pair = container { x: u8, y: u8[x] };")]
def packetSource : String :=
  "import Kind, Pair as P2, Pair from \"kinds\"; type p = u8;"
def packetText : String :=
  "import Kind, Pair from \"kinds\";
   type Body(k: Kind) = container +tagged_enum {
     text: container { n: u16, s: u8[n] } { k == Kind::Text },
     rest: u8[..]
   };
   type Packet = container {
     kind: Kind,
     size: u32 = blen(data) :> u32,
     .pad: 2,
     data: container [size] { pair: Pair, body: Body(kind) },
     sum: u16 { size > 4 }
   };"

/-- Which types of it may be followed by other bytes: all but `Body`. -/
def packetEnds : Closed := ⟨fun n => n != "Body", fun _ => true, fun _ => false⟩

/-! It meets the hypotheses of `text_round_trip_partial`; imported under another name, a type is outside the model. -/
#guard ((specOf packetModules packetText).map fun sch => (sch.map Decl.name, schemaIn packetEnds sch)) ==
  some (["Kind", "Pair", "Body", "Packet"], true)
#guard noPadText (ascii packetText) && packetModules.all fun x => noPadText x.2
#guard (specOf packetModules packetSource).isNone

/-- What is out of scope is rejected: a field declared later, a field of another container. -/
theorem out_of_scope_rejected :
    specOf [] "type a = container { d: u8[n], n: u8 };" = none ∧
    specOf [] "type a = container { c: container { j: u8[n] }, n: u8 };" = none ∧
    specOf [] "type a = container { c: container { x: u8 }, d: u8[x] };" = none := by decide +kernel

/-- Within scope: an enclosing container's earlier field, a calculated value over a later field. -/
example : (specOf [] "type a = container { n: u8 = len(d) :> u8, c: container { j: u8[n] }, d: u8[n] };").isSome = true := by
  decide +kernel

def isIll {α} : Res α → Bool
  | .error .ill => true
  | _ => false

/-- Finding: an alternative of a tagged enum may refer to an alternative before it, which no message has
together with it. Such a specification is accepted, but no code comes out (`compiler/decoder.rs` 48-50,
`compiler/encoder.rs` 436). -/
theorem arm_reference_finding :
    ((specOf [] "type a = container +tagged_enum { p: u8 { false }, q: u8[p] };").map fun sch =>
      (isIll (Dec.runDecode sch noLib 2 "a" [] [1, 2, 3]),
        isIll (runEncode sch noEncLib 2 "a" [] (.variant "a" "q" (.arr [vu8 1]))))) = some (true, true) := by
  decide +kernel

/-- Finding: a field named like a padding is lost, and so are references to it: no code comes out. The
condition on names in `references_in_scope_partial` cannot be dropped. -/
theorem pad_reference_finding :
    ((specOf [] "type a = container { _pad0: u8, .pad: 2, d: u8[_pad0] };").map fun sch =>
      (isIll (Dec.runDecode sch noLib 2 "a" [] [1, 2, 3]),
        isIll (runEncode sch noEncLib 2 "a" [] (.struct "a" [("d", .arr [vu8 1])])))) = some (true, true) := by
  decide +kernel

end Verif.Props
