import Verif.Props.Async
import Verif.Props.Says
import Verif.Hygiene
/-!
# C64: parameters mean their arguments

A parameter of a type is emitted under its own name into functions that have variables of the generator's own. The semantics of C02-C63 looks parameters
up by name and registers by number; here they share Rust's scopes (`Verif/Hygiene.lean`).
-/
namespace Verif.Props
open Verif Verif.Sem

/-- Names that do not get in the way: the parameters are distinct and not called `reader` or `writer`; what the expressions mention besides fields is
not called like a variable of the generated functions: `r_0`, `r_1`, .., `buf`, `r`, `r_len`, `r_xform`, `big_scratch` (`clean_iff`). -/
def Hygienic (d : Decl) : Prop :=
  d.params.Nodup ∧ "reader" ∉ d.params ∧ "writer" ∉ d.params ∧ ∀ n ∈ d.vars, clean n = true

instance (d : Decl) : Decidable (Hygienic d) := by unfold Hygienic; infer_instance

theorem callDecl_run_congr {sch : Schema} {L : Dec.Lib} {run run' : Dec.Ext → Decl → Bytes → Res (Val × Bytes)}
    (h : ∀ X d bs, d ∈ sch → run X d bs = run' X d bs) : ∀ (fuel : Nat) (n : String) (args : List Val) (bs : Bytes),
    Dec.callDecl sch L run fuel n args bs = Dec.callDecl sch L run' fuel n args bs
  | 0, _, _, _ => rfl
  | fuel + 1, n, args, bs => by
    have ih : Dec.callDecl sch L run fuel = Dec.callDecl sch L run' fuel := by
      funext n args bs; exact callDecl_run_congr h fuel n args bs
    simp only [Dec.callDecl]
    cases hf : sch.find n with
    | none => rfl
    | some d =>
      have hd : d ∈ sch := List.mem_of_find?_eq_some hf
      simp only [ih, h _ d _ hd]

theorem encCallDecl_run_congr {sch : Schema} {L : Enc.Lib} {run run' : Enc.Ext → Decl → Val → Res Bytes}
    (h : ∀ X d v, d ∈ sch → run X d v = run' X d v) : ∀ (fuel : Nat) (n : String) (args : List Val) (v : Val),
    Enc.callDecl sch L run fuel n args v = Enc.callDecl sch L run' fuel n args v
  | 0, _, _, _ => rfl
  | fuel + 1, n, args, v => by
    have ih : Enc.callDecl sch L run fuel = Enc.callDecl sch L run' fuel := by
      funext n args v; exact encCallDecl_run_congr h fuel n args v
    simp only [Enc.callDecl]
    cases hf : sch.find n with
    | none => rfl
    | some d =>
      have hd : d ∈ sch := List.mem_of_find?_eq_some hf
      simp only [ih, h _ d _ hd]

/-- **C64, decoding (partial).** With Rust's scoping, the decoders of a specification whose names do not get in the way compute the specified function, in
which a parameter is the argument supplied for it.

Missing: other names. The code does not keep them apart: `captured_parameter_finding`, `reader_parameter_finding`. -/
theorem parameters_mean_arguments_decoding_partial (sch : Schema) (L : Dec.Lib) (hnd : ∀ d ∈ sch, d.FieldsNodup) (hh : ∀ d ∈ sch, Hygienic d)
    (fuel : Nat) (name : String) (args : List Val) (input : Bytes) :
    Dec.runDecodeN sch L fuel name args input = Dec.specDecode sch L fuel name args input := by
  rw [← decode_refines sch L hnd]
  refine callDecl_run_congr (fun X d bs hd => ?_) fuel name args input
  obtain ⟨h1, h2, -, h4⟩ := hh d hd
  exact Dec.runDeclN_eq (List.nodup_cons.mpr ⟨h2, h1⟩) h4 bs

/-- **C64, encoding (partial).** Likewise for encoders. -/
theorem parameters_mean_arguments_encoding_partial (sch : Schema) (L : Enc.Lib) (hh : ∀ d ∈ sch, Hygienic d)
    (fuel : Nat) (name : String) (args : List Val) (v : Val) :
    Enc.runEncodeN sch L fuel name args v = Enc.specEncode sch L fuel name args v := by
  rw [← encode_refines sch L]
  refine encCallDecl_run_congr (fun X d v hd => ?_) fuel name args v
  obtain ⟨h1, -, h3, h4⟩ := hh d hd
  exact Enc.runDeclN_eq (List.nodup_cons.mpr ⟨h3, h1⟩) h4 v

/-! ### What the expressions mention -/

/-- A parameter in view, or a constant. -/
def Known (ms : Modules) (text : Ast.Program) (V : InView) (n : String) : Prop :=
  n ∈ V.params.map (·.1) ∨ ∃ m home ty v, ConstOrigin ms text m home n ty v

theorem nearest_mem {n : String} : ∀ {l : List (String × Ast.Ty)} {ty : Ast.Ty}, nearest n l = some ty → n ∈ l.map (·.1)
  | [], _, h => by cases h
  | (m, t) :: rest, ty, h => by
    simp only [nearest] at h
    split at h
    · rename_i e; simp [e]
    · exact List.mem_cons_of_mem _ (nearest_mem h)

mutual
theorem saysE_vars {ms : Modules} {text : Ast.Program} {V : InView} {s : Ast.Expression} {e : Expr} {τ : Verif.Written} :
    SaysE ms text V s e τ → ∀ n ∈ e.vars, Known ms text V n
  | .exact h, n, hn => saysC_vars h n hn
  | .widened h _, n, hn => saysC_vars h n hn
  | .represented h _, n, hn => saysC_vars h n hn
theorem saysC_vars {ms : Modules} {text : Ast.Program} {V : InView} {s : Ast.Expression} {e : Expr} {τ : Verif.Written} :
    SaysC ms text V s e τ → ∀ n ∈ e.vars, Known ms text V n
  | .binary h1 h2, n, hn => by
    rcases List.mem_append.mp hn with h | h
    · exact saysE_vars h1 n h
    · exact saysE_vars h2 n h
  | .unary h, n, hn => saysE_vars h n hn
  | .cast h _, n, hn => saysE_vars h n hn
  | .index h1 h2, n, hn => by
    rcases List.mem_append.mp hn with h | h
    · exact saysE_vars h1 n h
    · exact saysE_vars h2 n h
  | .variant _ _ _, n, hn => by cases hn
  | .flag _ _ _, n, hn => by cases hn
  | .int _ _, n, hn => by cases hn
  | .field _, n, hn => by cases hn
  | .param _ h, n, hn => by
    simp only [Expr.vars, List.mem_singleton] at hn
    subst hn
    exact .inl (nearest_mem h)
  | .const _ _ ho _, n, hn => by
    simp only [Expr.vars, List.mem_singleton] at hn
    subst hn
    exact .inr ⟨_, _, _, _, ho⟩
  | .str, n, hn => by cases hn
  | .ternary h1 h2 h3, n, hn => by
    rcases List.mem_append.mp hn with h | h
    · rcases List.mem_append.mp h with h | h
      · exact saysE_vars h1 n h
      · exact saysE_vars h2 n h
    · exact saysE_vars h3 n h
  | .bool, n, hn => by cases hn
  | .len h _, n, hn => saysE_vars h n hn
  | .blen _, n, hn => by cases hn
  | .sum h, n, hn => saysE_vars h n hn
  | .bits h, n, hn => saysE_vars h n hn
  | .pad h1 h2, n, hn => by
    rcases List.mem_append.mp hn with h | h
    · exact saysE_vars h1 n h
    · exact saysE_vars h2 n h
  | .member h _ _ _, n, hn => saysE_vars h n hn
  | .memberInside h _, n, hn => saysE_vars h n hn
  | .memberUnknown h, n, hn => saysE_vars h n hn
end

/-- All that expressions mention is known. -/
def AllKnown (ms : Modules) (text : Ast.Program) (V : InView) (es : List Expr) : Prop :=
  ∀ e ∈ es, ∀ n ∈ e.vars, Known ms text V n

section
variable {ms : Modules} {oc : Bool} {text : Ast.Program}

theorem AllKnown.append {V : InView} {a b : List Expr} (ha : AllKnown ms text V a) (hb : AllKnown ms text V b) :
    AllKnown ms text V (a ++ b) := fun e he => (List.mem_append.mp he).elim (ha e) (hb e)

theorem AllKnown.same {V W : InView} (h : V.params = W.params) {a : List Expr} (ha : AllKnown ms text V a) :
    AllKnown ms text W a := fun e he n hn => by
  have := ha e he n hn
  unfold Known at *
  rwa [← h]

theorem saysEs_known {V : InView} {ss : List Ast.Expression} {es : List Expr} (h : SaysEs ms text V ss es) :
    AllKnown ms text V es := by
  induction h with
  | nil => intro e he; cases he
  | cons h _ ih =>
    intro e he
    rcases List.mem_cons.mp he with rfl | he
    · exact saysE_vars h
    · exact ih e he

theorem saysOpt_known {V : InView} {s : Option Ast.Expression} {e : Option Expr} (h : SaysOpt ms text V s e) :
    AllKnown ms text V e.toList := by
  cases h with
  | none => intro e he; cases he
  | some h =>
    intro e he
    simp only [Option.toList_some, List.mem_singleton] at he
    subst he
    exact saysE_vars h

theorem saysTy_known {V : InView} {s : Ast.Ty} {t : LTy} (h : SaysTy ms oc text V s t) :
    AllKnown ms text V (Enc.LTy.exprs t) := by
  induction h with
  | prim _ => intro e he; cases he
  | fixed _ h ih =>
    refine AllKnown.append ?_ ih
    intro e he
    simp only [List.mem_singleton] at he
    subst he; exact saysE_vars h
  | terminated _ h ih =>
    refine AllKnown.append ?_ ih
    intro e he
    simp only [List.mem_singleton] at he
    subst he; exact saysE_vars h
  | unbounded _ ih => exact AllKnown.append (by intro e he; cases he) ih
  | ref _ h _ => exact saysEs_known h
  | foreign _ h => exact saysEs_known h

theorem saysXforms_known {V : InView} {ss : List Ast.Transform} {xs : List XformUse} (h : SaysXforms ms text V ss xs) :
    AllKnown ms text V (xs.flatMap Enc.XformUse.exprs) := by
  induction h with
  | nil => intro e he; cases he
  | cons h1 h2 _ ih =>
    rw [List.flatMap_cons]
    exact AllKnown.append (AllKnown.append (saysOpt_known h2) (saysEs_known h1)) ih

theorem saysItems_known {V A : InView} {k : Nat} {ss : List Ast.Item} {fs : Fields}
    (h : SaysItems ms oc text V A k ss fs) : V.params = A.params → AllKnown ms text V fs.exprs := by
  induction h with
  | nil => intro _ e he; cases he
  | pad h _ ih =>
    intro hp e he
    rcases List.mem_cons.mp he with rfl | he
    · exact saysE_vars h
    · exact ih hp e he
  | leaf h1 h2 h3 h4 _ ih =>
    intro hp
    exact AllKnown.append (AllKnown.append (AllKnown.append (AllKnown.append (saysOpt_known h2) (saysXforms_known h3))
      (saysTy_known h1)) ((saysOpt_known h4).same hp.symm)) (AllKnown.same (by rfl) (ih hp))
  | cont _ h1 _ h2 h3 _ ih1 ih2 =>
    intro hp
    exact AllKnown.append (AllKnown.append (AllKnown.append (AllKnown.append (saysOpt_known h2) (saysXforms_known h3))
      (saysOpt_known h1)) (ih1 rfl)) (AllKnown.same (by rfl) (ih2 hp))

theorem saysArms_known {V : InView} {ss : List Ast.Item} {arms : List Arm}
    (h : SaysArms ms oc text V ss arms) : AllKnown ms text V (arms.flatMap Arm.exprs) := by
  induction h with
  | nil => intro e he; cases he
  | leaf h1 h2 h3 _ ih =>
    rw [List.flatMap_cons]
    exact AllKnown.append (AllKnown.append (AllKnown.append (saysOpt_known h2) (saysXforms_known h3)) (saysTy_known h1))
      (AllKnown.same (by rfl) ih)
  | cont _ h1 hi h2 h3 _ ih =>
    rw [List.flatMap_cons]
    exact AllKnown.append (AllKnown.append (AllKnown.append (saysOpt_known h2) (saysXforms_known h3))
      (AllKnown.append (saysOpt_known h1) (saysItems_known hi rfl))) (AllKnown.same (by rfl) ih)

/-- The expressions of a declaration mention, besides fields, its parameters and constants. -/
theorem saysDecl_vars {s : Ast.Decl} {d : Decl} (h : SaysDecl ms oc text s d) :
    ∀ n ∈ d.vars, n ∈ d.params ∨ ∃ m home ty v, ConstOrigin ms text m home n ty v := by
  cases h with
  | @mk name params ty cond xs xs' body hd hx hb =>
    have key : AllKnown ms text (.start params) (Decl.exprs ⟨name, params.map (·.name), xs', body⟩) := by
      refine AllKnown.append (saysXforms_known hx) ?_
      cases hb with
      | leaf h1 h2 => exact AllKnown.append (saysOpt_known h2) (saysTy_known h1)
      | repr _ => intro e he; cases he
      | struct _ h1 h2 => exact AllKnown.append (saysOpt_known h1) (saysItems_known h2 rfl)
      | tagged _ h1 h2 => exact AllKnown.append (saysOpt_known h1) (saysArms_known h2)
    intro n hn
    obtain ⟨e, he, hv⟩ := List.mem_flatMap.mp hn
    rcases key e he n hv with h | h
    · left
      simpa [InView.start] using h
    · exact .inr h

end

/-- A text the specification is made of: the source, or a module it can load. -/
def IsSource (modules : List (String × Text)) (src : String) (text : Ast.Program) : Prop :=
  parse (ascii src) = .ok text ∨ ∃ name, (textEnv modules).load name = .ok (some (some text))

/-- What is asked of the names of an accepted specification, in terms of its text. -/
theorem text_hygienic (modules : List (String × Text)) (src : String) (sch : Schema)
    (hs : specOf modules src = some sch) (hp : noPadText (ascii src) = true) (hm : ∀ x ∈ modules, noPadText x.2 = true)
    (hd : ∀ d ∈ sch, d.params.Nodup ∧ "reader" ∉ d.params ∧ "writer" ∉ d.params ∧ ∀ n ∈ d.params, clean n = true)
    (hc : ∀ text n ty v, IsSource modules src text → .const n ty v ∈ text →
      clean n = true) :
    ∀ d ∈ sch, Hygienic d := by
  intro d hdm
  obtain ⟨h1, h2, h3, h4⟩ := hd d hdm
  refine ⟨h1, h2, h3, fun n hn => ?_⟩
  obtain ⟨ast, hparse, hsays, -⟩ := text_code_from_source_partial modules src sch hs hp hm
  obtain ⟨home, args, f, ho, hsd⟩ := hsays d hdm
  rcases saysDecl_vars hsd n hn with h | ⟨m, home', ty, v, hco⟩
  · exact h4 n h
  · have hhome : IsSource modules src home := by
      rcases typeOrigin_home ho with ⟨-, rfl | ⟨md, h⟩⟩
      · exact .inl hparse
      · exact .inr ⟨md, h⟩
    have key : ∀ {t m home' n ty v}, ConstOrigin (modulesOf (textEnv modules)) t m home' n ty v →
        IsSource modules src t →
        IsSource modules src home' ∧ .const n ty v ∈ home' := by
      intro t m home' n ty v h
      induction h with
      | here h => exact fun ht => ⟨ht, h⟩
      | imported _ _ _ _ h2 _ ih => 
        refine fun _ => ih (.inr ?_)
        simp only [modulesOf] at h2
        split at h2
        · split at h2
          · rename_i hl; cases h2; exact ⟨_, hl⟩
          · cases h2
        · cases h2
    obtain ⟨h5, h6⟩ := key hco hhome
    exact hc home' n ty v h5 h6

/-- **C64 for accepted specifications (partial).** If no parameter of a type and no constant has the name of a variable of the generated functions, the
parameters of each type are distinct and none is called `reader` or `writer`, then the generated functions, with Rust's scoping, compute the specified ones.

Missing: other names, for which it is false (findings below). -/
theorem text_parameters_mean_arguments_partial (modules : List (String × Text)) (src : String) (sch : Schema)
    (hs : specOf modules src = some sch) (hp : noPadText (ascii src) = true) (hm : ∀ x ∈ modules, noPadText x.2 = true)
    (hnd : ∀ d ∈ sch, d.FieldsNodup)
    (hd : ∀ d ∈ sch, d.params.Nodup ∧ "reader" ∉ d.params ∧ "writer" ∉ d.params ∧ ∀ n ∈ d.params, clean n = true)
    (hc : ∀ text n ty v, IsSource modules src text → .const n ty v ∈ text → clean n = true) :
    (∀ L fuel name args input, Dec.runDecodeN sch L fuel name args input = Dec.specDecode sch L fuel name args input) ∧
    (∀ E fuel name args v, Enc.runEncodeN sch E fuel name args v = Enc.specEncode sch E fuel name args v) :=
  have hh := text_hygienic modules src sch hs hp hm hd hc
  ⟨fun L => parameters_mean_arguments_decoding_partial sch L hnd hh, fun E => parameters_mean_arguments_encoding_partial sch E hh⟩

/-! ### Cases -/

/-- No constant of the text has the name of a variable of the generated functions. -/
def cleanConsts (src : Text) : Bool :=
  match parse src with
  | .ok ast => ast.all fun d => match d with
    | .const n _ _ => clean n
    | _ => true
  | .error _ => true

theorem cleanConsts_sound {modules : List (String × Text)} {src : String} (hs : cleanConsts (ascii src) = true)
    (hm : (modules.all fun x => cleanConsts x.2) = true) (text : Ast.Program) (n : String) (ty : Ast.Ty) (v : Ast.Expression)
    (ht : IsSource modules src text) (hc : .const n ty v ∈ text) : clean n = true := by
  have key : ∀ t : Text, cleanConsts t = true → parse t = .ok text → clean n = true := by
    intro t h1 h2
    simp only [cleanConsts, h2, List.all_eq_true] at h1
    exact h1 _ hc
  rcases ht with h | ⟨name, h⟩
  · exact key _ hs h
  · simp only [textEnv, Except.ok.injEq, Option.map_eq_some_iff] at h
    obtain ⟨t, h1, h2⟩ := h
    cases hp : parse t with
    | error e => rw [hp] at h2; cases h2
    | ok a =>
      rw [hp] at h2; cases h2
      exact key t (List.all_eq_true.mp hm _ (IMap.get_mem h1)) hp

/-- The fields of each struct have distinct names. -/
def distinctFields (d : Decl) : Bool :=
  match d.body with
  | .struct _ items => decide items.names.Nodup
  | .tagged _ arms => arms.all fun a => match a.body with
    | .cont _ items => decide items.names.Nodup
    | .leaf _ => true
  | _ => true

theorem distinctFields_sound {d : Decl} (h : distinctFields d = true) : d.FieldsNodup := by
  unfold distinctFields at h
  unfold Decl.FieldsNodup
  cases hb : d.body with
  | leaf _ _ => trivial
  | repr _ => trivial
  | struct _ items => simp only [hb, decide_eq_true_eq] at h; exact h
  | tagged _ arms =>
    simp only [hb, List.all_eq_true] at h
    intro arm ha len items hi
    have := h arm ha
    simpa only [hi, decide_eq_true_eq] using this


/-- `packetText` of C55 is hygienic. -/
example : ((specOf packetModules packetText).map fun sch => sch.all fun d => decide (Hygienic d)) = some true := by
  decide +kernel

/-- What is asked of a schema. -/
def hygienicSchema (sch : Schema) : Bool :=
  sch.all fun d => distinctFields d && decide (d.params.Nodup ∧ "reader" ∉ d.params ∧ "writer" ∉ d.params ∧ ∀ n ∈ d.params, clean n = true)

theorem packet_hygienic : ((specOf packetModules packetText).map hygienicSchema) = some true := by decide +kernel

/-- The theorem for texts applies to it. -/
example (sch : Schema) (hs : specOf packetModules packetText = some sch) :
    (∀ L fuel name args input, Dec.runDecodeN sch L fuel name args input = Dec.specDecode sch L fuel name args input) ∧
    (∀ E fuel name args v, Enc.runEncodeN sch E fuel name args v = Enc.specEncode sch E fuel name args v) := by
  have h := packet_hygienic
  rw [hs] at h
  simp only [Option.map_some, Option.some.injEq, hygienicSchema, Bool.and_eq_true, List.all_eq_true, decide_eq_true_eq] at h
  have hp : noPadText (ascii packetText) = true := by decide +kernel
  have hm : (packetModules.all fun x => noPadText x.2) = true := by decide +kernel
  exact text_parameters_mean_arguments_partial _ _ _ hs hp (fun x hx => List.all_eq_true.mp hm x hx)
    (fun d hd => distinctFields_sound (h d hd).1) (fun d hd => (h d hd).2) (cleanConsts_sound (by decide +kernel) (by decide +kernel))

/-- A list of items that all get the parameter of the list. -/
def capturedSource : String :=
  "type item(n: u64) = container { x: u8, y: u8 { n == 1u64 } }; type list(r_len: u64) = container { items: item(r_len)[..] };"

/-- The same with another name. -/
def freeSource : String :=
  "type item(n: u64) = container { x: u8, y: u8 { n == 1u64 } }; type list(len: u64) = container { items: item(len)[..] };"

def pairDecl : Decl :=
  ⟨"item", ["n"], [], .struct none
    (.leaf (plain "x") u8T (.leaf ⟨"y", some (.binary .eq (.inputRef "n") (.int ⟨.u64, 1⟩)), [], none⟩ u8T .nil))⟩

def pairListDecl (p : String) : Decl :=
  ⟨"list", [p], [], .struct none (.leaf (plain "items") (.array (.ref "item" false .other [.inputRef p]) .unbounded) .nil)⟩

def capturedSchema : Schema := [pairDecl, pairListDecl "r_len"]
def freeSchema : Schema := [pairDecl, pairListDecl "len"]

theorem captured_spec : specOf [] capturedSource = some capturedSchema := by decide +kernel
theorem free_spec : specOf [] freeSource = some freeSchema := by decide +kernel

def pairVal (x : Nat) (y : Option Nat) : Val :=
  .struct "item" [("x", .int ⟨.u8, x⟩), ("y", .opt (y.map fun n => .int ⟨.u8, n⟩))]

/-- Both theorems apply to the second text. -/
example (L : Dec.Lib) (E : Enc.Lib) (fuel : Nat) (args : List Val) :
    (∀ input, Dec.runDecodeN freeSchema L fuel "list" args input = Dec.specDecode freeSchema L fuel "list" args input) ∧
    (∀ v, Enc.runEncodeN freeSchema E fuel "list" args v = Enc.specEncode freeSchema E fuel "list" args v) := by
  have hh : ∀ d ∈ freeSchema, Hygienic d := by decide +kernel
  have hn : ∀ d ∈ freeSchema, d.FieldsNodup := by
    intro d hd
    simp only [freeSchema, List.mem_cons, List.not_mem_nil, or_false] at hd
    rcases hd with rfl | rfl <;> simp [pairDecl, pairListDecl, Decl.FieldsNodup, Fields.names, Fields.leaves, plain]
  exact ⟨fun i => parameters_mean_arguments_decoding_partial _ L hn hh fuel "list" args i,
    fun v => parameters_mean_arguments_encoding_partial _ E hh fuel "list" args v⟩

/-- Finding: a parameter called `r_len` is captured. The encoder passes the argument (1) to the items and writes `[7, 8]`; the decoder, called with the
same argument, passes the number of bytes left (2) instead, and returns another value without an error. rustc accepts the code: both are `u64`. -/
theorem captured_parameter_finding :
    specOf [] capturedSource = some capturedSchema ∧
    Enc.runEncodeN capturedSchema noEncLib 3 "list" [.int ⟨.u64, 1⟩] (.struct "list" [("items", .arr [pairVal 7 (some 8)])]) = .ok [7, 8] ∧
    Dec.specDecode capturedSchema noLib 3 "list" [.int ⟨.u64, 1⟩] [7, 8] = .ok (.struct "list" [("items", .arr [pairVal 7 (some 8)])], []) ∧
    Dec.runDecodeN capturedSchema noLib 3 "list" [.int ⟨.u64, 1⟩] [7, 8] =
      .ok (.struct "list" [("items", .arr [pairVal 7 none, pairVal 8 none])], []) :=
  ⟨captured_spec, rfl, rfl, rfl⟩

/-- A parameter with the name of a register. -/
def registerDecl : Decl :=
  ⟨"t", ["r_0"], [], .struct none
    (.leaf (plain "a") u8T (.leaf ⟨"b", some (.binary .eq (.inputRef "r_0") (.int ⟨.u8, 5⟩)), [], none⟩ u8T .nil))⟩

/-- Finding: a parameter called `r_0` is captured by the first register: in the decoder it is the field `a`, in the encoder the value itself, where rustc
rejects the comparison. -/
theorem register_parameter_finding :
    specOf [] "type t(r_0: u8) = container { a: u8, b: u8 { r_0 == 5u8 } };" = some [registerDecl] ∧
    Dec.specDecode [registerDecl] noLib 3 "t" [.int ⟨.u8, 5⟩] [7, 8] =
      .ok (.struct "t" [("a", .int ⟨.u8, 7⟩), ("b", .opt (some (.int ⟨.u8, 8⟩)))], []) ∧
    Dec.runDecodeN [registerDecl] noLib 3 "t" [.int ⟨.u8, 5⟩] [7, 8] =
      .ok (.struct "t" [("a", .int ⟨.u8, 7⟩), ("b", .opt none)], [8]) ∧
    Enc.runEncodeN [registerDecl] noEncLib 3 "t" [.int ⟨.u8, 5⟩]
      (.struct "t" [("a", .int ⟨.u8, 7⟩), ("b", .opt (some (.int ⟨.u8, 8⟩)))]) = .error .ill :=
  ⟨by decide +kernel, rfl, rfl, rfl⟩

/-- Finding: a parameter called `reader` (or two of one name) is accepted; rustc rejects the decoder. -/
theorem reader_parameter_finding :
    (specOf [] "type t(reader: u8) = container { a: u8[reader] };").isSome = true ∧
    (specOf [] "type t(n: u8, n: u8) = container { a: u8[n] };").isSome = true ∧
    (∀ (d : Decl) (X : Dec.Ext) (bs : Bytes), "reader" ∈ d.params → Dec.runDeclN X d bs = .error .ill) ∧
    (∀ (d : Decl) (X : Enc.Ext) (v : Val), "writer" ∈ d.params → Enc.runDeclN X d v = .error .ill) := by
  refine ⟨by decide +kernel, by decide +kernel, fun d X bs h => ?_, fun d X v h => ?_⟩
  · simp [Dec.runDeclN, h]
  · simp [Enc.runDeclN, h]

/-- The names of the generator, spelled out. -/
example : clean "len" = true ∧ clean "r_x" = true ∧ clean "r_01" = true ∧ clean "r_10" = false ∧ clean "buf" = false := by decide +kernel

end Verif.Props
