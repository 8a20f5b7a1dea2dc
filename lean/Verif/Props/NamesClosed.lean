import Verif.Props.RustNames
import Verif.NameGen
/-!
# C77: every type that is mentioned is declared

For specifications without imports. With imports it is false: `import_finding`.
-/
namespace Verif.Props
open Verif

/-- A text without imports. -/
def NoImports (text : Ast.Program) : Prop := ∀ items src, .import_ items src ∉ text

/-- The text declares the type. -/
def DeclaresType (text : Ast.Program) (n : String) : Prop := ∃ params f, .type n params f ∈ text

theorem origin_here {ms : Modules} {text home : Ast.Program} {n : String} {d : Ast.Decl} (hi : NoImports text)
    (h : TypeOrigin ms text n home d) : home = text ∧ d ∈ text := by
  cases h with
  | here h => exact ⟨rfl, h⟩
  | ffi _ h => exact ⟨rfl, h⟩
  | imported _ h => exact absurd h (hi _ _)

section
variable {ms : Modules} {oc : Bool} {text : Ast.Program}

theorem origin_declares {home : Ast.Program} {n m : String} {params : List Ast.TypeArg} {f : Ast.Field} (hi : NoImports text)
    (h : TypeOrigin ms text n home (.type m params f)) : DeclaresType text m :=
  ⟨_, _, (origin_here hi h).2⟩

mutual
theorem saysE_declsIn (hi : NoImports text) {V : InView} {s : Ast.Expression} {e : Expr} {τ : Verif.Written} :
    SaysE ms text V s e τ → DeclsIn (DeclaresType text) e.nameUses
  | .exact h => saysC_declsIn hi h
  | .widened h _ => fun n hn => saysC_declsIn hi h n hn
  | .represented h _ => fun n hn => saysC_declsIn hi h n hn
theorem saysC_declsIn (hi : NoImports text) {V : InView} {s : Ast.Expression} {e : Expr} {τ : Verif.Written} :
    SaysC ms text V s e τ → DeclsIn (DeclaresType text) e.nameUses
  | .binary h1 h2 => (saysE_declsIn hi h1).append (saysE_declsIn hi h2)
  | .unary h => fun n hn => saysE_declsIn hi h n hn
  | .cast h _ => fun n hn => saysE_declsIn hi h n hn
  | .index h1 h2 => (saysE_declsIn hi h1).append (saysE_declsIn hi h2)
  | .variant h _ _ => by
    intro n hn
    simp only [Expr.nameUses, List.mem_singleton, NameUse.decl.injEq] at hn
    subst hn
    exact origin_declares hi h
  | .flag h _ _ => by
    intro n hn
    simp only [Expr.nameUses, List.mem_singleton, NameUse.decl.injEq] at hn
    subst hn
    exact origin_declares hi h
  | .int _ _ => DeclsIn.nil
  | .field _ => DeclsIn.nil
  | .param _ _ => DeclsIn.nil
  | .const _ _ _ _ => DeclsIn.nil
  | .str => DeclsIn.nil
  | .ternary h1 h2 h3 => ((saysE_declsIn hi h1).append (saysE_declsIn hi h2)).append (saysE_declsIn hi h3)
  | .bool => DeclsIn.nil
  | .len (size := size) h _ => by
    cases size with
    | none => exact fun n hn => saysE_declsIn hi h n hn
    | some k => exact DeclsIn.nil
  | .blen _ => DeclsIn.nil
  | .sum h => by
    intro n hn
    simp only [Expr.nameUses, List.mem_cons, reduceCtorEq, false_or] at hn
    exact saysE_declsIn hi h n hn
  | .bits h => fun n hn => saysE_declsIn hi h n hn
  | .pad h1 h2 => (saysE_declsIn hi h1).append (saysE_declsIn hi h2)
  | .member h _ _ _ => fun n hn => saysE_declsIn hi h n hn
  | .memberInside h _ => fun n hn => saysE_declsIn hi h n hn
  | .memberUnknown h => fun n hn => saysE_declsIn hi h n hn
end

theorem saysEs_mentions (hi : NoImports text) {V : InView} {ss : List Ast.Expression} {es : List Expr} (h : SaysEs ms text V ss es) :
    MentionsIn (DeclaresType text) es := by
  induction h with
  | nil => intro e he; cases he
  | cons h _ ih =>
    intro e he
    rcases List.mem_cons.mp he with rfl | he
    · exact saysE_declsIn hi h
    · exact ih e he

theorem saysOpt_mentions (hi : NoImports text) {V : InView} {s : Option Ast.Expression} {e : Option Expr} (h : SaysOpt ms text V s e) :
    MentionsIn (DeclaresType text) e.toList := by
  cases h with
  | none => intro e he; cases he
  | some h =>
    intro e he
    simp only [Option.toList_some, List.mem_singleton] at he
    subst he
    exact saysE_declsIn hi h

theorem behind_declares (hi : NoImports text) {home : Ast.Program} {ty : Ast.Ty} {r : Resolved} (h : Behind ms oc home ty r)
    (hh : home = text) : ∀ t, r = .repr t → DeclaresType text t.name := by
  induction h with
  | prim _ => intro t ht; cases ht
  | array => intro t ht; cases ht
  | container => intro t ht; cases ht
  | foreign _ => intro t ht; cases ht
  | repr ho hr =>
    subst hh
    intro t ht
    cases ht
    have := origin_declares hi ho
    cases hr <;> exact this
  | alias ho _ ih =>
    subst hh
    exact ih (origin_here hi ho).1

theorem saysTy_mentions (hi : NoImports text) {V : InView} {s : Ast.Ty} {t : LTy} (h : SaysTy ms oc text V s t) :
    MentionsIn (DeclaresType text) (Enc.LTy.exprs t) ∧ t.DeclsIn (DeclaresType text) := by
  induction h with
  | prim _ => exact ⟨(by intro e he; cases he), trivial⟩
  | fixed _ h ih =>
    refine ⟨MentionsIn.append ?_ ih.1, ih.2⟩
    intro e he
    simp only [List.mem_singleton] at he
    subst he; exact saysE_declsIn hi h
  | terminated _ h ih =>
    refine ⟨MentionsIn.append ?_ ih.1, ih.2⟩
    intro e he
    simp only [List.mem_singleton] at he
    subst he; exact saysE_declsIn hi h
  | unbounded _ ih => exact ⟨MentionsIn.append (by intro e he; cases he) ih.1, ih.2⟩
  | ref ho h hb => exact ⟨saysEs_mentions hi h, fun _ => origin_declares hi ho, behind_declares hi hb rfl⟩
  | foreign _ h => exact ⟨saysEs_mentions hi h, by simp, by intro t ht; cases ht⟩

theorem saysXforms_mentions (hi : NoImports text) {V : InView} {ss : List Ast.Transform} {xs : List XformUse} (h : SaysXforms ms text V ss xs) :
    MentionsIn (DeclaresType text) (xs.flatMap Enc.XformUse.exprs) := by
  induction h with
  | nil => intro e he; cases he
  | cons h1 h2 _ ih =>
    rw [List.flatMap_cons]
    exact MentionsIn.append (MentionsIn.append (saysOpt_mentions hi h2) (saysEs_mentions hi h1)) ih

theorem saysItems_mentions (hi : NoImports text) {V A : InView} {k : Nat} {ss : List Ast.Item} {fs : Fields}
    (h : SaysItems ms oc text V A k ss fs) : MentionsIn (DeclaresType text) fs.exprs ∧ fs.DeclsIn (DeclaresType text) := by
  induction h with
  | nil => exact ⟨(by intro e he; cases he), trivial⟩
  | pad h _ ih =>
    refine ⟨?_, ih.2⟩
    intro e he
    rcases List.mem_cons.mp he with rfl | he
    · exact saysE_declsIn hi h
    · exact ih.1 e he
  | leaf h1 h2 h3 h4 _ ih =>
    exact ⟨MentionsIn.append (MentionsIn.append (MentionsIn.append (MentionsIn.append (saysOpt_mentions hi h2) (saysXforms_mentions hi h3))
      (saysTy_mentions hi h1).1) (saysOpt_mentions hi h4)) ih.1, (saysTy_mentions hi h1).2, ih.2⟩
  | cont _ h1 _ h2 h3 _ ih1 ih2 =>
    exact ⟨MentionsIn.append (MentionsIn.append (MentionsIn.append (MentionsIn.append (saysOpt_mentions hi h2) (saysXforms_mentions hi h3))
      (saysOpt_mentions hi h1)) ih1.1) ih2.1, ih1.2, ih2.2⟩

theorem saysArms_mentions (hi : NoImports text) {V : InView} {ss : List Ast.Item} {arms : List Arm} (h : SaysArms ms oc text V ss arms) :
    MentionsIn (DeclaresType text) (arms.flatMap Arm.exprs) ∧ ∀ a ∈ arms, a.body.DeclsIn (DeclaresType text) := by
  induction h with
  | nil => exact ⟨(by intro e he; cases he), (by intro a ha; cases ha)⟩
  | leaf h1 h2 h3 _ ih =>
    rw [List.flatMap_cons]
    refine ⟨MentionsIn.append (MentionsIn.append (MentionsIn.append (saysOpt_mentions hi h2) (saysXforms_mentions hi h3))
      (saysTy_mentions hi h1).1) ih.1, ?_⟩
    intro a ha
    rcases List.mem_cons.1 ha with rfl | ha
    · exact (saysTy_mentions hi h1).2
    · exact ih.2 a ha
  | cont _ h1 hit h2 h3 _ ih =>
    rw [List.flatMap_cons]
    refine ⟨MentionsIn.append (MentionsIn.append (MentionsIn.append (saysOpt_mentions hi h2) (saysXforms_mentions hi h3))
      (MentionsIn.append (saysOpt_mentions hi h1) (saysItems_mentions hi hit).1)) ih.1, ?_⟩
    intro a ha
    rcases List.mem_cons.1 ha with rfl | ha
    · exact (saysItems_mentions hi hit).2
    · exact ih.2 a ha

theorem saysDecl_mentions (hi : NoImports text) {s : Ast.Decl} {d : Decl} (hs : s ∈ text) (h : SaysDecl ms oc text s d) :
    DeclaresType text d.name ∧ MentionsIn (DeclaresType text) d.exprs ∧ d.body.DeclsIn (DeclaresType text) := by
  cases h with
  | @mk name params ty cond xs xs' body hd hx hb =>
    have hname : DeclaresType text name := ⟨_, _, hs⟩
    refine ⟨hname, ?_⟩
    have hxs := saysXforms_mentions hi hx
    cases hb with
    | leaf h1 h2 =>
      exact ⟨hxs.append (MentionsIn.append (saysOpt_mentions hi h2) (saysTy_mentions hi h1).1), (saysTy_mentions hi h1).2⟩
    | repr h => exact ⟨hxs.append (by intro e he; cases he), by cases h <;> exact hname⟩
    | struct _ h1 h2 =>
      exact ⟨hxs.append (MentionsIn.append (saysOpt_mentions hi h1) (saysItems_mentions hi h2).1), (saysItems_mentions hi h2).2⟩
    | tagged _ h1 h2 =>
      exact ⟨hxs.append (MentionsIn.append (saysOpt_mentions hi h1) (saysArms_mentions hi h2).1), (saysArms_mentions hi h2).2⟩

end

/-! ### Emitted types -/

section
variable {P : String → Prop} {F : Sig}

theorem optional_declsIn {t : RTy} (h : DeclsIn P t.nameUses) (c : Bool) : DeclsIn P (t.optional c).nameUses := by
  cases c with
  | false => exact h
  | true =>
    intro n hn
    simp only [RTy.optional, if_true, RTy.nameUses, List.mem_cons, reduceCtorEq, false_or] at hn
    exact h n hn

theorem rust_declsIn (hF : ∀ n, DeclsIn P (F.foreignTy n).nameUses) : ∀ (ty : LTy), ty.DeclsIn P → DeclsIn P (ty.rust F).nameUses
  | .prim p, _ => by
    cases p <;> exact DeclsIn.nil
  | .array el _, h => by
    intro n hn
    simp only [LTy.rust, RTy.nameUses, List.mem_cons, reduceCtorEq, false_or] at hn
    exact rust_declsIn hF el h n hn
  | .ref n foreign res args, h => by
    cases foreign with
    | true => exact hF n
    | false =>
      intro m hm
      simp only [LTy.rust, Bool.false_eq_true, if_false, RTy.nameUses, List.mem_singleton, NameUse.decl.injEq] at hm
      subst hm
      exact h.1 rfl

theorem fields_declsIn (hF : ∀ n, DeclsIn P (F.foreignTy n).nameUses) : ∀ (fs : Fields) (c : Bool), fs.DeclsIn P →
    ∀ p ∈ rustFields F c fs, DeclsIn P p.2.nameUses
  | .nil, c, _, p, hp => by cases hp
  | .pad _ _ rest, c, h, p, hp => fields_declsIn hF rest c h p hp
  | .leaf a ty rest, c, h, p, hp => by
    rcases List.mem_cons.1 hp with rfl | hp
    · exact optional_declsIn (rust_declsIn hF ty h.1) _
    · exact fields_declsIn hF rest c h.2 p hp
  | .cont a _ items rest, c, h, p, hp => by
    rcases List.mem_append.1 hp with hp | hp
    · exact fields_declsIn hF items _ h.1 p hp
    · exact fields_declsIn hF rest c h.2 p hp

theorem types_declsIn (hF : ∀ n, DeclsIn P (F.foreignTy n).nameUses) (d : Decl) (h : d.body.DeclsIn P) : DeclsIn P (declTypeUses F d) := by
  have hfl : ∀ (fs : Fields), fs.DeclsIn P → DeclsIn P ((rustFields F false fs).flatMap fun p => p.2.nameUses) := by
    intro fs hfs n hn
    obtain ⟨p, hp, hn⟩ := List.mem_flatMap.1 hn
    exact fields_declsIn hF fs false hfs p hp n hn
  unfold declTypeUses
  cases hb : d.body with
  | leaf c ty => rw [hb] at h; exact optional_declsIn (rust_declsIn hF ty h) _
  | repr t => exact DeclsIn.nil
  | struct _ items => rw [hb] at h; exact hfl items h
  | tagged _ arms =>
    rw [hb] at h
    intro n hn
    obtain ⟨a, ha, hn⟩ := List.mem_flatMap.1 hn
    have := h a ha
    split at hn
    · rename_i ty hab; rw [hab] at this; exact rust_declsIn hF ty this n hn
    · rename_i l items hab; rw [hab] at this; exact hfl items this n hn
end

theorem prelude_declsIn {P : String → Prop} (n : String) : DeclsIn P (preludeSnippets.uses n) := by
  intro m hm
  simp only [preludeSnippets] at hm
  split at hm
  · split at hm <;> simp at hm
  · split at hm
    · simp at hm
    · split at hm
      · simp at hm
      · split at hm <;> simp at hm

/-- **C77** (3). In the code generated from a text without imports, every type that is mentioned is declared. -/
theorem mentioned_declared (modules : List (String × Text)) (src : String) (sch : Schema) (hs : specOf modules src = some sch)
    (hp : noPadText (ascii src) = true) (hm : ∀ x ∈ modules, noPadText x.2 = true)
    (hi : ∀ ast, parse (ascii src) = .ok ast → NoImports ast)
    (o : NameOpts) (F : Sig) (hF : ∀ n m, .decl m ∉ (F.foreignTy n).nameUses) (C : Cases) : AllDeclared o F C sch := by
  obtain ⟨ast, hparse, h1, h2⟩ := text_code_from_source_partial modules src sch hs hp hm
  have hi := hi ast hparse
  have hall : ∀ n, DeclaresType ast n → ∃ d ∈ sch, d.name = n := by
    rintro n ⟨params, f, hn⟩
    obtain ⟨d, hd, he, -⟩ := h2 n params f hn
    exact ⟨d, hd, he⟩
  have hd : ∀ d ∈ sch, DeclaresType ast d.name ∧ MentionsIn (DeclaresType ast) d.exprs ∧ d.body.DeclsIn (DeclaresType ast) := by
    intro d hd
    obtain ⟨home, args, f, ho, hsd⟩ := h1 d hd
    obtain ⟨rfl, hmem⟩ := origin_here hi ho
    exact saysDecl_mentions hi hmem hsd
  have hF' : ∀ n, DeclsIn (DeclaresType ast) (F.foreignTy n).nameUses := fun n m h => absurd h (hF n m)
  rintro n (hn | ⟨f, hf, hn⟩)
  · refine hall n ?_
    simp only [rustModule, List.mem_append, List.mem_flatMap] at hn
    rcases hn with hn | ⟨d, hdm, hn | hn⟩
    · obtain ⟨a, b⟩ := o
      cases a <;> simp [headerUses] at hn
    · exact types_declsIn hF' d (hd d hdm).2.2 n hn
    · split at hn
      · rename_i t _
        cases t <;> simp only [reprUses] at hn
        · split at hn <;> simp at hn
        · simp at hn
      · cases hn
  · obtain ⟨d, hdm, async, ⟨-, -, hb⟩ | ⟨-, -, hb⟩⟩ := fns_mem hf
    · refine hall n ?_
      have hdd := hd d hdm
      have := Dec.genDecl_declsIn (async := async) prelude_declsIn d hdd.1 hdd.2.2 hdd.2.1
      rcases hb _ hn with h | h
      · cases h
      · simp only [decodeFn] at h
        rcases List.mem_append.1 h with h | h
        · exact this n h
        · cases async <;> simp at h
    · refine hall n ?_
      have hdd := hd d hdm
      have := Enc.genDecl_declsIn (async := async) prelude_declsIn d hdd.1 hdd.2.1
      rcases hb _ hn with h | h
      · cases h
      · simp only [encodeFn, bindsReg, List.cons_append, List.mem_cons, reduceCtorEq, false_or] at h
        rcases List.mem_append.1 h with h | h
        · exact this n h
        · cases async <;> simp at h

/-- **C77 (partial).** An accepted specification without imports whose names stay out of the way (`WellNamed`): rustc accepts the names in
the code generated from it. -/
theorem source_names_kept_partial (modules : List (String × Text)) (src : String) (sch : Schema) (hs : specOf modules src = some sch)
    (hp : noPadText (ascii src) = true) (hm : ∀ x ∈ modules, noPadText x.2 = true)
    (hi : ∀ ast, parse (ascii src) = .ok ast → NoImports ast)
    (o : NameOpts) (F : Sig) (hF : ∀ n m, .decl m ∉ (F.foreignTy n).nameUses) (C : Cases) (hw : WellNamed o C sch) :
    NamesKept (rustModule o F C preludeSnippets sch) :=
  names_kept_partial o F C sch (accepted_names modules src sch hs hp hm) hw (mentioned_declared modules src sch hs hp hm hi o F hF C)

/-- `NoImports`, computed from the text. -/
def importFree (src : Text) : Bool :=
  match parse src with
  | .ok ast => ast.all fun d => match d with
    | .import_ _ _ => false
    | _ => true
  | .error _ => true

theorem importFree_sound {src : Text} (h : importFree src = true) : ∀ ast, parse src = .ok ast → NoImports ast := by
  intro ast ha items s hmem
  unfold importFree at h
  rw [ha] at h
  have := List.all_eq_true.1 h _ hmem
  cases this

theorem named_importFree : importFree (ascii namedSource) = true := by decide +kernel

/-- The theorem applies to the specification of `named_meets`, with any options. -/
example : ∃ sch, specOf [] namedSource = some sch ∧ ∀ anyhow,
    NamesKept (rustModule ⟨anyhow, true⟩ (ownSig []) plainCases preludeSnippets sch) := by
  obtain ⟨sch, h1, h2, h3, h4, -⟩ := named_meets
  refine ⟨sch, h1, fun anyhow => ?_⟩
  refine source_names_kept_partial [] namedSource sch h1 named_noPad (by simp) (importFree_sound named_importFree) _ _ ?_ _ ?_
  · intro n m; simp [ownSig, RTy.nameUses]
  · exact ⟨h3.words, h3.types, h3.values, h3.params, h3.apart, h3.fields, h3.variants, h3.flags⟩

end Verif.Props
