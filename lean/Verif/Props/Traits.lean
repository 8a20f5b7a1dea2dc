import Verif.Traits
import Verif.Props.Derives
import Verif.Props.EndToEnd
import Verif.Props.RustTypes
/-!
# C74: the traits of generated types

What rustc says to the `#[derive(..)]`s and `impl Default`s of a generated module, for the nine traits of the standard library that can be derived.
-/
namespace Verif.Props
open Verif

/-! ## Specification -/

/-- A type and everything written in it. -/
def rtyParts : RTy → List RTy
  | .vec t => .vec t :: rtyParts t
  | .opt t => .opt t :: rtyParts t
  | t => [t]

/-- `u` is written somewhere in the declaration generated for one of the types. -/
def WrittenIn (F : Sig) (sch : Schema) (u : RTy) : Prop := ∃ d ∈ sch, ∃ t ∈ declTypes F d, u ∈ rtyParts t

/-- The list of traits that the options ask for, for this kind of type. -/
def askedFor (O : DeriveOpts) (d : Decl) : List Text := if d.body.isRustEnum then O.enums else O.structs

/-- There is a value that `impl Default` of an enum can name: a first alternative; for an enum of numbers one that holds nothing. -/
def FirstIsValue (d : Decl) : Prop :=
  (∀ len arms, d.body = .tagged len arms → arms ≠ []) ∧
  (∀ n e, d.body = .repr (.enum n e) → ∃ i v rest, e.items = (i, some v) :: rest)

/-- A bitfield with at least one flag. -/
def HasFlags (d : Decl) : Prop := ∃ n b, d.body = .repr (.bitfield n b) ∧ b.flags ≠ []

/-! ## Lists -/

theorem tr_name_inj {S T : Tr} (h : S.name = T.name) : S = T := by
  cases S <;> cases T <;> first | rfl | (exfalso; revert h; decide)

theorem tr_mem_all (T : Tr) : T ∈ Tr.all := by cases T <;> decide

theorem mem_struct {O : List Text} {T : Tr} {extra : List Tr} :
    T.name ∈ structDerives O (extra.map Tr.name) ↔ T.name ∈ O ∨ T ∈ extra := by
  rw [(struct_derives_canonical O _).2.2]
  exact or_congr_right ⟨fun h => by
    obtain ⟨S, hS, e⟩ := List.mem_map.1 h
    exact tr_name_inj e ▸ hS, fun h => List.mem_map.2 ⟨T, h, rfl⟩⟩

theorem mem_enum {O : List Text} {T : Tr} {extra : List Tr} :
    T.name ∈ enumDerives O (extra.map Tr.name) ↔ (T.name ∈ O ∨ T ∈ extra) ∧ T ≠ .default := by
  rw [(enum_derives_canonical O _).2.2]
  refine and_congr (or_congr_right ⟨fun h => ?_, fun h => List.mem_map.2 ⟨T, h, rfl⟩⟩) (not_congr ⟨fun h => tr_name_inj h, fun h => by rw [h]; rfl⟩)
  obtain ⟨S, hS, e⟩ := List.mem_map.1 h
  exact tr_name_inj e ▸ hS

/-- What a declared type has, from the options and its kind. -/
theorem declares_iff (O : DeriveOpts) (d : Decl) (T : Tr) : declares O d T = true ↔
    T.name ∈ askedFor O d ∨ (∃ t, d.body = .repr t) ∧ (T = .clone ∨ T = .copy) ∨ (∃ n b, d.body = .repr (.bitfield n b)) ∧ T = .default := by
  unfold declares derivesOf writesDefault askedFor
  have h1 := @mem_struct O.structs T []
  have h2 := @mem_enum O.enums T []
  have h3 := @mem_struct O.structs T [.clone, .copy, .default]
  have h4 := @mem_enum O.enums T [.clone, .copy]
  have hd : T = .default → T.name = ascii "Default" := by rintro rfl; rfl
  cases hb : d.body with
  | leaf c ty => simpa [Body.isRustEnum] using h1
  | struct l i => simpa [Body.isRustEnum] using h1
  | tagged l a =>
    simp only [Body.isRustEnum, Bool.true_and, Bool.or_eq_true, decide_eq_true_eq, Bool.and_eq_true, if_true] at *
    rw [show ([] : List Text) = ([] : List Tr).map Tr.name from rfl, h2]
    by_cases e : T = .default
    · subst e; simp [Tr.name]
    · simp [e]
  | repr t =>
    cases t with
    | enum n e =>
      simp only [Body.isRustEnum, Bool.true_and, Bool.or_eq_true, decide_eq_true_eq, Bool.and_eq_true, if_true] at *
      rw [show [ascii "Clone", ascii "Copy"] = [Tr.clone, Tr.copy].map Tr.name from rfl, h4]
      by_cases e : T = .default
      · subst e; simp [Tr.name]
      · simp [e]
    | bitfield n b =>
      simp only [Body.isRustEnum, Bool.false_and, Bool.or_eq_true, decide_eq_true_eq, Bool.and_eq_true, Bool.false_eq_true, if_false, and_false, or_false] at *
      rw [show [ascii "Clone", ascii "Copy", ascii "Default"] = [Tr.clone, Tr.copy, Tr.default].map Tr.name from rfl, h3]
      simp [or_assoc]

/-- What is derived is declared; `Default` of an enum is declared without being derived. -/
theorem derived_iff (O : DeriveOpts) (d : Decl) (T : Tr) :
    T.name ∈ derivesOf O d ↔ declares O d T = true ∧ (T = .default → d.body.isRustEnum = false) := by
  unfold declares derivesOf writesDefault
  have h2 := @mem_enum O.enums T []
  have h4 := @mem_enum O.enums T [.clone, .copy]
  cases hb : d.body with
  | leaf c ty => simp [Body.isRustEnum]
  | struct l i => simp [Body.isRustEnum]
  | tagged l a =>
    simp only [Body.isRustEnum, Bool.true_and, Bool.or_eq_true, decide_eq_true_eq, Bool.and_eq_true] at *
    rw [show ([] : List Text) = ([] : List Tr).map Tr.name from rfl, h2]
    by_cases e : T = .default <;> simp [e]
  | repr t =>
    cases t with
    | enum n e =>
      simp only [Body.isRustEnum, Bool.true_and, Bool.or_eq_true, decide_eq_true_eq, Bool.and_eq_true] at *
      rw [show [ascii "Clone", ascii "Copy"] = [Tr.clone, Tr.copy].map Tr.name from rfl, h4]
      by_cases e : T = .default <;> simp [e]
    | bitfield n b => simp [Body.isRustEnum]

/-! ## Types -/

/-- A part of a type does not stand in the way of a trait. -/
def PartHas (O : DeriveOpts) (X : String → Tr → Bool) (sch : Schema) (T : Tr) (u : RTy) : Prop :=
  (∀ b, u = .flt b → T ≠ .eq ∧ T ≠ .ord ∧ T ≠ .hash) ∧ ((u = .str ∨ ∃ t, u = .vec t) → T ≠ .copy) ∧
  (∀ n d, u = .named n → sch.find n = some d → declares O d T = true) ∧ (∀ n, u = .named n → sch.find n = none → X n T = true)

/-- A type has a trait other than `Default` exactly if all that is written in it has it. -/
theorem hasTrait_iff (O : DeriveOpts) (X : String → Tr → Bool) (sch : Schema) (T : Tr) (hT : T ≠ .default) :
    ∀ t : RTy, hasTrait (declares O) X sch T t = true ↔ ∀ u ∈ rtyParts t, PartHas O X sch T u
  | .int _ => by simp [hasTrait, rtyParts, PartHas]
  | .bool => by simp [hasTrait, rtyParts, PartHas]
  | .flt b => by
    simp only [hasTrait, rtyParts, List.mem_singleton, forall_eq, PartHas, Bool.and_eq_true, decide_eq_true_eq, and_assoc]
    exact ⟨fun h => ⟨fun _ _ => h, by simp, by simp, by simp⟩, fun h => h.1 b rfl⟩
  | .str => by simp [hasTrait, rtyParts, PartHas]
  | .vec t => by
    have := hasTrait_iff O X sch T hT t
    simp only [hasTrait, hT, rtyParts, List.mem_cons, forall_eq_or_imp, decide_false, Bool.false_or, Bool.and_eq_true, decide_eq_true_eq, this]
    refine and_congr_left fun _ => ⟨fun h => ⟨by simp, fun _ => h, by simp, by simp⟩, fun h => h.2.1 (.inr ⟨t, rfl⟩)⟩
  | .opt t => by
    have := hasTrait_iff O X sch T hT t
    simp only [hasTrait, hT, rtyParts, List.mem_cons, forall_eq_or_imp, decide_false, Bool.false_or, this]
    exact ⟨fun h => ⟨⟨by simp, by simp, by simp, by simp⟩, h⟩, fun h => h.2⟩
  | .named n => by
    simp only [hasTrait, rtyParts, List.mem_singleton, forall_eq, PartHas]
    cases h : sch.find n with
    | none => exact ⟨fun e => ⟨by simp, by simp, fun m d hm hd => (by cases hm; rw [h] at hd; cases hd), fun m hm _ => by cases hm; exact e⟩, fun e => e.2.2.2 n rfl h⟩
    | some d => exact ⟨fun e => ⟨by simp, by simp, fun m d' hm hd => by cases hm; rw [h] at hd; cases hd; exact e, fun m hm hd => by cases hm; rw [h] at hd; cases hd⟩,
        fun e => e.2.2.1 n d rfl h⟩

theorem named_part {t : RTy} {n : String} (h : t = .named n) : .named n ∈ rtyParts t := by subst h; simp [rtyParts]

/-- `Default` looks at a type only if it is a name. -/
theorem hasDefault_iff (O : DeriveOpts) (X : String → Tr → Bool) (sch : Schema) (t : RTy) :
    hasTrait (declares O) X sch .default t = true ↔
      (∀ n d, t = .named n → sch.find n = some d → declares O d .default = true) ∧ (∀ n, t = .named n → sch.find n = none → X n .default = true) := by
  cases t with
  | named n =>
    simp only [hasTrait]
    cases h : sch.find n with
    | none => exact ⟨fun e => ⟨fun m d hm hd => (by cases hm; rw [h] at hd; cases hd), fun m hm _ => by cases hm; exact e⟩, fun e => e.2 n rfl h⟩
    | some d => exact ⟨fun e => ⟨fun m d' hm hd => by cases hm; rw [h] at hd; cases hd; exact e, fun m hm hd => by cases hm; rw [h] at hd; cases hd⟩, fun e => e.1 n d rfl h⟩
  | _ => simp [hasTrait]

/-! ## The property -/

theorem traitsOk_iff (O : DeriveOpts) (F : Sig) (X : String → Tr → Bool) (sch : Schema) : traitsOk O F X sch = true ↔
    ∀ d ∈ sch, (∀ T : Tr, T.name ∈ derivesOf O d → deriveOk (declares O) F X sch d T = true) ∧ (writesDefault O d = true → defaultImplOk (declares O) F X sch d = true) ∧
      gettersOk (declares O) d = true := by
  simp only [traitsOk, traitsBy, List.all_eq_true, Bool.and_eq_true, Bool.or_eq_true, Bool.not_eq_true', decide_eq_false_iff_not, and_assoc]
  refine forall_congr' fun d => forall_congr' fun _ => and_congr ⟨fun h T hT => (h T (tr_mem_all T)).resolve_left (fun e => e hT), fun h T _ => ?_⟩
    (and_congr_left fun _ => ⟨fun h e => h.resolve_left (by simp [e]), fun h => ?_⟩)
  · by_cases e : T.name ∈ derivesOf O d
    · exact .inr (h T e)
    · exact .inl e
  · cases e : writesDefault O d with
    | true => exact .inr (h e)
    | false => exact .inl rfl

/-- The types of the first alternative are among those of the declaration. -/
theorem firstTypes_sub {F : Sig} {d : Decl} {len : Option Expr} {arms : List Arm} {ts : List RTy} (hb : d.body = .tagged len arms)
    (h : firstTypes F arms = some ts) : ∀ t ∈ ts, t ∈ declTypes F d := by
  intro t ht
  unfold declTypes
  rw [hb]
  cases arms with
  | nil => cases h
  | cons a l =>
    simp only [firstTypes, Option.some.injEq] at h
    subst h
    refine List.mem_flatMap.2 ⟨a, List.mem_cons_self, ?_⟩
    exact ht

/-- **C74.** Let the options ask for the same traits for structs and for enums, and for no trait without its supertraits, and let all written type names be
declared. Then rustc accepts the traits of the generated types exactly if: no `f32` or `f64` is written anywhere when `Eq`, `Ord` or `Hash` is asked
for; no array and no string when `Copy` is asked for; when `PartialEq` is not asked for no bitfield has a flag; and when `Default` is asked for each
enum has a first alternative, which for an enum of numbers is not the one that takes the remaining numbers. -/
theorem traits_accepted_iff (O : DeriveOpts) (F : Sig) (X : String → Tr → Bool) (sch : Schema)
    (hsame : ∀ T : Tr, T.name ∈ O.enums ↔ T.name ∈ O.structs)
    (hsup : ∀ T : Tr, T.name ∈ O.structs → ∀ S ∈ T.supers, S.name ∈ O.structs)
    (hnames : ∀ n, WrittenIn F sch (.named n) → (sch.find n).isSome = true) :
    traitsOk O F X sch = true ↔
      ((Tr.eq.name ∈ O.structs ∨ Tr.ord.name ∈ O.structs ∨ Tr.hash.name ∈ O.structs) → ∀ b, ¬ WrittenIn F sch (.flt b)) ∧
      (Tr.copy.name ∈ O.structs → ¬ WrittenIn F sch .str ∧ ∀ t, ¬ WrittenIn F sch (.vec t)) ∧
      (Tr.partialEq.name ∉ O.structs → ∀ d ∈ sch, ¬ HasFlags d) ∧
      (Tr.default.name ∈ O.structs → ∀ d ∈ sch, FirstIsValue d) := by
  have hasked : ∀ (d : Decl) (T : Tr), T.name ∈ askedFor O d ↔ T.name ∈ O.structs := by
    intro d T
    unfold askedFor
    split
    · exact hsame T
    · exact Iff.rfl
  have hdecl : ∀ (d : Decl) (T : Tr), T.name ∈ O.structs → declares O d T = true := fun d T h =>
    (declares_iff O d T).2 (.inl ((hasked d T).2 h))
  have hwr : ∀ {d : Decl} {t u : RTy}, d ∈ sch → t ∈ declTypes F d → u ∈ rtyParts t → WrittenIn F sch u :=
    fun hd ht hu => ⟨_, hd, _, ht, hu⟩
  rw [traitsOk_iff]
  constructor
  · intro h
    have hparts : ∀ {u : RTy} {T : Tr}, WrittenIn F sch u → T.name ∈ O.structs → T ≠ .default → PartHas O X sch T u := by
      intro u T ⟨d, hd, t, ht, hu⟩ hT hdef
      have h1 := (h d hd).1 T ((derived_iff O d T).2 ⟨hdecl d T hT, fun e => absurd e hdef⟩)
      simp only [deriveOk, Bool.and_eq_true, List.all_eq_true] at h1
      exact (hasTrait_iff O X sch T hdef t).1 (h1.2 t ht) u hu
    refine ⟨fun hT b hw => ?_, fun hT => ⟨fun hw => ?_, fun t hw => ?_⟩, fun hT d hd ⟨n, b, hb, hf⟩ => ?_, fun hT d hd => ?_⟩
    · rcases hT with hT | hT | hT
      · exact ((hparts hw hT (by decide)).1 b rfl).1 rfl
      · exact ((hparts hw hT (by decide)).1 b rfl).2.1 rfl
      · exact ((hparts hw hT (by decide)).1 b rfl).2.2 rfl
    · exact (hparts hw hT (by decide)).2.1 (.inl rfl) rfl
    · exact (hparts hw hT (by decide)).2.1 (.inr ⟨t, rfl⟩) rfl
    · have := (h d hd).2.2
      simp only [gettersOk, hb, Bool.or_eq_true, List.isEmpty_iff] at this
      rcases this with e | e
      · exact hf e
      · rcases (declares_iff O d .partialEq).1 e with e | ⟨_, e⟩ | ⟨_, e⟩
        · exact hT ((hasked d _).1 e)
        · rcases e with e | e <;> cases e
        · cases e
    · refine ⟨fun len arms hb e => ?_, fun n e hb => ?_⟩
      · have := (h d hd).2.1 (by simp only [writesDefault, hb, Body.isRustEnum, Bool.true_and, decide_eq_true_eq]; exact (hsame .default).2 hT)
        subst e
        simp [defaultImplOk, hb, firstTypes] at this
      · have := (h d hd).2.1 (by simp only [writesDefault, hb, Body.isRustEnum, Bool.true_and, decide_eq_true_eq]; exact (hsame .default).2 hT)
        simp only [defaultImplOk, hb] at this
        cases hi : e.items with
        | nil => simp [hi] at this
        | cons p rest =>
          obtain ⟨i, v⟩ := p
          cases v with
          | none => simp [hi] at this
          | some v => exact ⟨i, v, rest, rfl⟩
  · intro ⟨hflt, hcopy, hflags, hfirst⟩ d hd
    refine ⟨fun T hT => ?_, fun hw => ?_, ?_⟩
    · have hdT := (derived_iff O d T).1 hT
      -- either asked for, or one of the traits that enums and bitfields have anyway
      rcases (declares_iff O d T).1 hdT.1 with hA | ⟨⟨r, hb⟩, hT'⟩ | ⟨⟨n, b, hb⟩, hT'⟩
      · have hA' := (hasked d T).1 hA
        simp only [deriveOk, Bool.and_eq_true, List.all_eq_true]
        refine ⟨fun S hS => hdecl d S (hsup T hA' S hS), fun t ht => ?_⟩
        by_cases hdef : T = .default
        · subst hdef
          refine (hasDefault_iff O X sch t).2 ⟨fun n d' _ _ => hdecl d' _ hA', fun n e hn => ?_⟩
          have := hnames n (hwr hd ht (named_part e))
          rw [hn] at this; cases this
        · refine (hasTrait_iff O X sch T hdef t).2 fun u hu => ⟨fun b e => ⟨?_, ?_, ?_⟩, fun hv => ?_, fun n d' _ _ => hdecl d' _ hA', fun n e hn => ?_⟩
          · rintro rfl; exact hflt (.inl hA') b (e ▸ hwr hd ht hu)
          · rintro rfl; exact hflt (.inr (.inl hA')) b (e ▸ hwr hd ht hu)
          · rintro rfl; exact hflt (.inr (.inr hA')) b (e ▸ hwr hd ht hu)
          · rintro rfl
            rcases hv with e | ⟨t', e⟩
            · exact (hcopy hA').1 (e ▸ hwr hd ht hu)
            · exact (hcopy hA').2 t' (e ▸ hwr hd ht hu)
          · have := hnames n (e ▸ hwr hd ht hu)
            rw [hn] at this; cases this
      · have h0 : declTypes F d = [] := by unfold declTypes; rw [hb]
        have hclone : declares O d .clone = true := (declares_iff O d _).2 (.inr (.inl ⟨⟨r, hb⟩, .inl rfl⟩))
        simp only [deriveOk, h0, Bool.and_eq_true, List.all_eq_true]
        refine ⟨fun S hS => ?_, fun t ht => by cases ht⟩
        rcases hT' with rfl | rfl
        · cases hS
        · simp only [Tr.supers, List.mem_singleton] at hS
          subst hS; exact hclone
      · have h0 : declTypes F d = [] := by unfold declTypes; rw [hb]
        subst hT'
        simp [deriveOk, h0, Tr.supers]
    · simp only [writesDefault, Bool.and_eq_true, decide_eq_true_eq] at hw
      have hA : Tr.default.name ∈ O.structs := (hsame .default).1 hw.2
      have hv := hfirst hA d hd
      cases hb : d.body with
      | leaf c ty => rw [hb] at hw; cases hw.1
      | struct l i => rw [hb] at hw; cases hw.1
      | tagged len arms =>
        simp only [defaultImplOk, hb]
        cases hf : firstTypes F arms with
        | none =>
          cases arms with
          | nil => exact absurd rfl (hv.1 len [] hb)
          | cons a l => cases hf
        | some ts =>
          simp only [List.all_eq_true]
          intro t ht
          refine (hasDefault_iff O X sch t).2 ⟨fun n d' _ _ => hdecl d' _ hA, fun n e hn => ?_⟩
          have := hnames n (hwr hd (firstTypes_sub hb hf t ht) (named_part e))
          rw [hn] at this; cases this
      | repr r =>
        cases r with
        | bitfield n b => rw [hb] at hw; cases hw.1
        | enum n e =>
          obtain ⟨i, v, rest, hi⟩ := hv.2 n e hb
          simp [defaultImplOk, hb, hi]
    · unfold gettersOk
      cases hb : d.body with
      | repr r =>
        cases r with
        | enum n e => rfl
        | bitfield n b =>
          simp only [Bool.or_eq_true, List.isEmpty_iff]
          by_cases hp : Tr.partialEq.name ∈ O.structs
          · exact .inr (hdecl d _ hp)
          · refine .inl ?_
            cases hfl : b.flags with
            | nil => rfl
            | cons f l => exact absurd ⟨n, b, hb, by simp [hfl]⟩ (hflags hp d hd)
      | _ => rfl

/-- With the options that `compile_spec` takes by default: exactly if no `f32` or `f64` is written anywhere and each enum has a first alternative that can be named
as a value. -/
theorem default_options_accepted_iff (F : Sig) (X : String → Tr → Bool) (sch : Schema) (hnames : ∀ n, WrittenIn F sch (.named n) → (sch.find n).isSome = true) :
    traitsOk .ofOptions F X sch = true ↔ (∀ b, ¬ WrittenIn F sch (.flt b)) ∧ ∀ d ∈ sch, FirstIsValue d := by
  rw [traits_accepted_iff .ofOptions F X sch (fun _ => Iff.rfl) (by intro T; cases T <;> decide) hnames]
  refine ⟨fun h => ⟨h.1 (by decide), h.2.2.2 (by decide)⟩, fun h => ⟨fun _ => h.1, fun hc => absurd hc (by decide), fun hc => absurd (by decide) hc, fun _ => h.2⟩⟩

/-- With the options that `compile_program` takes by default (without `Eq`): floats are fine. -/
theorem default_compile_options_accepted_iff (F : Sig) (X : String → Tr → Bool) (sch : Schema)
    (hnames : ∀ n, WrittenIn F sch (.named n) → (sch.find n).isSome = true) :
    traitsOk .ofCompileOptions F X sch = true ↔ ∀ d ∈ sch, FirstIsValue d := by
  rw [traits_accepted_iff .ofCompileOptions F X sch (fun _ => Iff.rfl) (by intro T; cases T <;> decide) hnames]
  refine ⟨fun h => h.2.2.2 (by decide), fun h => ⟨fun hc => absurd hc (by decide), fun hc => absurd hc (by decide), fun hc => absurd (by decide) hc, fun _ => h⟩⟩

/-- What the options ask for is there, whatever the two lists are: each declared type has each trait on the list for its kind; enums and bitfields can
be copied anyway, and bitfields have a default. -/
theorem asked_for_is_declared (O : DeriveOpts) (d : Decl) (T : Tr) :
    (T.name ∈ askedFor O d → declares O d T = true) ∧
    (∀ t, d.body = .repr t → declares O d .clone = true ∧ declares O d .copy = true) ∧
    (∀ n b, d.body = .repr (.bitfield n b) → declares O d .default = true) :=
  ⟨fun h => (declares_iff O d T).2 (.inl h), fun t h => ⟨(declares_iff O d _).2 (.inr (.inl ⟨⟨t, h⟩, .inl rfl⟩)), (declares_iff O d _).2 (.inr (.inl ⟨⟨t, h⟩, .inr rfl⟩))⟩,
   fun n b h => (declares_iff O d _).2 (.inr (.inr ⟨⟨n, b, h⟩, rfl⟩))⟩

/-- For a type that is a number nothing but the supertraits matters: rustc accepts the lists exactly if `Copy` comes with `Clone`, `Eq` and
`PartialOrd` with `PartialEq`, `Ord` with `Eq` and `PartialOrd`. -/
theorem number_type_accepted_iff (O : DeriveOpts) (F : Sig) (X : String → Tr → Bool) (n : String) (s : EScalar) :
    traitsOk O F X [⟨n, [], [], .leaf none (.prim (.scalar s))⟩] = true ↔
      (ascii "Copy" ∈ O.structs → ascii "Clone" ∈ O.structs) ∧ (ascii "Eq" ∈ O.structs → ascii "PartialEq" ∈ O.structs) ∧
      (ascii "PartialOrd" ∈ O.structs → ascii "PartialEq" ∈ O.structs) ∧
      (ascii "Ord" ∈ O.structs → ascii "Eq" ∈ O.structs ∧ ascii "PartialOrd" ∈ O.structs) := by
  have hd (T : Tr) : declares O ⟨n, [], [], .leaf none (.prim (.scalar s))⟩ T = decide (T.name ∈ O.structs) := by
    rw [Bool.eq_iff_iff, declares_iff, decide_eq_true_eq]
    simp [askedFor, Body.isRustEnum]
  have hx (T : Tr) : (T.name ∈ derivesOf O ⟨n, [], [], .leaf none (.prim (.scalar s))⟩) ↔ T.name ∈ O.structs := by
    rw [derived_iff, hd]
    simp [Body.isRustEnum]
  rw [traitsOk_iff]
  simp only [List.mem_singleton, forall_eq, hx, deriveOk, declTypes]
  constructor
  · rintro ⟨h, -⟩
    have hc := h .copy
    have he := h .eq
    have hp := h .partialOrd
    have ho := h .ord
    simp only [Tr.supers, Tr.name, List.all_cons, List.all_nil, Bool.and_eq_true, hd] at hc he hp ho
    exact ⟨fun x => of_decide_eq_true (hc x).1.1, fun x => of_decide_eq_true (he x).1.1, fun x => of_decide_eq_true (hp x).1.1,
      fun x => ⟨of_decide_eq_true (ho x).1.1, of_decide_eq_true (ho x).1.2.1⟩⟩
  · rintro ⟨hc, he, hp, ho⟩
    refine ⟨fun T hT => ?_, ?_⟩
    · cases T <;> simp_all [Tr.supers, Tr.name, hasTrait, LTy.rust, Prim.rust, RTy.optional]
    · simp [writesDefault, Body.isRustEnum, gettersOk]

/-- With two different lists: a struct (or newtype) can have a trait only if each enum written in it has it. -/
theorem struct_asks_of_enum (O : DeriveOpts) (F : Sig) (X : String → Tr → Bool) (sch : Schema) (h : traitsOk O F X sch = true)
    (d : Decl) (hd : d ∈ sch) (hs : d.body.isRustEnum = false) (T : Tr) (hT : T.name ∈ O.structs) (hdef : T ≠ .default)
    (t : RTy) (ht : t ∈ declTypes F d) (n : String) (hn : .named n ∈ rtyParts t) (d' : Decl) (hf : sch.find n = some d') (l : Option Expr) (a : List Arm)
    (he : d'.body = .tagged l a) : T.name ∈ O.enums := by
  have hA : T.name ∈ askedFor O d := by unfold askedFor; rw [hs]; exact hT
  have h1 := ((traitsOk_iff O F X sch).1 h d hd).1 T ((derived_iff O d T).2 ⟨(declares_iff O d T).2 (.inl hA), fun e => absurd e hdef⟩)
  simp only [deriveOk, Bool.and_eq_true, List.all_eq_true] at h1
  have h2 := ((hasTrait_iff O X sch T hdef t).1 (h1.2 t ht) _ hn).2.2.1 n d' rfl hf
  rcases (declares_iff O d' T).1 h2 with e | ⟨⟨r, e⟩, _⟩ | ⟨⟨m, b, e⟩, _⟩
  · unfold askedFor at e
    rw [he] at e
    exact e
  · rw [he] at e; cases e
  · rw [he] at e; cases e

/-- .. and the same for tagged enums that hold structs. -/
theorem enum_asks_of_struct (O : DeriveOpts) (F : Sig) (X : String → Tr → Bool) (sch : Schema) (h : traitsOk O F X sch = true)
    (d : Decl) (hd : d ∈ sch) (hs : d.body.isRustEnum = true) (T : Tr) (hT : T.name ∈ O.enums) (hdef : T ≠ .default)
    (t : RTy) (ht : t ∈ declTypes F d) (n : String) (hn : .named n ∈ rtyParts t) (d' : Decl) (hf : sch.find n = some d') (l : Option Expr) (items : Fields)
    (he : d'.body = .struct l items) : T.name ∈ O.structs := by
  have hA : T.name ∈ askedFor O d := by unfold askedFor; rw [hs]; exact hT
  have h1 := ((traitsOk_iff O F X sch).1 h d hd).1 T ((derived_iff O d T).2 ⟨(declares_iff O d T).2 (.inl hA), fun e => absurd e hdef⟩)
  simp only [deriveOk, Bool.and_eq_true, List.all_eq_true] at h1
  have h2 := ((hasTrait_iff O X sch T hdef t).1 (h1.2 t ht) _ hn).2.2.1 n d' rfl hf
  rcases (declares_iff O d' T).1 h2 with e | ⟨⟨r, e⟩, _⟩ | ⟨⟨m, b, e⟩, _⟩
  · unfold askedFor at e
    rw [he] at e
    exact e
  · rw [he] at e; cases e
  · rw [he] at e; cases e

/-! ### Cases

Sorting is not something the kernel computes with, so the cases are computed from the members of the lists. -/

def Body.isRepr : Body → Bool
  | .repr _ => true
  | _ => false

def declaresFast (O : DeriveOpts) (d : Decl) (T : Tr) : Bool :=
  decide (T.name ∈ askedFor O d) || (Body.isRepr d.body && (decide (T = .clone) || decide (T = .copy))) ||
  (Body.isRepr d.body && !d.body.isRustEnum && decide (T = .default))

theorem declares_fast (O : DeriveOpts) : declares O = declaresFast O := by
  funext d T
  rw [Bool.eq_iff_iff, declares_iff]
  simp only [declaresFast, Bool.or_eq_true, Bool.and_eq_true, decide_eq_true_eq, or_assoc]
  cases hb : d.body with
  | repr r => cases r <;> simp [Body.isRepr, Body.isRustEnum]
  | _ => simp [Body.isRepr]

theorem traitsOk_fast (O : DeriveOpts) (F : Sig) (X : String → Tr → Bool) (sch : Schema) :
    traitsOk O F X sch = traitsBy (fun d T => declaresFast O d T && !(decide (T = .default) && d.body.isRustEnum)) (declaresFast O) (writesDefault O) F X sch := by
  unfold traitsOk
  rw [declares_fast]
  congr 1
  funext d T
  rw [Bool.eq_iff_iff, decide_eq_true_eq, derived_iff, declares_fast]
  by_cases e : T = .default <;> simp [e]

/-- rustc's answer to the traits of a source, with no foreign types but those of the prelude. -/
def traitsOf (O : DeriveOpts) (src : String) : Option Bool := (specOf [] src).map (traitsOk O (ownSig []) fun _ _ => false)

def withCopy : DeriveOpts := ⟨[ascii "Clone", ascii "Copy", ascii "PartialEq"], [ascii "Clone", ascii "Copy", ascii "PartialEq"]⟩
def unequal : DeriveOpts := ⟨[ascii "Hash", ascii "Debug"], [ascii "Debug"]⟩

theorem traitsOf_fast (O : DeriveOpts) (src : String) : traitsOf O src = (specOf [] src).map (traitsBy
    (fun d T => declaresFast O d T && !(decide (T = .default) && d.body.isRustEnum)) (declaresFast O) (writesDefault O) (ownSig []) fun _ _ => false) := by
  unfold traitsOf
  congr 1
  funext sch
  exact traitsOk_fast O _ _ sch

/-- The default options and the options of `CompileOptions` on a specification with all kinds of declarations. -/
theorem traits_ok_case :
    traitsOf .ofOptions "type e = enum i32 { a = 1, b = default }; type f = bitfield u8 { x = 1, y = 2 }; type s = container { e: e, f: f, n: u8, t: t(n)[n] { n > 0u8 } }; type t(n: u8) = container +tagged_enum { p: u8 { n > 0u8 }, q: container { s: s[..] } }; type k = s[2];" = some true ∧
    traitsOf .ofCompileOptions "type s = container { x: f32, y: f64[2] };" = some true ∧
    traitsOf withCopy "type e = enum i32 { a = 1 }; type s = container { e: e, x: f32 };" = some true := by
  simp only [traitsOf_fast]
  decide +kernel

/-- Finding: with the options that `compile_spec` takes by default (`Options::default()` asks for `Eq`) no specification with an `f32` or `f64` field can be
compiled; an enum whose only item is the `default` one is refused too (a `default` item must be the last one); bitfields need `PartialEq` although their other needs are added by the
generator; and with `Hash` on one list only, a struct that holds a tagged enum is refused while one that holds none is not. -/
theorem traits_findings :
    traitsOf .ofOptions "type s = container { x: f32 };" = some false ∧
    traitsOf .ofOptions "type s = f64[2];" = some false ∧
    traitsOf .ofOptions "type e = enum i32 { b = default };" = some false ∧
    traitsOf ⟨[], []⟩ "type e = enum i32 { b = default };" = some true ∧
    traitsOf ⟨[], []⟩ "type f = bitfield u8 { x = 1 };" = some false ∧
    traitsOf withCopy "type s = container { x: u8[2] };" = some false ∧
    traitsOf unequal "type s = container { n: u8, t: t(n) }; type t(n: u8) = container +tagged_enum { p: u8 { n > 0u8 }, q: u16 };" = some false ∧
    traitsOf unequal "type s = container { n: u8 }; type t(n: u8) = container +tagged_enum { p: u8 { n > 0u8 }, q: u16 };" = some true := by
  simp only [traitsOf_fast]
  decide +kernel

end Verif.Props
