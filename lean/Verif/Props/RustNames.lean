import Verif.Props.Hygiene
import Verif.Props.RustTypes
import Verif.RustNames
/-!
# C77: names do not get in each other's way

The specification is `NamesKept` of `Verif/RustNames.lean`: Rust's rules for names, stated about a module (`RustModule`) without
reference to protospec.
-/
namespace Verif.Props
open Verif Verif.Sem

/-! ### Names in source texts -/

mutual
/-- The names a type declares: fields, variants, flags, at every depth. -/
def tyWords : Ast.Ty → List String
  | .container _ _ items => itemsWords items
  | .enum _ items => items.map itemName
  | .bitfield _ items => items.map flagName
  | .array el _ _ => tyWords el
  | _ => []
def itemsWords : List Ast.Item → List String
  | [] => []
  | .field n f :: rest => n :: (fieldWords f ++ itemsWords rest)
  | .pad _ :: rest => itemsWords rest
def fieldWords : Ast.Field → List String
  | .mk type _ _ _ _ => tyWords type
end

/-- The names of a type declaration. -/
def declWords : Ast.Decl → List String
  | .type n args f => n :: (args.map (·.name) ++ fieldWords f)
  | _ => []

/-- The declared names in a phrase. -/
def symWords : (s : Sym) → s.Val → List String
  | .type, t => tyWords t
  | .item, i => itemsWords [i]
  | .items, is => itemsWords is
  | .enumItem _, i => [itemName i]
  | .enumItems _, is => is.map itemName
  | .bitItem _, i => [flagName i]
  | .bitItems _, is => is.map flagName
  | .field, f => fieldWords f
  | .param, p => [p.name]
  | .paramList, ps | .params, ps => ps.map (·.name)
  | .body, d | .decl, d => declWords d
  | .program, ds => ds.flatMap declWords
  | _, _ => []

theorem itemsWords_cons (i : Ast.Item) (is : List Ast.Item) : itemsWords (i :: is) = itemsWords [i] ++ itemsWords is := by
  cases i <;> simp [itemsWords]

/-- Declared names are identifiers of the text. -/
theorem gr_words {s : Sym} {u : List Token} {v : s.Val} (g : Gr s u v) : ∀ n ∈ symWords s v, .ident n ∈ u := by
  induction g
  case itemsCons i is _ _ h1 h2 =>
    intro n hn
    simp only [symWords] at h1 h2 hn
    rw [itemsWords_cons, List.mem_append] at hn
    rcases hn with hn | hn
    · have := h1 n hn; simp [this]
    · have := h2 n hn; simp [this]
  all_goals
    intro n hn
    simp only [symWords, tyWords, itemsWords, fieldWords, declWords, itemName, flagName, List.not_mem_nil, List.mem_cons, List.mem_append,
      List.map_cons, List.map_nil, List.flatMap_cons, List.flatMap_nil, List.append_nil, or_false] at *
  all_goals try contradiction
  all_goals grind

theorem ident_char (b : UInt8) : (isIdentStart b = true → ((Char.ofNat b.toNat).isAlpha || Char.ofNat b.toNat == '_') = true) ∧
    (isIdentPart b = true → ((Char.ofNat b.toNat).isAlphanum || Char.ofNat b.toNat == '_') = true) := by
  have := u8_forall (fun b => decide ((isIdentStart b = true → ((Char.ofNat b.toNat).isAlpha || Char.ofNat b.toNat == '_') = true) ∧
    (isIdentPart b = true → ((Char.ofNat b.toNat).isAlphanum || Char.ofNat b.toNat == '_') = true))) (by decide +kernel) b
  exact of_decide_eq_true this

theorem isIdent_wordLike {t : Text} (h : IsIdent t) : wordLike (ofAscii t) = true := by
  obtain ⟨c, cs, rfl, h1, h2⟩ := h
  simp only [wordLike, ofAscii, String.toList_ofList, List.map_cons]
  rw [(ident_char c).1 h1]
  simp only [Bool.true_and, List.all_eq_true, List.mem_map]
  rintro x ⟨b, hb, rfl⟩
  exact (ident_char b).2 (h2 b hb)

/-- An identifier of a text that is tokenized is made of letters, digits and `_`, and is no word of protospec's. -/
theorem token_wordLike {src : Text} {strip : Bool} {toks : List Token} (h : tokensOf src strip = some toks) {n : String}
    (hn : .ident n ∈ toks) : wordLike n = true ∧ ¬ Reserved n := by
  have hf : ∃ toks', tokensOf src false = some toks' ∧ .ident n ∈ toks' := by
    cases strip with
    | false => exact ⟨toks, h, hn⟩
    | true =>
      unfold tokensOf at h ⊢
      rw [strip_is_filter] at h
      cases hc : tokenize src false with
      | error e => rw [hc] at h; simp [Except.map] at h
      | ok ts =>
        rw [hc] at h
        simp only [Except.map, Option.some.injEq] at h
        subst h
        obtain ⟨x, hx, he⟩ := List.mem_map.1 hn
        exact ⟨_, rfl, List.mem_map.2 ⟨x, (List.mem_filter.1 hx).1, he⟩⟩
  obtain ⟨toks', h', hn'⟩ := hf
  unfold tokensOf at h'
  cases hc : tokenize src false with
  | error e => rw [hc] at h'; cases h'
  | ok ts =>
    rw [hc] at h'
    simp only [Option.some.injEq] at h'
    obtain ⟨ps, hcut, he, -⟩ := tokenize_cuts hc
    rw [← h', he] at hn'
    obtain ⟨p, hp, hpt⟩ := List.mem_map.1 hn'
    have hl := cuts_lexeme hcut p hp
    rw [hpt] at hl
    generalize hpx : p.text = tx at hl
    cases hl with
    | fixed hw => simp [fixedText] at hw
    | ident h1 h2 => exact ⟨isIdent_wordLike h1, h2⟩

/-- Every name that a text declares is a word. -/
theorem parsed_wordLike {src : Text} {ast : Ast.Program} (h : parse src = .ok ast) {d : Ast.Decl} (hd : d ∈ ast) {n : String}
    (hn : n ∈ declWords d) : wordLike n = true ∧ ¬ Reserved n := by
  obtain ⟨toks, h1, h2⟩ := parse_source.1 h
  exact token_wordLike h1 (gr_words h2 n (List.mem_flatMap.2 ⟨d, hd, hn⟩))


/-! ### Names in accepted specifications -/

/-- The names of a declaration of the specification that code is generated from: the type, its parameters, fields, alternatives,
variants and flags. -/
def declNames (d : Decl) : List String :=
  d.name :: (d.params ++ match d.body with
    | .leaf _ _ => []
    | .repr (.enum _ e) => e.items.map (·.1)
    | .repr (.bitfield _ b) => b.flags.map (·.1)
    | .struct _ items => items.names
    | .tagged _ arms => arms.flatMap fun a => a.attr.name :: match a.body with
        | .leaf _ => []
        | .cont _ items => items.names)

theorem says_variants {ms : Modules} {oc : Bool} {text : Ast.Program} {V : InView} {rep : EScalar} {last : Option (String × Expr)} {k : Nat}
    {items : List Ast.EnumItem} {vs : List (String × Option Int)} (h : SaysVariants ms oc text V rep last k items vs) :
    vs.map (·.1) = items.map itemName := by
  induction h with
  | nil => rfl
  | default _ ih => simp [itemName, ih]
  | value _ _ _ ih => simp [itemName, ih]
  | implicit _ _ ih => simp [itemName, ih]

theorem says_flags {ms : Modules} {oc : Bool} {text : Ast.Program} {V : InView} {rep : EScalar} {last : Option (String × Expr)} {k : Nat}
    {items : List Ast.BitItem} {vs : List (String × Int)} (h : SaysFlags ms oc text V rep last k items vs) :
    vs.map (·.1) = items.map flagName := by
  induction h with
  | nil => rfl
  | value _ _ _ ih => simp [flagName, ih]
  | implicit _ _ ih => simp [flagName, ih]

theorem says_items {ms : Modules} {oc : Bool} {text : Ast.Program} {V A : InView} {k : Nat} {items : List Ast.Item} {fs : Fields}
    (h : SaysItems ms oc text V A k items fs) : ∀ n ∈ fs.names, n ∈ itemsWords items := by
  induction h with
  | nil => intro n hn; cases hn
  | pad _ _ ih => intro n hn; exact ih n hn
  | leaf _ _ _ _ _ ih =>
    intro n hn
    simp only [Fields.names, Fields.leaves, List.map_cons, List.mem_cons] at hn
    simp only [itemsWords, List.mem_cons, List.mem_append]
    rcases hn with rfl | hn
    · exact .inl rfl
    · exact .inr (.inr (ih n hn))
  | cont _ _ _ _ _ _ ih1 ih2 =>
    intro n hn
    simp only [Fields.names, Fields.leaves, List.map_append, List.mem_append] at hn
    simp only [itemsWords, fieldWords, tyWords, List.mem_cons, List.mem_append]
    rcases hn with hn | hn
    · exact .inr (.inl (ih1 n hn))
    · exact .inr (.inr (ih2 n hn))

theorem says_arms {ms : Modules} {oc : Bool} {text : Ast.Program} {V : InView} {items : List Ast.Item} {arms : List Arm}
    (h : SaysArms ms oc text V items arms) :
    (∀ a ∈ arms, a.attr.name ∈ itemsWords items ∧ ∀ len fs, a.body = .cont len fs → ∀ n ∈ fs.names, n ∈ itemsWords items) ∧
    arms.map (·.attr.name) = fieldNames items := by
  induction h with
  | nil => exact ⟨fun a ha => (by cases ha), rfl⟩
  | leaf _ _ _ _ ih =>
    refine ⟨?_, by simp [fieldNames, ih.2]⟩
    intro a ha
    rcases List.mem_cons.1 ha with rfl | ha
    · exact ⟨by simp [itemsWords], fun len fs e => by cases e⟩
    · obtain ⟨h1, h2⟩ := ih.1 a ha
      refine ⟨by simp [itemsWords, h1], fun len fs e n hn => ?_⟩
      have := h2 len fs e n hn
      simp [itemsWords, this]
  | cont _ _ hi _ _ _ ih =>
    refine ⟨?_, by simp [fieldNames, ih.2]⟩
    intro a ha
    rcases List.mem_cons.1 ha with rfl | ha
    · refine ⟨by simp [itemsWords], fun len fs e n hn => ?_⟩
      cases e
      have := says_items hi n hn
      simp [itemsWords, fieldWords, tyWords, this]
    · obtain ⟨h1, h2⟩ := ih.1 a ha
      refine ⟨by simp [itemsWords, h1], fun len fs e n hn => ?_⟩
      have := h2 len fs e n hn
      simp [itemsWords, this]

/-- The names of a generated declaration are those of the text. -/
theorem says_words {ms : Modules} {oc : Bool} {text : Ast.Program} {D : Ast.Decl} {d : Decl} (h : SaysDecl ms oc text D d) :
    ∀ n ∈ declNames d, n ∈ declWords D := by
  cases h with
  | mk hd hx hb =>
    intro n hn
    simp only [declNames, List.mem_cons, List.mem_append] at hn
    simp only [declWords, fieldWords, List.mem_cons, List.mem_append]
    rcases hn with rfl | hn | hn
    · exact .inl rfl
    · exact .inr (.inl hn)
    · refine .inr (.inr ?_)
      cases hb with
      | leaf _ _ => simp at hn
      | repr hr =>
        cases hr with
        | enum hv => simp only [tyWords, ← says_variants hv]; exact hn
        | bitfield hv => simp only [tyWords, ← says_flags hv]; exact hn
      | struct _ _ hi => simp only [tyWords]; exact says_items hi n hn
      | tagged _ _ ha =>
        simp only [tyWords]
        obtain ⟨a, ha', hn⟩ := List.mem_flatMap.1 hn
        obtain ⟨h1, h2⟩ := (says_arms ha).1 a ha'
        rcases List.mem_cons.1 hn with rfl | hn
        · exact h1
        · cases hb : a.body with
          | leaf ty => rw [hb] at hn; cases hn
          | cont len items => rw [hb] at hn; exact h2 len items hb n hn

/-- The variants and alternatives of a declaration. -/
def declVariants (d : Decl) : List String :=
  match d.body with
  | .repr (.enum _ e) => e.items.map (·.1)
  | .tagged _ arms => arms.map (·.attr.name)
  | _ => []

theorem says_variants_nodup {ms : Modules} {oc : Bool} {text : Ast.Program} {D : Ast.Decl} {d : Decl} (h : SaysDecl ms oc text D d)
    (hd : DistinctDecl D) : (declVariants d).Nodup := by
  cases h with
  | mk _ hx hb =>
    have hd := hd.2
    cases hb with
    | leaf _ _ => exact List.nodup_nil
    | repr hr =>
      cases hr with
      | enum hv => simp only [declVariants, says_variants hv]; exact hd
      | bitfield hv => exact List.nodup_nil
    | struct _ _ hi => exact List.nodup_nil
    | tagged _ _ ha =>
      simp only [declVariants, (says_arms ha).2]
      exact hd.1

theorem lowerTypes_names {oc : Bool} {h : Heap} {m : Nat} : ∀ {ts : List (String × FId)} {sch : Schema},
    lowerTypes oc h m ts = .ok sch → List.Sublist (sch.map (·.name)) (ts.map Prod.fst)
  | [], sch, hl => by cases hl; exact List.Sublist.refl _
  | (name, f) :: rest, sch, hl => by
    rw [lowerTypes] at hl
    simp only [gbind_ok, ofR_ok, deref_ok] at hl
    obtain ⟨x, hx, hl⟩ := hl
    split at hl
    · exact (lowerTypes_names hl).trans (List.sublist_cons_self _ _)
    · split at hl
      · cases hl
      · rename_i hn
        simp only [gbind_ok] at hl
        obtain ⟨d', hd', r, hr, hl⟩ := hl
        cases hl
        have : d'.name = x.name := by
          unfold lowerDecl at hd'
          rw [deref_some hx] at hd'
          simp only [gbind_ok, ofR_ok, Except.ok.injEq, exists_eq_left'] at hd'
          obtain ⟨ps, -, xs, -, b, -, hd'⟩ := hd'
          split at hd' <;> cases hd'
          rfl
        simp only [List.map_cons, this, Decidable.of_not_not hn]
        exact (lowerTypes_names hr).cons_cons _

/-- Everything about names that acceptance guarantees: types have names of their own, so have the variants of each; all names are
words, and none is a word of protospec's. -/
structure SourceNames (sch : Schema) : Prop where
  types : (sch.map (·.name)).Nodup
  variants : ∀ d ∈ sch, (declVariants d).Nodup
  words : ∀ d ∈ sch, ∀ n ∈ declNames d, wordLike n = true ∧ ¬ Reserved n

/-- **C77** (1). Names in accepted specifications. -/
theorem accepted_names (modules : List (String × Text)) (src : String) (sch : Schema) (hs : specOf modules src = some sch)
    (hp : noPadText (ascii src) = true) (hm : ∀ x ∈ modules, noPadText x.2 = true) : SourceNames sch := by
  unfold specOf at hs
  unfold noPadText at hp
  split at hs
  · cases hs
  · rename_i ast hparse
    rw [hparse] at hp
    split at hs
    · cases hs
    · rename_i p h loads hc
      split at hs
      · cases hs
      · rename_i sch' hl
        cases hs
        have made := convert_made hc
        have hpf : ∀ home, (home = ast ∨ ∃ module, (textEnv modules).load module = .ok (some (some home))) →
            (∀ d ∈ home, PadFreeDecl d) ∧ ∃ text, parse text = .ok home := by
          rintro home (rfl | ⟨name, ha⟩)
          · exact ⟨fun d hd => noPadDecl_sound (List.all_eq_true.1 hp d hd), _, hparse⟩
          · simp only [textEnv, Except.ok.injEq, Option.map_eq_some_iff] at ha
            obtain ⟨text, h1, h2⟩ := ha
            have h3 := hm _ (IMap.get_mem h1)
            unfold noPadText at h3
            cases hpp : parse text with
            | error e => rw [hpp] at h2; cases h2
            | ok b =>
              rw [hpp] at h2 h3
              cases h2
              exact ⟨fun d hd => noPadDecl_sound (List.all_eq_true.1 h3 d hd), text, hpp⟩
        have key : ∀ d ∈ sch, ∃ home args f text, parse text = .ok home ∧ .type d.name args f ∈ home ∧
            DistinctDecl (.type d.name args f) ∧ SaysDecl (modulesOf (textEnv modules)) true home (.type d.name args f) d := by
          intro d hd
          obtain ⟨id, x, h1, h2, h3, h4⟩ := lowerTypes_mem hl d hd
          have nd := get_of_mem_nodup (made_types_nodup made) h1
          rcases made.typeOrigin d.name id nd with ⟨home, q, k, args, f, ho, hq, hd', hg⟩ | ⟨home, k, -, y, hy, ht⟩
          · obtain ⟨hpad, text, ht⟩ := hpf home (typeOrigin_home ho).2
            obtain ⟨e, hsd⟩ := lowerDecl_says hq hd' hg (hpad _ hd').2 h4
            subst e
            refine ⟨home, args, f, text, ht, hd', ?_, hsd⟩
            cases hq with
            | mk _ _ g3 _ => exact (duplicates_rejected _ _ _ _ _ _ g3).inside _ hd'
          · rw [h2] at hy; cases hy
            exact absurd ht (h3 k)
        refine ⟨(lowerTypes_names hl).nodup (made_types_nodup made), ?_, ?_⟩
        · intro d hd
          obtain ⟨home, args, f, text, -, -, hdd, hsd⟩ := key d hd
          exact says_variants_nodup hsd hdd
        · intro d hd n hn
          obtain ⟨home, args, f, text, ht, hmem, -, hsd⟩ := key d hd
          exact parsed_wordLike ht hmem (says_words hsd n hn)


/-! ### Names that types should not have -/

/-- Types, traits, modules and crates that generated code mentions, and generics of its functions. -/
def takenTypes : List String :=
  ["Read", "BufRead", "Cursor", "slice", "mem", "TryInto", "Result", "Error", "DecodeError", "EncodeError",
   "AsRef", "str", "std", "core", "anyhow", "Box", "Send", "Sync", "Unpin", "String", "Vec", "Option", "usize", "tokio", "async_recursion",
   "flate2", "base64", "async_compression",
   "R", "W", "Write", "AsyncRead", "AsyncBufRead", "AsyncBufReadExt", "AsyncReadExt", "AsyncWrite", "AsyncWriteExt"]

/-- Variables, functions and constructors of generated code. -/
def takenValues : List String :=
  ["Ok", "Err", "Some", "None", "drop", "encode_error", "decode_error", "reader", "writer", "value", "f", "repr", "rhs", "x",
   "scratch", "size", "raw", "t_count", "big_scratch", "buf", "r", "r_len", "r_xform",
   "t", "t_borrow", "t_borrow2", "len", "ptr", "utf16", "i", "output"]

/-- Names chosen so that they stay out of the way. -/
structure WellNamed (o : NameOpts) (C : Cases) (sch : Schema) : Prop where
  /-- none is a word of Rust's -/
  words : ∀ d ∈ sch, ∀ n ∈ declNames d, n ≠ "_" ∧ n ∉ rustKeywords
  /-- types are not called like something generated code mentions -/
  types : ∀ d ∈ sch, d.name ∉ takenTypes
  /-- and those that become tuple structs not like a variable, `r_0`, `r_1` and so on included -/
  values : ∀ d ∈ sch, d.isTuple = true → d.name ∉ takenValues ∧ ∀ k : Nat, d.name ≠ "r_" ++ toString k
  /-- parameters have names of their own -/
  params : ∀ d ∈ sch, d.params.Nodup ∧ "reader" ∉ d.params ∧ "writer" ∉ d.params ∧ "DecodeError" ∉ d.params ∧ "EncodeError" ∉ d.params
  /-- and not that of a type that becomes a tuple struct -/
  apart : ∀ d ∈ sch, ∀ e ∈ sch, e.isTuple = true → e.name ∉ d.params
  /-- fields have names of their own, also across containers in one another -/
  fields : ∀ d ∈ sch, d.FieldsNodup
  /-- variants and alternatives are not called like functions -/
  variants : ∀ d ∈ sch, "from_repr" ∉ declVariants d ∧ "decode_sync" ∉ declVariants d ∧ "decode_async" ∉ declVariants d
  /-- what is made of the names of flags are identifiers, and different ones -/
  flags : ∀ d ∈ sch, ∀ n b, d.body = .repr (.bitfield n b) → (∀ p ∈ b.flags, RustIdent (C.upper (C.snake p.1)) ∧ RustIdent (C.snake p.1) ∧
      RustIdent ("set_" ++ C.snake p.1)) ∧
    (b.flags.map (fun p => C.upper (C.snake p.1)) ++ ["ALL", "ZERO", "from_repr", "to_be_bytes", "to_le_bytes"] ++
      b.flags.map (fun p => C.snake p.1) ++ b.flags.map (fun p => "set_" ++ C.snake p.1) ++ coderNames o).Nodup

/-- What generated code does with names. -/
def usual : NameUse → Prop
  | .binds n => n ∈ takenValues ∨ ∃ k, n = regName k
  | .lib .type n => n ∈ takenTypes
  | .lib .value n => n ∈ takenValues
  | .decl _ => True

theorem usual_reg (k : Nat) : usual (bindsReg k) := .inr ⟨k, rfl⟩

theorem usual_prelude (n : String) : ∀ u ∈ preludeSnippets.uses n, usual u := by
  intro u hu
  simp only [preludeSnippets] at hu
  split at hu
  · simp only [List.mem_append, List.mem_cons, List.not_mem_nil, or_false] at hu
    rcases hu with (rfl | rfl | rfl | rfl | rfl | rfl | rfl | rfl | rfl) | hu
    iterate 9 (simp [usual, takenValues, takenTypes])
    split at hu
    · simp only [List.mem_cons, List.not_mem_nil, or_false] at hu
      subst hu; simp [usual, takenValues]
    · cases hu
  · split at hu
    · simp only [List.mem_cons, List.not_mem_nil, or_false] at hu
      rcases hu with rfl | rfl <;> simp [usual, takenTypes]
    · split at hu
      · simp only [List.mem_cons, List.not_mem_nil, or_false] at hu
        subst hu; simp [usual, takenTypes]
      · split at hu
        · simp only [List.mem_cons, List.not_mem_nil, or_false] at hu
          rcases hu with rfl | rfl | rfl | rfl <;> simp [usual, takenValues]
        · cases hu

theorem usual_expr : ∀ (e : Expr), ∀ u ∈ e.nameUses, usual u := by
  intro e
  induction e with
  | len o e ih => cases o <;> simp_all [Expr.nameUses]
  | sum e ih =>
    intro u hu
    simp only [Expr.nameUses, List.mem_cons] at hu
    rcases hu with rfl | hu
    · simp [usual, takenValues]
    · exact ih u hu
  | enumAccess n v val => intro u hu; simp only [Expr.nameUses, List.mem_singleton] at hu; subst hu; trivial
  | _ => simp only [Expr.nameUses, List.mem_append, List.not_mem_nil] <;> grind

theorem usual_binds {n : String} (h : n ∈ takenValues) : usual (.binds n) := .inl h

theorem usual_nil : ∀ u ∈ ([] : List NameUse), usual u := by simp

theorem usual_decl (n : String) : usual (.decl n) := trivial

theorem usual_lib_value {n : String} (h : n ∈ takenValues) : usual (.lib .value n) := h

theorem usual_lib_type {n : String} (h : n ∈ takenTypes) : usual (.lib .type n) := h

/-- Closes the goals about names of the generator's own. -/
macro "usual_names" : tactic =>
  `(tactic| ((try simp only [List.forall_mem_cons, List.forall_mem_append, List.forall_mem_nil, List.forall_mem_map, if_true, if_false,
      Bool.false_eq_true, List.append_nil, List.nil_append, and_true, true_and, Option.isSome_none, Option.isSome_some]) <;>
     (repeat' refine And.intro ?_ ?_) <;>
     first
     | exact usual_nil
     | exact usual_reg _
     | exact usual_prelude _
     | exact usual_expr _
     | exact usual_decl _
     | exact usual_binds (by decide)
     | exact usual_lib_value (by decide)
     | exact usual_lib_type (by decide)
     | (intros; exact usual_reg _)
     | assumption
     | trivial))

theorem dec_op_usual (i : Dec.Op) : ∀ u ∈ i.nameUses preludeSnippets, usual u := by
  cases i with
  | construct r c => cases c <;> simp only [Dec.Op.nameUses] <;> usual_names
  | primArray s out p len => cases len <;> simp only [Dec.Op.nameUses] <;> usual_names
  | reprArray s out p len => cases len <;> simp only [Dec.Op.nameUses] <;> usual_names
  | _ => simp only [Dec.Op.nameUses] <;> usual_names

theorem dec_prog_usual (async : Bool) (p : Dec.Prog) : ∀ u ∈ p.nameUses preludeSnippets async, usual u := by
  induction p with
  | op i rest ih => have h := dec_op_usual i; simp only [Dec.Prog.nameUses]; usual_names
  | loop s len term out inner rest ih1 ih2 =>
    cases len <;> cases term <;> simp only [Dec.Prog.nameUses, Dec.loopUses] <;> usual_names
  | condWrap => cases async <;> simp only [Dec.Prog.nameUses] <;> usual_names
  | _ => simp only [Dec.Prog.nameUses] <;> usual_names

theorem enc_op_usual (i : Enc.Op) : ∀ u ∈ i.nameUses preludeSnippets, usual u := by
  have hl : ∀ p, ∀ u ∈ Enc.loopVar p, usual u := by
    intro p; unfold Enc.loopVar; split <;> usual_names
  cases i with
  | primArray s out p len => have h := hl p; cases len <;> simp only [Enc.Op.nameUses] <;> usual_names
  | reprArray s out p len => cases len <;> simp only [Enc.Op.nameUses] <;> usual_names
  | _ => simp only [Enc.Op.nameUses] <;> usual_names

theorem enc_prog_usual (async : Bool) (p : Enc.Prog) : ∀ u ∈ p.nameUses preludeSnippets async, usual u := by
  induction p with
  | op i rest ih => have h := enc_op_usual i; simp only [Enc.Prog.nameUses]; usual_names
  | condWrap => cases async <;> simp only [Enc.Prog.nameUses] <;> usual_names
  | _ => simp only [Enc.Prog.nameUses] <;> usual_names

theorem rty_usual (t : RTy) : ∀ u ∈ t.nameUses, usual u := by
  induction t <;> simp only [RTy.nameUses] <;> usual_names

theorem types_usual (F : Sig) (d : Decl) : ∀ u ∈ declTypeUses F d, usual u := by
  unfold declTypeUses
  have hf : ∀ (l : List (String × RTy)), ∀ u ∈ l.flatMap (fun p => p.2.nameUses), usual u := by
    intro l u hu
    obtain ⟨p, -, h⟩ := List.mem_flatMap.1 hu
    exact rty_usual _ u h
  cases d.body with
  | leaf c ty => exact rty_usual _
  | repr t => usual_names
  | struct _ items => exact hf _
  | tagged _ arms =>
    intro u hu
    obtain ⟨a, -, h⟩ := List.mem_flatMap.1 hu
    split at h
    · exact rty_usual _ u h
    · exact hf _ u h

theorem repr_usual (t : ReprTy) : ∀ u ∈ reprUses t, usual u := by
  cases t with
  | enum n e => simp only [reprUses]; split <;> usual_names
  | bitfield n b => simp only [reprUses]; usual_names

theorem header_usual (o : NameOpts) : ∀ u ∈ headerUses o, usual u := by
  obtain ⟨a, b⟩ := o
  cases a <;> simp only [headerUses] <;> usual_names

/-- Every type that generated code mentions is a type of the specification. -/
def AllDeclared (o : NameOpts) (F : Sig) (C : Cases) (sch : Schema) : Prop :=
  ∀ n, (.decl n ∈ (rustModule o F C preludeSnippets sch).outside ∨
    ∃ f ∈ (rustModule o F C preludeSnippets sch).fns, .decl n ∈ f.body) → ∃ d ∈ sch, d.name = n

theorem mem_declared {sch : Schema} {ns : NameSpace} {n : String} :
    (ns, n) ∈ sch.flatMap declItems ↔ ∃ d ∈ sch, d.name = n ∧ (ns = .value → d.isTuple = true) := by
  simp only [List.mem_flatMap, declItems]
  refine exists_congr fun d => and_congr_right fun _ => ?_
  cases ns <;> cases d.isTuple <;> simp [eq_comm]

theorem fns_mem {o : NameOpts} {S : Snippets} {sch : Schema} {f : RustFn} (h : f ∈ sch.flatMap (declFns o S)) :
    ∃ d ∈ sch, ∃ async, (f.params = "reader" :: d.params ∧ f.hides = (decodeFn S async d).hides ∧
        ∀ u ∈ f.body, u = .lib .type "async_recursion" ∨ u ∈ (decodeFn S async d).body) ∨
      (f.params = "writer" :: d.params ∧ f.hides = (encodeFn S async d).hides ∧
        ∀ u ∈ f.body, u = .lib .type "async_recursion" ∨ u ∈ (encodeFn S async d).body) := by
  obtain ⟨d, hd, hf⟩ := List.mem_flatMap.1 h
  refine ⟨d, hd, ?_⟩
  unfold declFns at hf
  simp only [List.mem_append, List.mem_cons, List.not_mem_nil, or_false] at hf
  rcases hf with (rfl | rfl) | hf
  · exact ⟨false, .inl ⟨rfl, rfl, fun u hu => .inr hu⟩⟩
  · exact ⟨false, .inr ⟨rfl, rfl, fun u hu => .inr hu⟩⟩
  · split at hf
    · simp only [List.mem_cons, List.not_mem_nil, or_false] at hf
      rcases hf with rfl | rfl
      · exact ⟨true, .inr ⟨rfl, rfl, fun u hu => by simpa using hu⟩⟩
      · exact ⟨true, .inl ⟨rfl, rfl, fun u hu => by simpa using hu⟩⟩
    · cases hf

theorem fns_usual {o : NameOpts} {sch : Schema} {f : RustFn} (h : f ∈ sch.flatMap (declFns o preludeSnippets)) :
    ∀ u ∈ f.body, usual u := by
  intro u hu
  obtain ⟨d, -, async, ⟨-, -, hb⟩ | ⟨-, -, hb⟩⟩ := fns_mem h
  · rcases hb u hu with rfl | hu
    · exact usual_lib_type (by decide)
    · have : ∀ u ∈ (decodeFn preludeSnippets async d).body, usual u := by
        have := dec_prog_usual async (Dec.genDecl d)
        cases async <;> simp only [decodeFn] <;> usual_names
      exact this u hu
  · rcases hb u hu with rfl | hu
    · exact usual_lib_type (by decide)
    · have : ∀ u ∈ (encodeFn preludeSnippets async d).body, usual u := by
        have := enc_prog_usual async (Enc.genDecl d).2
        cases async <;> simp only [encodeFn] <;> usual_names
      exact this u hu

theorem fns_hides {o : NameOpts} {S : Snippets} {sch : Schema} {f : RustFn} (h : f ∈ sch.flatMap (declFns o S)) :
    ∀ n ∈ f.hides, n ∈ takenTypes := by
  intro n hn
  obtain ⟨d, -, async, ⟨-, hh, -⟩ | ⟨-, hh, -⟩⟩ := fns_mem h <;> rw [hh] at hn <;> cases async <;>
    simp only [decodeFn, encodeFn, if_true, if_false, Bool.false_eq_true] at hn <;> revert n <;> decide

theorem outside_usual {o : NameOpts} {F : Sig} {C : Cases} {sch : Schema} :
    ∀ u ∈ (rustModule o F C preludeSnippets sch).outside, usual u := by
  intro u hu
  simp only [rustModule, List.mem_append, List.mem_flatMap] at hu
  rcases hu with hu | ⟨d, -, hu | hu⟩
  · exact header_usual o u hu
  · exact types_usual F d u hu
  · split at hu
    · exact repr_usual _ u hu
    · cases hu

theorem items_nodup {sch : Schema} (h : (sch.map (·.name)).Nodup) : (sch.flatMap declItems).Nodup := by
  induction sch with
  | nil => simp
  | cons d ds ih =>
    simp only [List.map_cons, List.nodup_cons] at h
    rw [List.flatMap_cons, List.nodup_append]
    refine ⟨by unfold declItems; split <;> simp, ih h.2, ?_⟩
    rintro ⟨ns, n⟩ ha b hb rfl
    obtain ⟨e, he, hn, -⟩ := mem_declared.1 hb
    have : n = d.name := by
      unfold declItems at ha
      split at ha <;> simp at ha <;> grind
    exact h.1 (List.mem_map.2 ⟨e, he, hn.trans this⟩)

/-- **C77 (partial).** Names chosen so that they stay out of each other's way (`WellNamed`) do: the code generated from an accepted
specification keeps to Rust's rules for names, provided every type it mentions is declared.

Missing: other names. protospec takes them without a word, and rustc refuses the code (the findings below). -/
theorem names_kept_partial (o : NameOpts) (F : Sig) (C : Cases) (sch : Schema) (hs : SourceNames sch) (hw : WellNamed o C sch)
    (hc : AllDeclared o F C sch) : NamesKept (rustModule o F C preludeSnippets sch) := by
  have hdecl : ∀ n, n ∈ takenTypes → (NameSpace.type, n) ∉ (rustModule o F C preludeSnippets sch).declared := by
    intro n hn hd
    obtain ⟨d, hm, rfl, -⟩ := mem_declared.1 hd
    exact hw.types d hm hn
  have hval : ∀ n, n ∈ takenValues → (NameSpace.value, n) ∉ (rustModule o F C preludeSnippets sch).declared := by
    intro n hn hd
    obtain ⟨d, hm, rfl, ht⟩ := mem_declared.1 hd
    exact (hw.values d hm (ht rfl)).1 hn
  have hlib : ∀ ns n, usual (.lib ns n) → (ns, n) ∉ (rustModule o F C preludeSnippets sch).declared := by
    intro ns n hu
    cases ns
    · exact hdecl n hu
    · exact hval n hu
  have hbind : ∀ n, usual (.binds n) → n ∉ (rustModule o F C preludeSnippets sch).tuples := by
    intro n hu ht
    simp only [rustModule, List.mem_append, List.mem_map, List.mem_filter] at ht
    rcases ht with ht | ⟨d, ⟨hd, hdt⟩, rfl⟩
    · have hn : n = "DecodeError" ∨ n = "EncodeError" := by
        cases ho : o.anyhow <;> simp [ho] at ht; exact ht
      rcases hu with hu | ⟨k, rfl⟩
      · rcases hn with rfl | rfl <;> revert hu <;> decide
      · have : (regName k).toList.head? = some 'r' := by simp [regName]
        rcases hn with hn | hn <;> rw [hn] at this <;> revert this <;> decide
    · obtain ⟨h1, h2⟩ := hw.values d hd hdt
      rcases hu with hu | ⟨k, hk⟩
      · exact h1 hu
      · exact h2 k hk
  have hname : ∀ d ∈ sch, ∀ n ∈ declNames d, RustIdent n := fun d hd n hn =>
    ⟨(hs.words d hd n hn).1, hw.words d hd n hn⟩
  refine ⟨?_, ?_, ?_, ?_, ?_, ?_, ?_, ?_, ?_, ?_, ?_⟩
  · intro n hn
    obtain ⟨d, hd, hn⟩ := List.mem_flatMap.1 hn
    by_cases hb : n ∈ declNames d
    · exact hname d hd n hb
    · unfold declIdents at hn
      unfold declNames at hb
      cases hbody : d.body with
      | repr t =>
        cases t with
        | enum m e => simp only [hbody] at hn hb; exact absurd hn (by simpa using hb)
        | bitfield m b =>
          have hf := (hw.flags d hd m b hbody).1
          simp only [hbody, List.cons_append, List.mem_cons, List.mem_append, List.mem_map, not_or] at hn hb
          rcases hn with hn | hn | (⟨p, hp, rfl⟩ | ⟨p, hp, rfl⟩) | ⟨p, hp, rfl⟩
          · exact absurd hn hb.1
          · exact absurd hn hb.2.1
          · exact (hf p hp).1
          · exact (hf p hp).2.1
          · exact (hf p hp).2.2
      | tagged m arms =>
        simp only [hbody, List.cons_append, List.mem_cons, List.mem_append, List.mem_flatMap, not_or, not_exists, not_and] at hn hb
        rcases hn with hn | hn | ⟨a, ha, hn⟩
        · exact absurd hn hb.1
        · exact absurd hn hb.2.1
        · have := hb.2.2 a ha
          rcases hn with hn | hn
          · exact absurd hn this.1
          · cases hab : a.body with
            | leaf ty => simp only [hab] at hn; cases hn
            | cont l items => simp only [hab] at hn this; exact absurd hn this.2
      | _ => simp only [hbody] at hn hb; exact absurd hn (by simpa using hb)
  · rw [List.nodup_append]
    refine ⟨?_, items_nodup hs.types, ?_⟩
    · obtain ⟨a, b⟩ := o
      cases a <;> cases b <;> simp only [rustModule, headerItems] <;> decide
    · rintro ⟨ns, n⟩ ha b hb rfl
      cases ns
      · refine hdecl n ?_ hb
        obtain ⟨a, b⟩ := o
        cases a <;> simp only [rustModule, headerItems] at ha <;> revert ha <;> simp [takenTypes] <;> grind
      · obtain ⟨d, hd, rfl, ht⟩ := mem_declared.1 hb
        have : d.name ∈ takenTypes ∨ d.name ∈ takenValues := by
          obtain ⟨a, b⟩ := o
          cases a <;> simp only [rustModule, headerItems] at ha <;> revert ha <;> simp [takenTypes, takenValues] <;> grind
        rcases this with h | h
        · exact hw.types d hd h
        · exact (hw.values d hd (ht rfl)).1 h
  · exact fun ns n h => hlib ns n (outside_usual _ h)
  · exact fun f hf ns n h => hlib ns n (fns_usual hf _ h)
  · exact fun n h => hbind n (outside_usual _ h)
  · exact fun f hf n h => hbind n (fns_usual hf _ h)
  · intro f hf n hn
    have key : ∀ d ∈ sch, n ∈ d.params → n ∉ (rustModule o F C preludeSnippets sch).tuples := by
      intro d hd hn ht
      simp only [rustModule, List.mem_append, List.mem_map, List.mem_filter] at ht
      obtain ⟨-, -, -, h1, h2⟩ := hw.params d hd
      rcases ht with ht | ⟨e, ⟨he, het⟩, rfl⟩
      · have hn' : n = "DecodeError" ∨ n = "EncodeError" := by
          cases ho : o.anyhow <;> simp [ho] at ht; exact ht
        rcases hn' with rfl | rfl
        · exact h1 hn
        · exact h2 hn
      · exact hw.apart d hd e he het hn
    obtain ⟨d, hd, async, ⟨hp, -, -⟩ | ⟨hp, -, -⟩⟩ := fns_mem hf <;> rw [hp] at hn <;> rcases List.mem_cons.1 hn with rfl | hn
    · exact hbind _ (usual_binds (by decide))
    · exact key d hd hn
    · exact hbind _ (usual_binds (by decide))
    · exact key d hd hn
  · intro f hf
    obtain ⟨d, hd, async, ⟨hp, -, -⟩ | ⟨hp, -, -⟩⟩ := fns_mem hf <;> rw [hp] <;> obtain ⟨h1, h2, h3, -⟩ := hw.params d hd
    · exact List.nodup_cons.2 ⟨h2, h1⟩
    · exact List.nodup_cons.2 ⟨h3, h1⟩
  · intro l hl
    obtain ⟨d, hd, hl⟩ := List.mem_flatMap.1 hl
    have hv := hs.variants d hd
    have hfun := hw.variants d hd
    have hfl := hw.fields d hd
    have hflag := hw.flags d hd
    unfold declLists at hl
    unfold declVariants at hv hfun
    unfold Decl.FieldsNodup at hfl
    cases hbody : d.body with
    | leaf c ty => simp only [hbody] at hl; cases hl
    | repr t =>
      cases t with
      | enum m e =>
        simp only [hbody, List.mem_singleton] at hl hv hfun
        subst hl
        rw [List.nodup_append]
        refine ⟨hv, by simp, ?_⟩
        rintro a ha b hb rfl
        simp only [List.mem_singleton] at hb
        subst hb
        exact hfun.1 ha
      | bitfield m b =>
        simp only [hbody, List.mem_singleton] at hl
        subst hl
        exact (hflag m b hbody).2
    | struct n items =>
      simp only [hbody, List.mem_singleton] at hl hfl
      subst hl
      exact hfl
    | tagged n arms =>
      simp only [hbody, List.mem_cons, List.mem_flatMap] at hl hv hfun hfl
      rcases hl with rfl | ⟨a, ha, hl⟩
      · rw [List.nodup_append]
        refine ⟨hv, by decide, ?_⟩
        rintro x hx y hy rfl
        simp only [List.mem_cons, List.not_mem_nil, or_false] at hy
        rcases hy with rfl | rfl
        · exact hfun.2.1 hx
        · exact hfun.2.2 hx
      · have := hfl a ha
        cases hab : a.body with
        | leaf ty => simp only [hab] at hl; cases hl
        | cont n items => simp only [hab, List.mem_singleton] at hl; subst hl; exact this _ _ hab
  · intro f hf n hn hh
    obtain ⟨d, hd, rfl⟩ := hc n (.inr ⟨f, hf, hn⟩)
    exact hw.types d hd (fns_hides hf _ hh)
  · intro n hn
    obtain ⟨d, hd, rfl⟩ := hc n hn
    exact mem_declared.2 ⟨d, hd, rfl, by simp⟩

/-! ### What rustc guarantees when it accepts the names -/

/-- **C77** (2). If the generated code keeps to Rust's rules for names, the fields of every type have names of their own, across containers
in one another, and so have the parameters, none of which is `reader` or `writer`: the assumptions of other claims (C03, C64) are then met. -/
theorem kept_names_give (o : NameOpts) (F : Sig) (C : Cases) (S : Snippets) (sch : Schema) (h : NamesKept (rustModule o F C S sch)) :
    ∀ d ∈ sch, d.FieldsNodup ∧ d.params.Nodup ∧ "reader" ∉ d.params ∧ "writer" ∉ d.params := by
  intro d hd
  have hf : ∀ f ∈ declFns o S d, f.params.Nodup := fun f hf => h.params f (List.mem_flatMap.2 ⟨d, hd, hf⟩)
  have h1 := hf (decodeFn S false d) (by simp [declFns])
  have h2 := hf (encodeFn S false d) (by simp [declFns])
  simp only [decodeFn, encodeFn, List.nodup_cons] at h1 h2
  refine ⟨?_, h1.2, h1.1, h2.1⟩
  have hl : ∀ l ∈ declLists o C d, l.Nodup := fun l hl => h.lists l (List.mem_flatMap.2 ⟨d, hd, hl⟩)
  unfold declLists at hl
  unfold Decl.FieldsNodup
  cases hb : d.body with
  | struct len items => simp only [hb, List.mem_singleton, forall_eq] at hl; exact hl
  | tagged len arms =>
    simp only [hb, List.mem_cons, List.mem_flatMap, forall_eq_or_imp] at hl
    intro a ha l items hab
    refine hl.2 _ ⟨a, ha, ?_⟩
    rw [hab]
    exact List.mem_singleton.2 rfl
  | _ => trivial

/-- So the decoder that rustc accepts does what the specification says (C03). -/
theorem kept_names_decode (o : NameOpts) (F : Sig) (C : Cases) (S : Snippets) (sch : Schema) (h : NamesKept (rustModule o F C S sch))
    (L : Dec.Lib) (fuel : Nat) (name : String) (args : List Val) (input : Bytes) :
    Dec.runDecode sch L fuel name args input = Dec.specDecode sch L fuel name args input :=
  decode_refines sch L (fun d hd => (kept_names_give o F C S sch h d hd).1) fuel name args input

/-! ### What rustc refuses, whatever else the specification says -/

/-- A type called like something the header declares: `Read`, `Result`, `mem`, … -/
theorem header_name_refused (o : NameOpts) (F : Sig) (C : Cases) (S : Snippets) (sch : Schema) (d : Decl) (hd : d ∈ sch)
    (hn : (.type, d.name) ∈ headerItems o) : ¬ NamesKept (rustModule o F C S sch) := by
  intro h
  exact (List.nodup_append.1 h.items).2.2 _ hn _ (mem_declared.2 ⟨d, hd, rfl, by simp⟩) rfl

/-- A type that becomes a tuple struct and is called `value`; without `anyhow` also one called `f`. -/
theorem value_type_refused (o : NameOpts) (F : Sig) (C : Cases) (S : Snippets) (sch : Schema) (d : Decl) (hd : d ∈ sch)
    (ht : d.isTuple = true) (hn : d.name = "value" ∨ d.name = "f" ∧ o.anyhow = false) : ¬ NamesKept (rustModule o F C S sch) := by
  intro h
  have hm : d.name ∈ (rustModule o F C S sch).tuples :=
    List.mem_append_right _ (List.mem_map.2 ⟨d, List.mem_filter.2 ⟨hd, ht⟩, rfl⟩)
  refine h.vars d.name (List.mem_append_left _ ?_) hm
  rcases hn with hn | ⟨hn, ho⟩ <;> simp [headerUses, *]

/-- A type, parameter, field, alternative or variant called like a word of Rust's: `match`, `loop`, `self`, … -/
theorem rust_word_refused (o : NameOpts) (F : Sig) (C : Cases) (S : Snippets) (sch : Schema) (d : Decl) (hd : d ∈ sch) (n : String)
    (hn : n ∈ declIdents C d) (hk : n ∈ rustKeywords) : ¬ NamesKept (rustModule o F C S sch) :=
  fun h => (h.idents n (List.mem_flatMap.2 ⟨d, hd, hn⟩)).2.2 hk

/-! ### Cases -/

/-- `WellNamed`, computed. -/
def wellNamed (o : NameOpts) (C : Cases) (sch : Schema) : Bool :=
  sch.all fun d =>
    (declNames d).all (fun n => decide (n ≠ "_" ∧ n ∉ rustKeywords)) && decide (d.name ∉ takenTypes) &&
    (!d.isTuple || decide (d.name ∉ takenValues) && clean d.name) &&
    decide (d.params.Nodup ∧ "reader" ∉ d.params ∧ "writer" ∉ d.params ∧ "DecodeError" ∉ d.params ∧ "EncodeError" ∉ d.params) &&
    sch.all (fun e => !e.isTuple || decide (e.name ∉ d.params)) && distinctFields d &&
    decide ("from_repr" ∉ declVariants d ∧ "decode_sync" ∉ declVariants d ∧ "decode_async" ∉ declVariants d) &&
    match d.body with
    | .repr (.bitfield _ b) => b.flags.all (fun p => decide (RustIdent (C.upper (C.snake p.1)) ∧ RustIdent (C.snake p.1) ∧
        RustIdent ("set_" ++ C.snake p.1))) &&
      decide (b.flags.map (fun p => C.upper (C.snake p.1)) ++ ["ALL", "ZERO", "from_repr", "to_be_bytes", "to_le_bytes"] ++
        b.flags.map (fun p => C.snake p.1) ++ b.flags.map (fun p => "set_" ++ C.snake p.1) ++ coderNames o).Nodup
    | _ => true

theorem wellNamed_sound {o : NameOpts} {C : Cases} {sch : Schema} (h : wellNamed o C sch = true) : WellNamed o C sch := by
  simp only [wellNamed, List.all_eq_true, Bool.and_eq_true, decide_eq_true_eq, Bool.or_eq_true, Bool.not_eq_true'] at h
  refine ⟨fun d hd => (h d hd).1.1.1.1.1.1.1, fun d hd => (h d hd).1.1.1.1.1.1.2, ?_, fun d hd => (h d hd).1.1.1.1.2, ?_,
    fun d hd => distinctFields_sound (h d hd).1.1.2, fun d hd => (h d hd).1.2, ?_⟩
  · intro d hd ht
    rcases (h d hd).1.1.1.1.1.2 with h' | ⟨h1, h2⟩
    · rw [ht] at h'; cases h'
    · exact ⟨h1, ((clean_iff _).1 h2).1⟩
  · intro d hd e he ht
    rcases (h d hd).1.1.1.2 e he with h' | h'
    · rw [ht] at h'; cases h'
    · exact h'
  · intro d hd n b hb
    have := (h d hd).2
    rw [hb] at this
    simpa only [Bool.and_eq_true, List.all_eq_true, decide_eq_true_eq] using this

/-- For names of lower-case letters, digits and `_`. -/
def plainCases : Cases := ⟨id, fun s => String.ofList (s.toList.map Char.toUpper)⟩

/-- Does Rust accept the names in the code generated from a text? -/
def namesOf (o : NameOpts) (modules : List (String × Text)) (src : String) : Option Bool :=
  (specOf modules src).map fun sch => namesKept (rustModule o (ownSig []) plainCases preludeSnippets sch)

/-- The usual options. -/
def namedOpts : NameOpts := ⟨true, true⟩

def namedSource : String :=
  "import_ffi gzip as transform;import_ffi utf8 as type;type flags=bitfield u8{ready=1u8,done=2u8};type kind=enum u8{text=1u8};" ++
  "type body(k:kind)=container +tagged_enum{text:container{n:u16,s:utf8[n]}{k==kind::text},rest:u8[..]};" ++
  "type packet=container{k:kind,f:flags,v:u16[3u8],d:body(k)->gzip{f.done}};"

def namedChecks (sch : Schema) : Bool :=
  wellNamed namedOpts plainCases sch && namesKept (rustModule namedOpts (ownSig []) plainCases preludeSnippets sch) &&
    decide (sch.length = 4)

theorem named_ok : (specOf [] namedSource).map namedChecks = some true := by decide +kernel

theorem named_noPad : noPadText (ascii namedSource) = true := by decide +kernel

/-- A specification that meets the requirements. -/
theorem named_meets : ∃ sch, specOf [] namedSource = some sch ∧ SourceNames sch ∧ WellNamed namedOpts plainCases sch ∧
    AllDeclared namedOpts (ownSig []) plainCases sch ∧ sch.length = 4 := by
  have h := named_ok
  obtain ⟨sch, hs, hc⟩ := Option.map_eq_some_iff.1 h
  simp only [namedChecks, Bool.and_eq_true, decide_eq_true_eq] at hc
  obtain ⟨⟨h1, h2⟩, h3⟩ := hc
  refine ⟨sch, hs, accepted_names _ _ _ hs named_noPad (by simp), wellNamed_sound h1, ?_, h3⟩
  intro n hn
  obtain ⟨d, hd, he, -⟩ := mem_declared.1 (((namesKept_iff _).1 h2).found n hn)
  exact ⟨d, hd, he⟩

/-- And the code generated from it. -/
example : ∃ sch, specOf [] namedSource = some sch ∧ NamesKept (rustModule namedOpts (ownSig []) plainCases preludeSnippets sch) := by
  obtain ⟨sch, h1, h2, h3, h4, -⟩ := named_meets
  exact ⟨sch, h1, names_kept_partial _ _ _ _ h2 h3 h4⟩

/-- A schema with a type called `Result`, which the header declares too. -/
example : (specOf [] "type Result = container { a: u8 };").map (fun sch => sch.any fun d =>
    decide ((NameSpace.type, d.name) ∈ headerItems namedOpts)) = some true := by decide +kernel

/-- Finding: words of Rust's are fine as names of types, parameters and fields; the emitted identifiers are none. -/
theorem rust_word_finding :
    ["type a = container { match: u8 };", "type a = container { self: u8 };", "type move = u8;",
      "type a(ref: u8) = u8[ref];", "type e = enum u8 { loop = 1u8 };"].map (namesOf namedOpts []) = List.replicate 5 (some false) := by
  decide +kernel

/-- Finding: a type `value` becomes a tuple struct, and the header's `fn encode_error<S: AsRef<str>>(value: S)` no longer compiles;
as a container or enum it is fine. -/
theorem value_type_finding :
    ["type value = u8;", "type value = container { a: u8 };", "type value = enum u8 { a = 1u8 };",
      "type value = bitfield u8 { a = 1u8 };"].map (namesOf namedOpts []) = [some false, some true, some true, some false] := by
  decide +kernel

/-- Finding: types called like the generator's imports, or like a generic of its functions. A type called `Option` or `Vec` only
does harm if there is a condition or an array. -/
theorem taken_type_finding :
    ["type Result = container { a: u8 };", "type mem = u8;", "type R = container { a: u8 };", "type Write = u8;",
      "type Option = container { a: u8 };", "type Option = u8; type a = container { n: u8, x: u8 { n > 0u8 } };",
      "type Vec = u8; type a = container { x: u16[2u8] };"].map (namesOf namedOpts []) =
    [some false, some false, some false, some true, some true, some false, some false] := by
  decide +kernel

/-- Finding: a parameter with the name of a type that becomes a tuple struct; two parameters with one name; a type `x` beside an enum. -/
theorem shadowing_finding :
    ["type n = u8; type a(n: u8) = u8[n];", "type a(n: u8, n: u8) = u8[n];", "type x = u8; type e = enum u8 { a = 1u8 };",
      "type n = container { k: u8 }; type a(n: u8) = u8[n];"].map (namesOf namedOpts []) =
    [some false, some false, some false, some true] := by
  decide +kernel

/-- Finding: containers in one container become one struct, so their fields must differ; flags become constants and pairs of
functions, which must differ from one another and from those that every bitfield has; no variant may be called `from_repr`. -/
theorem one_list_finding :
    ["type a = container { h: container { x: u8 }, t: container { x: u8 } };", "type b = bitfield u8 { all = 1u8 };",
      "type b = bitfield u8 { ready = 1u8, set_ready = 2u8 };", "type e = enum u8 { from_repr = 1u8 };"].map (namesOf namedOpts []) =
    List.replicate 4 (some false) := by
  decide +kernel

/-- Finding: an import takes what it names and nothing else: the types that an imported type is made of are not in the
generated module unless they are imported too. -/
theorem import_finding :
    ["import outer from \"m\"; type t = container { a: outer };",
      "import outer, inner from \"m\"; type t = container { a: outer };"].map
        (namesOf namedOpts [("m", ascii "type inner = u8; type outer = container { a: inner };")]) = [some false, some true] := by
  decide +kernel

end Verif.Props
