import Verif.TokenLemmas
/-!
# One step of the tokenizer
-/
namespace Verif.Props

variable {SB : Text → Text → Prop}

theorem eat_some {inp w rest : Text} : eat inp w = some rest ↔ inp = w ++ rest := by
  unfold eat
  constructor
  · intro h
    split at h
    · cases h
    · split at h
      · rename_i h1
        simp only [Option.some.injEq] at h
        rw [← h]
        conv => lhs; rw [← List.take_append_drop w.length inp, h1]
      · cases h
  · rintro rfl
    simp

theorem eat_none {inp w : Text} (h : eat inp w = none) : ∀ rest, inp ≠ w ++ rest := by
  intro rest he
  rw [eat_some.mpr he] at h
  cases h

theorem firstOf_some {inp rest : Text} {tok : Token} : ∀ {l : List (String × Token)},
    l.Pairwise (fun a b => (ascii a.1).isPrefixOf (ascii b.1) = false) → firstOf inp l = some (rest, tok) →
    ∃ w, (w, tok) ∈ l ∧ inp = ascii w ++ rest ∧
      ∀ p ∈ l, ∀ r, inp = ascii p.1 ++ r → (ascii p.1).length ≤ (ascii w).length := by
  intro l
  induction l with
  | nil => intro _ h; cases h
  | cons p l ih =>
    intro hp h
    obtain ⟨a, t⟩ := p
    rw [List.pairwise_cons] at hp
    unfold firstOf at h
    cases he : eat inp (ascii a) with
    | some r =>
      rw [he] at h
      simp only [Option.some.injEq, Prod.mk.injEq] at h
      obtain ⟨rfl, rfl⟩ := h
      have h1 := eat_some.mp he
      refine ⟨a, by simp, h1, ?_⟩
      intro q hq r' h2
      rcases List.mem_cons.mp hq with rfl | hq
      · exact Nat.le_refl _
      · have := hp.1 q hq
        rcases Nat.lt_or_ge (ascii a).length (ascii q.1).length with hl | hl
        · exfalso
          have : ascii a <+: ascii q.1 := by
            apply List.prefix_of_prefix_length_le (l₃ := inp) ⟨r, h1.symm⟩ ⟨r', h2.symm⟩ (Nat.le_of_lt hl)
          rw [← List.isPrefixOf_iff_prefix] at this
          simp_all
        · exact hl
    | none =>
      rw [he] at h
      obtain ⟨w, h1, h2, h3⟩ := ih hp.2 h
      refine ⟨w, by simp [h1], h2, ?_⟩
      intro q hq r' h4
      rcases List.mem_cons.mp hq with rfl | hq
      · exact absurd h4 (eat_none he r')
      · exact h3 q hq r' h4

theorem firstOf_none {inp : Text} : ∀ {l : List (String × Token)}, firstOf inp l = none →
    ∀ p ∈ l, ∀ r, inp ≠ ascii p.1 ++ r := by
  intro l
  induction l with
  | nil => intro _ p hp; simp at hp
  | cons q l ih =>
    intro h p hp r
    obtain ⟨a, t⟩ := q
    unfold firstOf at h
    cases he : eat inp (ascii a) with
    | some r' => rw [he] at h; cases h
    | none =>
      rw [he] at h
      rcases List.mem_cons.mp hp with rfl | hp
      · exact eat_none he r
      · exact ih h p hp r

/-- A longest operator in front is the one taken. -/
theorem firstOf_of {inp rest : Text} {w : String} {tok : Token} (hm : (w, tok) ∈ operators) (hi : inp = ascii w ++ rest)
    (hl : ∀ p ∈ operators, ∀ r, inp = ascii p.1 ++ r → (ascii p.1).length ≤ (ascii w).length) :
    firstOf inp operators = some (rest, tok) := by
  cases hf : firstOf inp operators with
  | none => exact absurd hi (firstOf_none hf _ hm _)
  | some p =>
    obtain ⟨r, t⟩ := p
    obtain ⟨w', h1, h2, h3⟩ := firstOf_some operators_order hf
    have ha := hl _ h1 _ h2
    have hb := h3 _ hm _ hi
    have he := append_len (hi.symm.trans h2) (Nat.le_antisymm hb ha)
    have hw : ∀ p ∈ operators, ∀ q ∈ operators, ascii p.1 = ascii q.1 → p.2 = q.2 := by decide +kernel
    have := hw _ hm _ h1 he.1
    simp only at this
    rw [he.2, this]

theorem lexInt_text (c : UInt8) (cs : Text) : (lexInt c cs).1 ++ (lexInt c cs).2 = c :: cs := by
  unfold lexInt
  cases cs with
  | nil => rfl
  | cons x ds =>
    simp only
    split
    · simp
    · simp only [List.cons_append, List.takeWhile_append_dropWhile]

theorem lexInt_first (c : UInt8) (cs : Text) : ∃ t, (lexInt c cs).1 = c :: t := by
  unfold lexInt
  cases cs with
  | nil => exact ⟨_, rfl⟩
  | cons x ds => simp only; split <;> exact ⟨_, rfl⟩

theorem lexInt_lexeme {c : UInt8} (hc : isDigit c = true) (cs : Text) :
    Lexeme SB (.int (ofAscii (lexInt c cs).1)) (lexInt c cs).1 := by
  unfold lexInt
  cases cs with
  | nil => exact .dec (by simp) (by simpa using hc)
  | cons x ds =>
    simp only
    split
    · rename_i h
      rw [h.1, h.2]
      exact .hex (takeWhile_all ds)
    · refine .dec (by simp) ?_
      intro y hy
      rcases List.mem_cons.mp hy with rfl | hy
      · exact hc
      · exact takeWhile_all _ y hy

theorem x_not_digit : isDigit (byte 'x') = false := by decide

theorem lexInt_longest {c : UInt8} (hc : isDigit c = true) (cs : Text) : Longest SB (lexInt c cs).1 (c :: cs) := by
  intro tok text' rest hlex he
  have hcls := hlex.cls
  obtain ⟨c', cs', rfl, _⟩ := hcls.nonempty
  simp only [List.cons_append, List.cons.injEq] at he
  obtain ⟨rfl, rfl⟩ := he
  have := (hcls.int_inv hc).2
  unfold lexInt
  cases cs' with
  | nil =>
    simp only [List.nil_append]
    cases rest with
    | nil => simp
    | cons x ds => simp only; split <;> simp
  | cons x ds =>
    simp only [List.cons_append]
    rcases this with h1 | ⟨ds', h1, h2, h3⟩
    · have hx := h1 x (by simp)
      split
      · rename_i h; rw [h.2, x_not_digit] at hx; cases hx
      · have := takeWhile_max (inp := x :: (ds ++ rest)) (a := x :: ds) (r := rest) (by simp) h1
        simpa using this
    · simp only [List.cons.injEq] at h2
      obtain ⟨rfl, rfl⟩ := h2
      rw [if_pos ⟨h1, rfl⟩]
      have := takeWhile_max (inp := ds ++ rest) rfl h3
      simpa using this

theorem ne_nl (x : UInt8) : (x != byte '\n') = true ↔ x ≠ byte '\n' := by simp

theorem lexLine_cases (cs : Text) : byte '\n' ∉ (lexLine cs).1 ∧
    (cs = (lexLine cs).1 ++ byte '\n' :: (lexLine cs).2 ∨ (cs = (lexLine cs).1 ∧ (lexLine cs).2 = [])) := by
  unfold lexLine
  simp only
  refine ⟨?_, ?_⟩
  · intro h; simpa using takeWhile_all _ _ h
  · cases h : cs.dropWhile (· != byte '\n') with
    | nil =>
      right
      have := List.takeWhile_append_dropWhile (p := (· != byte '\n')) (l := cs)
      rw [h, List.append_nil] at this
      exact ⟨this.symm, rfl⟩
    | cons a r =>
      left
      have h1 := List.takeWhile_append_dropWhile (p := (· != byte '\n')) (l := cs)
      have h2 : a = byte '\n' := by
        have := List.head?_dropWhile_not (p := (· != byte '\n')) (l := cs)
        rw [h] at this
        simpa using this
      rw [h, h2] at h1
      simpa using h1.symm

theorem ClosesBlock.cons {a : UInt8} {t : Text} (h : ClosesBlock t) : ClosesBlock (a :: t) := by
  obtain ⟨x, y, h⟩ := h
  exact ⟨a :: x, y, by simp [h]⟩

theorem closes_cons {a : UInt8} {t : Text} (h : ClosesBlock (a :: t)) :
    (a = byte '*' ∧ ∃ r, t = byte '/' :: r) ∨ ClosesBlock t := by
  obtain ⟨x, y, h⟩ := h
  cases x with
  | nil => simp at h; exact .inl ⟨h.1, y, h.2⟩
  | cons b x => simp at h; exact .inr ⟨x, y, h.2⟩

theorem lexBlock_cases : ∀ (cs : Text), ¬ ClosesBlock (lexBlock cs).1 ∧
    (cs = (lexBlock cs).1 ++ byte '*' :: byte '/' :: (lexBlock cs).2 ∨
      (cs = (lexBlock cs).1 ∧ (lexBlock cs).2 = [])) := by
  intro cs
  induction cs using lexBlock.induct with
  | case1 => refine ⟨?_, .inr ⟨rfl, rfl⟩⟩; rintro ⟨x, y, h⟩; simp [lexBlock] at h
  | case2 a => refine ⟨?_, .inr ⟨rfl, rfl⟩⟩; rintro ⟨x, y, h⟩; cases x <;> simp [lexBlock] at h
  | case3 a b cs h =>
    obtain ⟨rfl, rfl⟩ := h
    refine ⟨?_, .inl ?_⟩
    · rintro ⟨x, y, h⟩; simp [lexBlock] at h
    · simp [lexBlock]
  | case4 a b cs h t r heq ih =>
    have he : lexBlock (a :: b :: cs) = (a :: (lexBlock (b :: cs)).1, (lexBlock (b :: cs)).2) := by
      rw [lexBlock, if_neg h]
    rw [he]
    refine ⟨?_, ?_⟩
    · intro hc
      rcases closes_cons hc with ⟨h1, r, h2⟩ | h1
      · rcases ih.2 with h3 | ⟨h3, _⟩ <;> simp only [h2, List.cons_append] at h3 <;>
          simp only [List.cons.injEq] at h3 <;> exact h ⟨h1, h3.1⟩
      · exact ih.1 h1
    · rcases ih.2 with h3 | ⟨h3, h4⟩
      · left; simp only [List.cons_append]; rw [← h3]
      · right; simp only; rw [← h3]; exact ⟨rfl, h4⟩

theorem closed_prefix {t r u s : Text} (h : t ++ byte '*' :: byte '/' :: r = u ++ s) (hu : ¬ ClosesBlock u) :
    u.length ≤ t.length + 1 := by
  rcases Nat.lt_or_ge (t.length + 1) u.length with hl | hl
  · exfalso
    apply hu
    have h1 : t ++ [byte '*', byte '/'] <+: u := by
      apply List.prefix_of_prefix_length_le (l₃ := u ++ s) ⟨r, by simp [← h]⟩ ⟨s, rfl⟩
      simp; omega
    obtain ⟨b, hb⟩ := h1
    exact ⟨t, b, by simp [← hb]⟩
  · exact hl

theorem closed_prefix2 {t r u s : Text} (h : t ++ byte '*' :: byte '/' :: r = u ++ byte '*' :: byte '/' :: s)
    (hu : ¬ ClosesBlock u) : u.length ≤ t.length := by
  have h1 := closed_prefix h hu
  rcases Nat.lt_or_ge t.length u.length with hl | hl
  · exfalso
    have hlen : u.length = (t ++ [byte '*']).length := by simp; omega
    have := append_len (a := t ++ [byte '*']) (b := u) (by simpa using h) hlen.symm
    have h2 := this.2
    simp only [List.cons.injEq] at h2
    exact absurd h2.1 (by decide)
  · exact hl

/-- Line comments: longest. -/
theorem line_longest {t rest : Text} (_ht : byte '\n' ∉ t) :
    Longest SB (byte '/' :: byte '/' :: (t ++ [byte '\n'])) (byte '/' :: byte '/' :: (t ++ byte '\n' :: rest)) := by
  intro tok text' r hlex he
  have hcls := hlex.cls
  obtain ⟨c', cs', rfl, _⟩ := hcls.nonempty
  simp only [List.cons_append, List.cons.injEq] at he
  obtain ⟨rfl, he⟩ := he
  rcases hcls.slash_inv with ⟨_, rfl⟩ | ⟨u, hu, _, rfl | rfl⟩ | ⟨u, hu, _, ⟨_, rfl⟩ | rfl⟩
  · simp
  · simp only [List.cons_append, List.cons.injEq, true_and] at he
    have : u <+: t := by
      rcases List.prefix_or_prefix_of_prefix (l₃ := t ++ byte '\n' :: rest) ⟨r, he.symm⟩ ⟨_, rfl⟩ with h | h
      · exact h
      · obtain ⟨y, hy⟩ := h
        subst hy
        cases y with
        | nil => simp
        | cons z y =>
          simp only [List.append_assoc, List.append_cancel_left_eq, List.cons_append, List.cons.injEq] at he
          exact absurd (by simp [he.1]) hu
    have := this.length_le
    simp; omega
  · simp only [List.cons_append, List.cons.injEq, true_and, List.append_assoc, List.nil_append] at he
    have h1 : u.length ≤ t.length := by
      rcases Nat.lt_or_ge t.length u.length with hl | hl
      · exfalso
        have : t ++ [byte '\n'] <+: u := by
          apply List.prefix_of_prefix_length_le (l₃ := t ++ byte '\n' :: rest) ⟨rest, by simp⟩
            ⟨byte '\n' :: r, by rw [he]⟩
          simp; omega
        exact hu (this.subset (by simp))
      · exact hl
    simp; omega
  · simp only [List.cons_append, List.cons.injEq] at he
    exact absurd he.1 (by decide)
  · simp only [List.cons_append, List.cons.injEq] at he
    exact absurd he.1 (by decide)

theorem all_longest (t : Text) : Longest SB t t := by
  intro tok text' r hlex he
  rw [he]; simp

theorem block_longest {t rest : Text} :
    Longest SB (byte '/' :: byte '*' :: (t ++ [byte '*', byte '/']))
      (byte '/' :: byte '*' :: (t ++ byte '*' :: byte '/' :: rest)) := by
  intro tok text' r hlex he
  have hcls := hlex.cls
  obtain ⟨c', cs', rfl, _⟩ := hcls.nonempty
  simp only [List.cons_append, List.cons.injEq] at he
  obtain ⟨rfl, he⟩ := he
  rcases hcls.slash_inv with ⟨_, rfl⟩ | ⟨u, hu, _, rfl | rfl⟩ | ⟨u, hu, _, ⟨_, rfl⟩ | rfl⟩
  · simp
  · simp only [List.cons_append, List.cons.injEq] at he
    exact absurd he.1 (by decide)
  · simp only [List.cons_append, List.cons.injEq] at he
    exact absurd he.1 (by decide)
  · simp only [List.cons_append, List.cons.injEq, true_and] at he
    have := closed_prefix he hu
    simp; omega
  · simp only [List.cons_append, List.cons.injEq, true_and, List.append_assoc, List.nil_append] at he
    have := closed_prefix2 he hu
    simp; omega

theorem div_longest {cs : Text} (h : ∀ x r, cs = x :: r → x ≠ byte '/' ∧ x ≠ byte '*') :
    Longest SB [byte '/'] (byte '/' :: cs) := by
  intro tok text' r hlex he
  have hcls := hlex.cls
  obtain ⟨c', cs', rfl, _⟩ := hcls.nonempty
  simp only [List.cons_append, List.cons.injEq] at he
  obtain ⟨rfl, he⟩ := he
  rcases hcls.slash_inv with ⟨_, rfl⟩ | ⟨u, hu, _, rfl | rfl⟩ | ⟨u, hu, _, ⟨_, rfl⟩ | rfl⟩
  · simp
  · exact absurd rfl (h _ _ he).1
  · exact absurd rfl (h _ _ he).1
  · exact absurd rfl (h _ _ he).2
  · exact absurd rfl (h _ _ he).2

theorem div_lexeme : Lexeme SB .div [byte '/'] :=
  Lexeme.fixed (tok := .div) (w := "/") rfl

/-- The slash cases. -/
theorem gobbleSlash_some {cs rest : Text} {tok : Token} (h : gobbleSlash cs = (rest, some tok)) :
    ∃ text, Lexeme SB tok text ∧ byte '/' :: cs = text ++ rest ∧ Longest SB text (byte '/' :: cs) := by
  unfold gobbleSlash at h
  cases cs with
  | nil =>
    simp only [Prod.mk.injEq, Option.some.injEq] at h
    obtain ⟨rfl, rfl⟩ := h
    exact ⟨_, div_lexeme, rfl, div_longest (by intro x r h; cases h)⟩
  | cons x cs =>
    simp only at h
    split at h
    · rename_i hx
      subst hx
      simp only [Prod.mk.injEq, Option.some.injEq] at h
      obtain ⟨rfl, rfl⟩ := h
      obtain ⟨h1, h2 | ⟨h2, h3⟩⟩ := lexLine_cases cs
      · refine ⟨_, .line h1, ?_, ?_⟩
        · conv => lhs; rw [h2]
          simp
        · have := line_longest (SB := SB) (rest := (lexLine cs).2) h1
          rw [← h2] at this
          exact this
      · refine ⟨_, .lineEnd h1, ?_, ?_⟩
        · rw [h3, ← h2, List.append_nil]
        · rw [← h2]; exact all_longest _
    · rename_i hx
      split at h
      · rename_i hx2
        subst hx2
        split at h
        · cases h
        · rename_i hne
          simp only [Prod.mk.injEq, Option.some.injEq] at h
          obtain ⟨rfl, rfl⟩ := h
          obtain ⟨h1, h2 | ⟨h2, h3⟩⟩ := lexBlock_cases cs
          · refine ⟨_, .block h1, ?_, ?_⟩
            · conv => lhs; rw [h2]
              simp
            · have := block_longest (SB := SB) (t := (lexBlock cs).1) (rest := (lexBlock cs).2)
              rw [← h2] at this
              exact this
          · refine ⟨_, .blockEnd (by rw [← h2]; exact hne) h1, ?_, ?_⟩
            · rw [h3, ← h2, List.append_nil]
            · rw [← h2]; exact all_longest _
      · rename_i hx2
        simp only [Prod.mk.injEq, Option.some.injEq] at h
        obtain ⟨rfl, rfl⟩ := h
        refine ⟨_, div_lexeme, rfl, div_longest ?_⟩
        intro y r he
        simp only [List.cons.injEq] at he
        rw [← he.1]
        exact ⟨hx, hx2⟩

theorem gobbleSlash_none {cs rest : Text} (h : gobbleSlash cs = (rest, none)) : cs = [byte '*'] ∧ rest = [] := by
  unfold gobbleSlash at h
  cases cs with
  | nil => simp at h
  | cons x cs =>
    simp only at h
    split at h
    · simp at h
    · split at h
      · rename_i hx
        split at h
        · rename_i hn; simp only [Prod.mk.injEq, and_true] at h; rw [hx, hn, h]; exact ⟨rfl, rfl⟩
        · simp at h
      · simp at h

theorem op_longest {c : UInt8} {inp : Text} {n : Nat} (hc : opStart c = true) (hi : ∃ cs, inp = c :: cs)
    {w : Text} (hw : w.length = n)
    (hl : ∀ p ∈ operators, ∀ r, inp = ascii p.1 ++ r → (ascii p.1).length ≤ n) : Longest SB w inp := by
  intro tok text' r hlex he
  have hcls := hlex.cls
  obtain ⟨c', cs', rfl, _⟩ := hcls.nonempty
  obtain ⟨cs, rfl⟩ := hi
  have he' := he
  simp only [List.cons_append, List.cons.injEq] at he
  obtain ⟨rfl, he⟩ := he
  obtain ⟨w', h1, h2⟩ := hcls.op_inv hc
  have := hl _ h1 r (by simp only; rw [h2]; exact he')
  simp only [h2] at this
  omega

theorem word_longest {c : UInt8} {cs : Text} (hc : isIdentStart c = true) :
    Longest SB (c :: cs.takeWhile isIdentPart) (c :: cs) := by
  intro tok text' r hlex he
  have hcls := hlex.cls
  obtain ⟨c', cs', rfl, _⟩ := hcls.nonempty
  simp only [List.cons_append, List.cons.injEq] at he
  obtain ⟨rfl, he⟩ := he
  have := takeWhile_max he (hcls.word_inv hc).1
  simpa using this

/-- No lexeme starts with any other byte. -/
theorem no_lexeme {c : UInt8} {cs : Text} (h2 : c ≠ byte '"') (h3 : isDigit c = false)
    (h4 : c ≠ byte '/') (h5 : isIdentStart c = false) (h6 : ∀ p ∈ operators, ∀ r, c :: cs ≠ ascii p.1 ++ r) :
    ∀ tok text r, Lexeme SB tok text → c :: cs ≠ text ++ r := by
  intro tok text r hlex he
  have hcls := hlex.cls
  cases hcls with
  | str => simp at he; exact h2 he.1
  | int h => simp at he; rw [← he.1, h3] at h; cases h
  | div => simp at he; exact h4 he.1
  | line => simp at he; exact h4 he.1
  | lineEnd => simp at he; exact h4 he.1
  | block => simp at he; exact h4 he.1
  | blockEnd => simp at he; exact h4 he.1
  | op hm hw _ => exact h6 _ hm r (by simp only; rw [hw]; exact he)
  | word h => simp at he; rw [← he.1, h5] at h; cases h

/-- What is known of how strings are read (`SB` says which strings). -/
structure StrOk (SB : Text → Text → Prop) (inp : Text) : Prop where
  found : ∀ cs rest v, inp = byte '"' :: cs → strLoop cs = .ok (some (rest, v)) →
    ∃ t, cs = t ++ byte '"' :: rest ∧ SB t v
  absent : ∀ cs, inp = byte '"' :: cs → strLoop cs = .ok none → ∀ t v r, SB t v → cs ≠ t ++ byte '"' :: r
  unique : ∀ t v t' v' r r', SB t v → SB t' v' → t ++ byte '"' :: r = t' ++ byte '"' :: r' → t = t'

theorem StrOk.extent (inp : Text) : StrOk StrExtent inp := by
  refine ⟨?_, ?_, ?_⟩
  · intro cs rest v _ h
    have := strLoop_extent _ _ h
    simp only [Option.map_some] at this
    cases hs : strScan cs with
    | none => rw [hs] at this; cases this
    | some p =>
      obtain ⟨r', v'⟩ := p
      rw [hs] at this
      simp only [Option.map_some, Option.some.injEq] at this
      subst this
      obtain ⟨t, h1, h2⟩ := strScan_sound _ _ _ hs
      exact ⟨t, h1, v', h2⟩
  · intro cs _ h t v r hsb he
    obtain ⟨v', hsb⟩ := hsb
    have := strLoop_extent _ _ h
    rw [he, strScan_complete hsb] at this
    cases this
  · intro t v t' v' r r' ⟨_, h1⟩ ⟨_, h2⟩ he
    exact (StrBody_unique h1 h2 he).1

theorem StrOk.body {inp : Text} (hn : NoHexEscape inp) : StrOk StrBody inp := by
  refine ⟨?_, ?_, ?_⟩
  · intro cs rest v hi h
    subst hi
    rw [strLoop_exact _ hn.tail] at h
    simp only [Except.ok.injEq] at h
    exact strScan_sound _ _ _ h
  · intro cs hi h t v r hsb he
    subst hi
    rw [strLoop_exact _ hn.tail] at h
    simp only [Except.ok.injEq] at h
    rw [he, strScan_complete hsb] at h
    cases h
  · intro t v t' v' r r' h1 h2 he
    exact (StrBody_unique h1 h2 he).1

theorem gobble_some {inp rest : Text} {tok : Token} (hs : StrOk SB inp) (h : gobble inp = .ok (rest, some tok)) :
    ∃ text, Lexeme SB tok text ∧ inp = text ++ rest ∧ Longest SB text inp := by
  unfold gobble at h
  cases inp with
  | nil => simp at h
  | cons c cs =>
    simp only at h
    split at h
    · simp at h
    · split at h
      · rename_i hq
        subst hq
        obtain ⟨r, h1, h2⟩ := tbind h
        cases r with
        | none => simp at h2
        | some p =>
          obtain ⟨r, v⟩ := p
          simp only [Except.ok.injEq, Prod.mk.injEq, Option.some.injEq] at h2
          obtain ⟨rfl, rfl⟩ := h2
          obtain ⟨t, h3, h4⟩ := hs.found cs r v rfl h1
          refine ⟨_, .string h4, by simp [h3], ?_⟩
          intro tok' text' r' hlex he
          have hcls := hlex.cls
          obtain ⟨c', cs', rfl, _⟩ := hcls.nonempty
          simp only [List.cons_append, List.cons.injEq] at he
          obtain ⟨rfl, he⟩ := he
          obtain ⟨t', v', h5, _, rfl⟩ := hcls.str_inv
          have := hs.unique _ _ _ _ r r' h4 h5 (by rw [← h3, he]; simp)
          rw [this]; exact Nat.le_refl _
      · split at h
        · rename_i hd
          simp only [Except.ok.injEq, Prod.mk.injEq, Option.some.injEq] at h
          obtain ⟨rfl, rfl⟩ := h
          exact ⟨_, lexInt_lexeme hd cs, (lexInt_text c cs).symm, lexInt_longest hd cs⟩
        · split at h
          · rename_i hsl
            subst hsl
            simp only [Except.ok.injEq] at h
            exact gobbleSlash_some h
          · cases hf : firstOf (c :: cs) operators with
            | some p =>
              obtain ⟨r, t⟩ := p
              rw [hf] at h
              simp only [Except.ok.injEq, Prod.mk.injEq, Option.some.injEq] at h
              obtain ⟨rfl, rfl⟩ := h
              obtain ⟨w, h1, h2, h3⟩ := firstOf_some operators_order hf
              obtain ⟨c', cs', h4, h5, _⟩ := operators_start _ h1
              refine ⟨ascii w, .fixed (tables_fixed _ (List.mem_append_right _ h1)), h2, ?_⟩
              have hc : c = c' := by
                rw [show ascii w = c' :: cs' from h4] at h2
                simp only [List.cons_append, List.cons.injEq] at h2
                exact h2.1
              rw [← hc] at h5
              exact op_longest h5 ⟨_, rfl⟩ rfl h3
            | none =>
              rw [hf] at h
              unfold eatIdentifier at h
              simp only at h
              cases hi : isIdentStart c with
              | false => rw [hi] at h; simp at h
              | true =>
                rw [hi] at h
                simp only [if_true, Except.ok.injEq, Prod.mk.injEq, Option.some.injEq] at h
                obtain ⟨rfl, rfl⟩ := h
                refine ⟨_, identToken_lexeme ⟨_, _, rfl, hi, takeWhile_all _⟩, ?_, word_longest hi⟩
                simp only [List.cons_append, List.takeWhile_append_dropWhile]

theorem gobble_none {inp out : Text} (hs : StrOk SB inp) (h : gobble inp = .ok (out, none)) :
    (inp = [] ∧ out = []) ∨ (∃ c, isSpace c = true ∧ inp = c :: out) ∨ (inp = ascii "/*" ∧ out = []) ∨
    (out = inp ∧ (∃ c cs, inp = c :: cs ∧ isSpace c = false) ∧
      ∀ tok text rest, Lexeme SB tok text → inp ≠ text ++ rest) := by
  unfold gobble at h
  cases inp with
  | nil => simp at h; exact .inl ⟨rfl, h⟩
  | cons c cs =>
    simp only at h
    split at h
    · rename_i hsp
      simp only [Except.ok.injEq, Prod.mk.injEq, and_true] at h
      exact .inr (.inl ⟨c, hsp, by rw [h]⟩)
    · rename_i hsp
      have hsp : isSpace c = false := by simpa using hsp
      right; right
      split at h
      · rename_i hq
        subst hq
        obtain ⟨r, h1, h2⟩ := tbind h
        cases r with
        | none =>
          simp only [Except.ok.injEq, Prod.mk.injEq, and_true] at h2
          refine .inr ⟨h2.symm, ⟨_, _, rfl, hsp⟩, ?_⟩
          intro tok text rest hlex he
          have hcls := hlex.cls
          obtain ⟨c', cs', rfl, _⟩ := hcls.nonempty
          simp only [List.cons_append, List.cons.injEq] at he
          obtain ⟨rfl, he⟩ := he
          obtain ⟨t', v', h5, _, rfl⟩ := hcls.str_inv
          exact hs.absent cs rfl h1 _ _ rest h5 (by rw [he]; simp)
        | some p => simp at h2
      · rename_i hq
        split at h
        · simp at h
        · rename_i hd
          split at h
          · rename_i hsl
            subst hsl
            simp only [Except.ok.injEq] at h
            obtain ⟨rfl, rfl⟩ := gobbleSlash_none h
            exact .inl ⟨by decide +kernel, rfl⟩
          · rename_i hsl
            right
            cases hf : firstOf (c :: cs) operators with
            | some p => rw [hf] at h; simp at h
            | none =>
              rw [hf] at h
              unfold eatIdentifier at h
              simp only at h
              cases hi : isIdentStart c with
              | true => rw [hi] at h; simp at h
              | false =>
                rw [hi] at h
                simp only [Bool.false_eq_true, if_false, Except.ok.injEq, Prod.mk.injEq, and_true] at h
                exact ⟨h.symm, ⟨_, _, rfl, hsp⟩, no_lexeme hq (by simpa using hd) hsl hi (firstOf_none hf)⟩

/-- The only way for one step to fail is the panic of a two-digit escape. -/
theorem gobble_error {inp : Text} {e : TokErr} (h : gobble inp = .error e) :
    ∃ cs, inp = byte '"' :: cs ∧ strLoop cs = .error e := by
  unfold gobble at h
  cases inp with
  | nil => simp at h
  | cons c cs =>
    simp only at h
    split at h
    · simp at h
    · split at h
      · rename_i hq
        subst hq
        refine ⟨cs, rfl, ?_⟩
        cases hl : strLoop cs with
        | error e' => rw [hl] at h; simpa [bind, Except.bind] using h
        | ok o =>
          rw [hl] at h
          cases o with
          | none => simp [bind, Except.bind] at h
          | some p => simp [bind, Except.bind] at h
      · split at h
        · simp at h
        · split at h
          · simp at h
          · cases hf : firstOf (c :: cs) operators with
            | some p => rw [hf] at h; simp at h
            | none =>
              rw [hf] at h
              unfold eatIdentifier at h
              simp only at h
              cases hi : isIdentStart c with
              | true => rw [hi] at h; simp at h
              | false => rw [hi] at h; simp at h

theorem strLoop_error : ∀ {cs : Text} {e : TokErr}, strLoop cs = .error e → e = .panic := by
  intro cs
  have hb : ∀ {x : TRes (Option (Text × Text))} {f : Option (Text × Text) → Option (Text × Text)} {e : TokErr},
      (x >>= fun r => .ok (f r)) = .error e → x = .error e := by
    intro x f e h
    cases x with
    | error e' => exact h
    | ok a => cases h
  induction cs using strLoop.induct with
  | case1 => intro e h; cases h
  | case2 => intro e h; simp [strLoop] at h
  | case3 d hd => intro e h; simp [strLoop, hd] at h
  | case4 d hd e he => intro e' h; simp [strLoop, hd, he] at h; exact h.symm
  | case5 d hd e he f fs hf ih => intro e' h; rw [strLoop_hex2 _ hd he hf] at h; exact ih (hb h)
  | case6 d hd e he f fs hf =>
    intro e' h; rw [strLoop_panic _ hd he (by simpa using hf)] at h; cases h; rfl
  | case7 d hd e es he ih => intro e' h; rw [strLoop_hex1 _ hd (by simpa using he)] at h; exact ih (hb h)
  | case8 d ds hd ih => intro e' h; rw [strLoop_esc _ (by simpa using hd)] at h; exact ih (hb h)
  | case9 cs h0 => intro e' h; rw [strLoop_quote] at h; cases h
  | case10 c cs h1 h2 ih => intro e' h; rw [strLoop_plain _ h1 h2] at h; exact ih (hb h)

/-- A text spells at most one token other than a string. -/
theorem Class.tok_unique {tok tok' : Token} {c : UInt8} {cs : Text} (h : Class SB tok (c :: cs))
    (h' : Class SB tok' (c :: cs)) (hq : c ≠ byte '"') : tok = tok' := by
  · by_cases hs : c = byte '/'
    · subst hs
      rcases h.slash_inv with ⟨rfl, rfl⟩ | ⟨u, hu, rfl, hcs⟩ | ⟨u, hu, rfl, hcs⟩ <;>
      rcases h'.slash_inv with ⟨rfl, h2⟩ | ⟨u', hu', rfl, hcs'⟩ | ⟨u', hu', rfl, hcs'⟩
      · rfl
      · simp at hcs'
      · simp at hcs'
      · subst h2; simp at hcs
      · have : u = u' := by
          rcases hcs with rfl | rfl <;> rcases hcs' with h2 | h2 <;> simp only [List.cons.injEq, true_and] at h2
          · exact h2
          · exact absurd (by simp [h2]) hu
          · exact absurd (by simp [← h2]) hu'
          · exact List.append_cancel_right h2
        rw [this]
      · exfalso
        rcases hcs with rfl | rfl <;> rcases hcs' with ⟨_, h2⟩ | h2 <;> simp only [List.cons.injEq] at h2 <;>
          exact absurd h2.1 (by decide)
      · subst h2; simp at hcs
      · exfalso
        rcases hcs' with rfl | rfl <;> rcases hcs with ⟨_, h2⟩ | h2 <;> simp only [List.cons.injEq] at h2 <;>
          exact absurd h2.1 (by decide)
      · have : u = u' := by
          rcases hcs with ⟨_, rfl⟩ | rfl <;> rcases hcs' with ⟨_, h2⟩ | h2 <;> simp only [List.cons.injEq, true_and] at h2
          · exact h2
          · exact absurd ⟨u', [], h2⟩ hu
          · exact absurd ⟨u, [], h2.symm⟩ hu'
          · exact List.append_cancel_right h2
        rw [this]
    · cases hd : isDigit c with
      | true => rw [(h.int_inv hd).1, (h'.int_inv hd).1]
      | false =>
        cases hi : isIdentStart c with
        | true => rw [(h.word_inv hi).2, (h'.word_inv hi).2]
        | false =>
          generalize hx : c :: cs = x at h
          cases h with
          | str => simp [hq] at hx
          | int hh => simp only [List.cons.injEq] at hx; rw [← hx.1, hd] at hh; cases hh
          | div => simp [hs] at hx
          | line => simp [hs] at hx
          | lineEnd => simp [hs] at hx
          | block => simp [hs] at hx
          | blockEnd => simp [hs] at hx
          | word hh => simp only [List.cons.injEq] at hx; rw [← hx.1, hi] at hh; cases hh
          | op hm hw ho =>
            simp only [List.cons.injEq] at hx
            rw [← hx.1] at ho
            obtain ⟨w', hm', hw'⟩ := h'.op_inv ho
            have hh : ∀ p ∈ operators, ∀ q ∈ operators, ascii p.1 = ascii q.1 → p.2 = q.2 := by decide +kernel
            exact hh _ hm _ hm' (by simp only; rw [hw, hw', hx.1, hx.2])

/-- A longest lexeme in front is the one taken (or the step panics). -/
theorem gobble_takes {tok : Token} {text rest : Text} (hs : StrOk SB (text ++ rest)) (hl : Lexeme SB tok text)
    (hm : Longest SB text (text ++ rest)) (hn : text ++ rest ≠ ascii "/*") :
    gobble (text ++ rest) = .error .panic ∨
    ∃ tok', gobble (text ++ rest) = .ok (rest, some tok') ∧ Lexeme SB tok' text := by
  cases hg : gobble (text ++ rest) with
  | error e =>
    obtain ⟨cs, _, h⟩ := gobble_error hg
    rw [strLoop_error h]; exact .inl rfl
  | ok p =>
    right
    obtain ⟨out, o⟩ := p
    obtain ⟨c, cs, ht, hsp⟩ := hl.cls.nonempty
    cases o with
    | none =>
      rcases gobble_none hs hg with ⟨h1, _⟩ | ⟨c', hc', h1⟩ | ⟨h1, _⟩ | ⟨_, _, h1⟩
      · rw [ht] at h1; simp at h1
      · rw [ht] at h1; simp only [List.cons_append, List.cons.injEq] at h1
        rw [← h1.1, hsp] at hc'; cases hc'
      · exact absurd h1 hn
      · exact absurd rfl (h1 tok text rest hl)
    | some tok' =>
      obtain ⟨text', h1, h2, h3⟩ := gobble_some hs hg
      have ha := hm _ _ _ h1 h2
      have hb := h3 _ _ _ hl rfl
      obtain ⟨rfl, rfl⟩ := append_len h2 (Nat.le_antisymm hb ha)
      exact ⟨tok', rfl, h1⟩

/-- A step shortens the input if it takes something. -/
theorem gobble_shorter {inp rest : Text} {tok : Token} (h : gobble inp = .ok (rest, some tok)) : rest.length < inp.length := by
  obtain ⟨text, h1, h2, _⟩ := gobble_some (StrOk.extent inp) h
  obtain ⟨c, cs, rfl, _⟩ := h1.cls.nonempty
  rw [h2]; simp; omega

theorem Class.tok_unique_body {tok tok' : Token} {t : Text} (h : Class StrBody tok t) (h' : Class StrBody tok' t) :
    tok = tok' := by
  obtain ⟨c, cs, rfl, _⟩ := h.nonempty
  by_cases hq : c = byte '"'
  · subst hq
    obtain ⟨t1, v1, h1, rfl, h2⟩ := h.str_inv
    obtain ⟨t2, v2, h3, rfl, h4⟩ := h'.str_inv
    have := StrBody_unique (r := []) (r' := []) h1 h3 (by rw [← h2, ← h4])
    rw [this.2]
  · exact h.tok_unique h' hq

theorem Lexeme.mono {SB' : Text → Text → Prop} (hh : ∀ t v, SB t v → SB' t v) {tok : Token} {t : Text}
    (h : Lexeme SB tok t) : Lexeme SB' tok t := by
  cases h with
  | fixed h => exact .fixed h
  | ident h1 h2 => exact .ident h1 h2
  | dec h1 h2 => exact .dec h1 h2
  | hex h => exact .hex h
  | string h => exact .string (hh _ _ h)
  | line h => exact .line h
  | lineEnd h => exact .lineEnd h
  | block h => exact .block h
  | blockEnd h1 h2 => exact .blockEnd h1 h2

theorem Lexeme.extent {tok : Token} {t : Text} (h : Lexeme StrBody tok t) : Lexeme StrExtent tok t :=
  h.mono fun _ v hb => ⟨v, hb⟩

theorem Lexeme.body {tok : Token} {t : Text} (h : Lexeme StrExtent tok t) : ∃ tok', Lexeme StrBody tok' t := by
  cases h with
  | fixed h => exact ⟨_, .fixed h⟩
  | ident h1 h2 => exact ⟨_, .ident h1 h2⟩
  | dec h1 h2 => exact ⟨_, .dec h1 h2⟩
  | hex h => exact ⟨_, .hex h⟩
  | string h => obtain ⟨v, h⟩ := h; exact ⟨_, .string h⟩
  | line h => exact ⟨_, .line h⟩
  | lineEnd h => exact ⟨_, .lineEnd h⟩
  | block h => exact ⟨_, .block h⟩
  | blockEnd h1 h2 => exact ⟨_, .blockEnd h1 h2⟩

theorem longest_iff {t inp : Text} : Longest StrBody t inp ↔ Longest StrExtent t inp := by
  constructor
  · intro h tok t' r hl he
    obtain ⟨tok', hl'⟩ := hl.body
    exact h tok' t' r hl' he
  · intro h tok t' r hl he
    exact h tok t' r hl.extent he

/-- Strings without two-digit escapes are read exactly, whatever follows. -/
theorem strLoop_body {t v : Text} (h : StrBody t v) (hn : NoHexEscape t) (rest : Text) :
    strLoop (t ++ byte '"' :: rest) = .ok (some (rest, v)) := by
  induction h with
  | nil => exact strLoop_quote _
  | plain h1 h2 _ ih => rw [List.cons_append, strLoop_plain _ h2 h1, ih hn.tail]; rfl
  | escape h1 _ ih => rw [List.cons_append, List.cons_append, strLoop_esc _ h1, ih hn.tail.tail]; rfl
  | @hex1 d t v h1 h2 _ ih =>
    have ih := ih hn.tail.tail
    cases t with
    | nil =>
      rw [List.nil_append] at ih
      rw [List.cons_append, List.cons_append, List.nil_append, strLoop_hex1 _ h1 quote_not_hex, ih]; rfl
    | cons e t' =>
      rw [List.cons_append] at ih
      rw [List.cons_append, List.cons_append, List.cons_append, strLoop_hex1 _ h1 (h2 e t' rfl), ih]; rfl
  | @hex2 d e t v h1 h2 _ _ => exact absurd ⟨h1, h2⟩ (hn [] d e t rfl)

/-! ## One byte of lookahead is enough -/

theorem op_chain : ∀ p ∈ operators, ∀ q ∈ operators, (ascii p.1).isPrefixOf (ascii q.1) = true →
    (ascii p.1).length < (ascii q.1).length →
    ∃ o ∈ operators, ascii o.1 = (ascii q.1).take ((ascii p.1).length + 1) := by decide +kernel

/-- If a lexeme can be continued to a longer one, then already its next byte makes a longer one, and
that byte is no whitespace unless the lexeme is a comment that any byte continues. -/
theorem extend {tok tok' : Token} {text u : Text} {y : UInt8} (hSB : ∀ t v t' v' r r', SB t v → SB t' v' →
      t ++ byte '"' :: r = t' ++ byte '"' :: r' → t = t')
    (h : Lexeme SB tok text) (h' : Lexeme SB tok' (text ++ y :: u)) :
    (isSpace y = false ∨ (tok.isComment = true ∧ ∀ x, ∃ tok'', Lexeme SB tok'' (text ++ [x]))) ∧
    ((∃ tok'', Lexeme SB tok'' (text ++ [y])) ∨ (text = [byte '/'] ∧ y = byte '*')) := by
  have hc := h.cls
  have hc' := h'.cls
  obtain ⟨c, cs, rfl, hsp⟩ := hc.nonempty
  rw [List.cons_append] at hc'
  by_cases hq : c = byte '"'
  · exfalso
    subst hq
    obtain ⟨t1, v1, h1, _, rfl⟩ := hc.str_inv
    obtain ⟨t2, v2, h3, _, h4⟩ := hc'.str_inv
    have := hSB _ _ _ _ (y :: u) [] h1 h3 (by rw [← h4]; simp)
    subst this
    simp only [List.append_assoc, List.append_cancel_left_eq, List.cons_append, List.nil_append] at h4
    simp at h4
  · by_cases hs : c = byte '/'
    · subst hs
      rcases hc.slash_inv with ⟨rfl, rfl⟩ | ⟨t, ht, rfl, rfl | rfl⟩ | ⟨t, ht, rfl, ⟨ht0, rfl⟩ | rfl⟩
      · rcases hc'.slash_inv with ⟨_, h2⟩ | ⟨t', _, _, h2 | h2⟩ | ⟨t', _, _, ⟨_, h2⟩ | h2⟩
        · simp at h2
        · simp only [List.nil_append, List.cons.injEq] at h2
          rw [h2.1]
          exact ⟨.inl (by decide), .inl ⟨_, .lineEnd (t := []) (by simp)⟩⟩
        · simp only [List.nil_append, List.cons.injEq] at h2
          rw [h2.1]
          exact ⟨.inl (by decide), .inl ⟨_, .lineEnd (t := []) (by simp)⟩⟩
        · simp only [List.nil_append, List.cons.injEq] at h2
          rw [h2.1]
          exact ⟨.inl (by decide), .inr ⟨rfl, rfl⟩⟩
        · simp only [List.nil_append, List.cons.injEq] at h2
          rw [h2.1]
          exact ⟨.inl (by decide), .inr ⟨rfl, rfl⟩⟩
      · have all : ∀ x, ∃ tok'', Lexeme SB tok'' (byte '/' :: byte '/' :: t ++ [x]) := by
          intro x
          by_cases hx : x = byte '\n'
          · subst hx; exact ⟨_, .line ht⟩
          · exact ⟨_, .lineEnd (t := t ++ [x]) (by simp [ht, Ne.symm hx])⟩
        exact ⟨.inr ⟨rfl, all⟩, .inl (all y)⟩
      · exfalso
        have := line_longest (SB := SB) (rest := y :: u) ht tok' _ [] h' (by simp)
        simp at this
      · have all : ∀ x, ∃ tok'', Lexeme SB tok'' (byte '/' :: byte '*' :: t ++ [x]) := by
          intro x
          by_cases hcl : ClosesBlock (t ++ [x])
          · obtain ⟨a, b, hab⟩ := hcl
            rcases List.eq_nil_or_concat b with rfl | ⟨b', z, rfl⟩
            · have h5 : t = a ++ [byte '*'] ∧ [x] = [byte '/'] := by
                apply List.append_inj' (s₁ := t) (t₁ := [x]) (s₂ := a ++ [byte '*']) (t₂ := [byte '/'])
                · simpa using hab
                · rfl
              simp only [List.cons.injEq, and_true] at h5
              obtain ⟨rfl, rfl⟩ := h5
              have h6 : ¬ ClosesBlock a := by
                rintro ⟨p, q, rfl⟩
                exact ht ⟨p, q ++ [byte '*'], by simp⟩
              have := Lexeme.block (SB := SB) h6
              exact ⟨_, by simpa using this⟩
            · exfalso
              have h5 : t = a ++ byte '*' :: byte '/' :: b' ∧ [x] = [z] := by
                apply List.append_inj' (s₁ := t) (t₁ := [x])
                · simpa [List.concat_eq_append] using hab
                · rfl
              exact ht ⟨a, b', h5.1⟩
          · exact ⟨_, .blockEnd (t := t ++ [x]) (by simp) hcl⟩
        exact ⟨.inr ⟨rfl, all⟩, .inl (all y)⟩
      · exfalso
        have := block_longest (SB := SB) (t := t) (rest := y :: u) tok' _ [] h' (by simp)
        simp at this
    · cases hd : isDigit c with
      | true =>
        have h1 := (hc.int_inv hd).2
        rcases (hc'.int_inv hd).2 with h2 | ⟨ds, hc0, h2, h3⟩
        · have hy := h2 y (by simp)
          refine ⟨.inl ((first_kinds y).2.2 hy).2.1, .inl ⟨_, .dec (by simp) ?_⟩⟩
          intro x hx
          simp only [List.cons_append, List.mem_cons, List.mem_append, List.not_mem_nil, or_false] at hx
          rcases hx with rfl | hx | rfl
          · exact hd
          · exact h2 x (by simp [hx])
          · exact hy
        · subst hc0
          cases cs with
          | nil =>
            simp only [List.nil_append, List.cons.injEq] at h2
            rw [h2.1]
            exact ⟨.inl (by decide), .inl ⟨_, .hex (t := []) (by simp)⟩⟩
          | cons x cs =>
            simp only [List.cons_append, List.cons.injEq] at h2
            obtain ⟨rfl, rfl⟩ := h2
            have hy := h3 y (by simp)
            refine ⟨.inl ?_, .inl ⟨_, .hex (t := cs ++ [y]) ?_⟩⟩
            · cases hsy : isSpace y with
              | false => rfl
              | true => rw [((classes y).1 hsy).2.2.2.2.2] at hy; cases hy
            · intro z hz
              simp only [List.mem_append, List.mem_cons, List.not_mem_nil, or_false] at hz
              rcases hz with hz | rfl
              · exact h3 z (by simp [hz])
              · exact hy
      | false =>
        cases hi : isIdentStart c with
        | true =>
          have h2 := (hc'.word_inv hi).1
          have hy := h2 y (by simp)
          refine ⟨.inl ?_, .inl ⟨_, identToken_lexeme ⟨c, cs ++ [y], rfl, hi, ?_⟩⟩⟩
          · cases hsy : isSpace y with
            | false => rfl
            | true => rw [((classes y).1 hsy).2.2.2.2.1] at hy; cases hy
          · intro z hz
            simp only [List.mem_append, List.mem_cons, List.not_mem_nil, or_false] at hz
            rcases hz with hz | rfl
            · exact h2 z (by simp [hz])
            · exact hy
        | false =>
          have ho : opStart c = true := by simp [opStart, hsp, hq, hd, hs, hi]
          obtain ⟨w, hm, hw⟩ := hc.op_inv ho
          obtain ⟨w', hm', hw'⟩ := hc'.op_inv ho
          obtain ⟨o, ho1, ho2⟩ := op_chain _ hm _ hm' (by
              simp only [hw, hw', List.isPrefixOf_iff_prefix]; exact ⟨y :: u, by simp⟩) (by
              simp only [hw, hw']; simp)
          simp only [hw, hw'] at ho2
          have he : ascii o.1 = c :: cs ++ [y] := by
            rw [ho2]
            have : c :: (cs ++ y :: u) = (c :: cs ++ [y]) ++ u := by simp
            rw [this, List.take_left' (by simp)]
          refine ⟨.inl ?_, .inl ⟨o.2, ?_⟩⟩
          · obtain ⟨_, _, _, _, h5⟩ := operators_start _ hm'
            exact h5 y (by simp [hw'])
          · rw [← he]
            exact .fixed (tables_fixed _ (List.mem_append_right _ ho1))

end Verif.Props
