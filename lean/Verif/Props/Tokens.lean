import Verif.TokenGobble
import Verif.Runtime
/-!
# Properties C26-C30: the tokenizer

`Verif/TokenSpec.lean` has the specification: the lexical grammar (`Lexeme`, `Cuts`), what strings
denote (`StrBody`), exact positions (`ExactSpan`), places between tokens (`BoundaryAt`).
-/
namespace Verif.Props

/-! ## Steps of the loop -/

theorem tokLoop_nil (fuel : Nat) (st : TState) : tokLoop fuel st [] = .ok [] := by
  cases fuel <;> simp [tokLoop]

/-- The state after a whitespace byte. -/
def afterSpace (st : TState) (c : UInt8) : TState :=
  if c = byte '\n' then ⟨st.index + 1, st.lineNo + 1, st.index + 1⟩ else ⟨st.index + 1, st.lineNo, st.lineStart⟩

/-- The state after a token. -/
def afterTok (st : TState) (tok : Token) (n : Nat) : TState := ⟨st.index + n, st.lineNo + tokenLines tok, st.lineStart⟩

/-- The span given to a token. -/
def spanAt (st : TState) (tok : Token) (n : Nat) : Span :=
  ⟨st.lineNo, st.lineNo + tokenLines tok, st.index - st.lineStart + 1, st.index - st.lineStart + n + 1⟩

theorem gobble_space {c : UInt8} (h : isSpace c = true) (out : Text) : gobble (c :: out) = .ok (out, none) := by
  unfold gobble; simp [h]

theorem tokLoop_space {c : UInt8} (h : isSpace c = true) (fuel : Nat) (st : TState) (out : Text) :
    tokLoop (fuel + 1) st (c :: out) = tokLoop fuel (afterSpace st c) out := by
  rw [tokLoop, gobble_space h]
  cases out with
  | nil => simp [ok_bind, tokLoop_nil]
  | cons d ds =>
    unfold afterSpace
    by_cases hn : c = byte '\n'
    · simp [ok_bind, hn]
    · simp [ok_bind, hn]

theorem tokLoop_tok {inp out : Text} {tok : Token} (h : gobble inp = .ok (out, some tok)) (fuel : Nat) (st : TState) :
    tokLoop (fuel + 1) st inp =
      (tokLoop fuel (afterTok st tok (inp.length - out.length)) out >>= fun rest =>
        .ok (⟨tok, spanAt st tok (inp.length - out.length)⟩ :: rest)) := by
  have hne : inp ≠ [] := by rintro rfl; simp [gobble] at h
  rw [tokLoop, h]
  simp only [hne, if_false, ok_bind]
  rfl

theorem tokLoop_zero {inp : Text} (st : TState) (h : inp ≠ []) : tokLoop 0 st inp = .error .diverge := by
  rw [tokLoop]; simp [h]

theorem tokLoop_panic {inp : Text} {e : TokErr} (h : gobble inp = .error e) (fuel : Nat) (st : TState) :
    tokLoop (fuel + 1) st inp = .error e := by
  have hne : inp ≠ [] := by rintro rfl; simp [gobble] at h
  rw [tokLoop, h]; simp [hne, err_bind]

theorem tokLoop_stuck {inp : Text} (hne : inp ≠ []) (h : gobble inp = .ok (inp, none)) (fuel : Nat) (st : TState) :
    tokLoop (fuel + 1) st inp = .error (.unexpected st.index) := by
  rw [tokLoop, h]; simp [hne, ok_bind]

theorem tokLoop_open (fuel : Nat) (st : TState) : tokLoop (fuel + 1) st (ascii "/*") = .ok [] := by
  have : gobble (ascii "/*") = .ok ([], none) := by decide +kernel
  rw [tokLoop, this]
  have h : ascii "/*" ≠ [] := by decide +kernel
  simp [h, ok_bind]

/-! ## Positions -/

theorem colOf_text {before text : Text} (h : byte '\n' ∉ text) : colOf (before ++ text) = colOf before + text.length := by
  unfold colOf
  rw [List.reverse_append, List.takeWhile_append_of_pos]
  · simp; omega
  · intro x hx
    simp only [bne_iff_ne, ne_eq]
    rintro rfl
    exact h (by simpa using hx)

theorem colOf_nl (before : Text) : colOf (before ++ [byte '\n']) = 1 := by
  unfold colOf
  simp [List.reverse_append]

theorem colOf_le (before : Text) : 1 ≤ colOf before ∧ colOf before ≤ before.length + 1 := by
  unfold colOf
  have : (before.reverse.takeWhile (· != byte '\n')).length ≤ before.reverse.length :=
    (List.takeWhile_prefix _).length_le
  rw [List.length_reverse] at this
  omega

theorem colOf_first {before : Text} (h : byte '\n' ∉ before) : colOf before = before.length + 1 := by
  have := colOf_text (before := []) h
  simp only [List.nil_append] at this
  rw [this]; simp [colOf]; omega

theorem lineOf_text {before text : Text} : lineOf (before ++ text) = lineOf before + text.count (byte '\n') := by
  unfold lineOf; rw [List.count_append]; omega

/-- Where the code thinks the line started. -/
def startOf (before : Text) : Nat := if byte '\n' ∈ before then before.length + 65 - colOf before else 0

theorem startOf_text {before text : Text} (h : byte '\n' ∉ text) : startOf (before ++ text) = startOf before := by
  unfold startOf
  rw [colOf_text h]
  simp only [List.mem_append, h, or_false, List.length_append]
  split <;> omega

theorem startOf_nl (before : Text) : startOf (before ++ [byte '\n']) = before.length + 65 := by
  unfold startOf
  rw [colOf_nl]
  simp

theorem Cuts.before_le {SB : Text → Text → Prop} {before inp : Text} {ps : List Place} (h : Cuts SB before inp ps) :
    ∀ p ∈ ps, before.length ≤ p.before.length := by
  induction h with
  | nil => simp
  | openComment => simp
  | space _ _ ih => intro p hp; have := ih p hp; simp at this; omega
  | tok _ _ _ _ ih =>
    intro p hp
    rcases List.mem_cons.mp hp with rfl | hp
    · simp
    · have := ih p hp; simp at this; omega

/-- What the loop says about one token. -/
structure Reported (clean : Prop) (ps : List Place) (t : STok) (p : Place) : Prop where
  token : t.token = p.token
  width : t.span.colStop = t.span.colStart + p.text.length
  height : t.span.lineStop = t.span.lineStart + tokenLines p.token
  pos : clean → (∀ q ∈ ps, q.before.length < p.before.length → byte '\n' ∉ q.text) →
    t.span.lineStart = lineOf p.before ∧
    t.span.colStart = if byte '\n' ∈ p.before then colOf p.before else colOf p.before + 64
  body : NoHexEscape p.text → Lexeme StrBody p.token p.text

theorem gobble_body {text rest : Text} {tok : Token} (hl : Lexeme StrExtent tok text)
    (hg : gobble (text ++ rest) = .ok (rest, some tok)) (hn : NoHexEscape text) : Lexeme StrBody tok text := by
  cases hl with
  | fixed h => exact .fixed h
  | ident h1 h2 => exact .ident h1 h2
  | dec h1 h2 => exact .dec h1 h2
  | hex h => exact .hex h
  | line h => exact .line h
  | lineEnd h => exact .lineEnd h
  | block h => exact .block h
  | blockEnd h1 h2 => exact .blockEnd h1 h2
  | @string t v h =>
    obtain ⟨v', h⟩ := h
    have hn' : NoHexEscape t := by
      intro pre d e post he
      exact hn (byte '"' :: pre) d e (post ++ [byte '"']) (by simp [he])
    have := strLoop_body h hn' rest
    have hg2 : gobble (byte '"' :: (t ++ [byte '"']) ++ rest) = .ok (rest, some (.string v')) := by
      unfold gobble
      have he : t ++ [byte '"'] ++ rest = t ++ byte '"' :: rest := by simp
      simp only [List.cons_append, quote_kinds.2.2.2.1, Bool.false_eq_true, if_false, if_true, he, this, ok_bind]
    rw [hg2] at hg
    simp only [Except.ok.injEq, Prod.mk.injEq, Option.some.injEq, true_and, Token.string.injEq] at hg
    rw [← hg]
    exact .string h

theorem space_free {p : UInt8 → Bool} (hp : p (byte '\n') = false) {t : Text} (h : ∀ x ∈ t, p x = true) : byte '\n' ∉ t := by
  intro hm
  rw [h _ hm] at hp; cases hp

theorem tokenLines_zero {tok : Token} {text out : Text} (h : Lexeme StrExtent tok text)
    (hl : Longest StrExtent text (text ++ out)) (hn : byte '\n' ∉ text) (ho : out ≠ []) : tokenLines tok = 0 := by
  cases h with
  | fixed hf => cases tok <;> first | rfl | simp [fixedText] at hf
  | ident => rfl
  | dec => rfl
  | hex => rfl
  | string => rfl
  | line => simp at hn
  | @lineEnd t ht =>
    exfalso
    cases out with
    | nil => exact ho rfl
    | cons x r =>
      have : ∃ tok, Lexeme StrExtent tok (byte '/' :: byte '/' :: (t ++ [x])) := by
        by_cases hx : x = byte '\n'
        · subst hx; exact ⟨_, .line ht⟩
        · exact ⟨_, .lineEnd (by simp [ht, Ne.symm hx])⟩
      obtain ⟨tok, hlx⟩ := this
      have := hl _ _ r hlx (by simp)
      simp at this
      omega
  | block =>
    have hn' : byte '\n' ∉ _ := fun hm => hn (List.mem_cons_of_mem _ (List.mem_cons_of_mem _ (List.mem_append_left _ hm)))
    simp only [tokenLines]
    rw [← List.count_eq_countP]
    exact List.count_eq_zero_of_not_mem hn'
  | blockEnd =>
    have hn' : byte '\n' ∉ _ := fun hm => hn (List.mem_cons_of_mem _ (List.mem_cons_of_mem _ hm))
    simp only [tokenLines]
    rw [← List.count_eq_countP]
    exact List.count_eq_zero_of_not_mem hn'

theorem tokLoop_sound : ∀ (fuel : Nat) (st : TState) (before inp : Text) (toks : List STok) (clean : Prop),
    tokLoop fuel st inp = .ok toks → st.index = before.length + 64 →
    (clean → st.lineNo = lineOf before ∧ st.lineStart = startOf before) →
    ∃ ps, Cuts StrExtent before inp ps ∧ toks.length = ps.length ∧
      ∀ tp ∈ toks.zip ps, Reported clean ps tp.1 tp.2 := by
  intro fuel
  induction fuel with
  | zero =>
    intro st before inp toks clean h hi hc
    cases inp with
    | nil => rw [tokLoop_nil] at h; cases h; exact ⟨[], .nil, rfl, by simp⟩
    | cons c cs => rw [tokLoop_zero _ (by simp)] at h; cases h
  | succ fuel ih =>
    intro st before inp toks clean h hi hc
    by_cases hne : inp = []
    · subst hne; rw [tokLoop_nil] at h; cases h; exact ⟨[], .nil, rfl, by simp⟩
    · cases hg : gobble inp with
      | error e => rw [tokLoop_panic hg] at h; cases h
      | ok r =>
        obtain ⟨out, o⟩ := r
        cases o with
        | none =>
          rcases gobble_none (StrOk.extent inp) hg with ⟨h1, _⟩ | ⟨c, hs, rfl⟩ | ⟨rfl, rfl⟩ | ⟨rfl, _, _⟩
          · exact absurd h1 hne
          · rw [tokLoop_space hs] at h
            obtain ⟨ps, h1, h2, h3⟩ := ih (afterSpace st c) (before ++ [c]) out toks clean h
              (by unfold afterSpace; split <;> simp [hi] <;> omega)
              (by
                intro hcl
                obtain ⟨h4, h5⟩ := hc hcl
                unfold afterSpace
                split
                · rename_i hn
                  subst hn
                  rw [startOf_nl, lineOf_text]
                  simp [h4, hi]
                · rename_i hn
                  rw [startOf_text (by simp [Ne.symm hn]), lineOf_text]
                  simp [h4, h5, hn])
            exact ⟨ps, .space hs h1, h2, h3⟩
          · rw [tokLoop_open] at h
            cases h
            exact ⟨[], .openComment, rfl, by simp⟩
          · rw [tokLoop_stuck hne hg] at h
            cases h
        | some tok =>
          obtain ⟨text, h1, h2, h3⟩ := gobble_some (StrOk.extent inp) hg
          have hne2 : inp ≠ ascii "/*" := by
            rintro rfl
            have : gobble (ascii "/*") = .ok ([], none) := by decide +kernel
            rw [this] at hg; simp at hg
          rw [tokLoop_tok hg] at h
          obtain ⟨rest, h4, h5⟩ := tbind h
          simp only [Except.ok.injEq] at h5
          subst h2
          have hlen : (text ++ out).length - out.length = text.length := by simp
          rw [hlen] at h4 h5
          have hpos : 0 < text.length := by
            obtain ⟨c, cs, rfl, _⟩ := h1.cls.nonempty; simp
          obtain ⟨ps, h6, h7, h8⟩ := ih (afterTok st tok text.length) (before ++ text) out rest
            (clean ∧ byte '\n' ∉ text ∧ tokenLines tok = 0) h4 (by simp [afterTok, hi]; omega) (by
              rintro ⟨hcl, hnl, htl⟩
              obtain ⟨h9, h10⟩ := hc hcl
              rw [startOf_text hnl, lineOf_text, List.count_eq_zero_of_not_mem hnl]
              simp [afterTok, h9, h10, htl])
          refine ⟨⟨tok, before, text⟩ :: ps, .tok h1 h3 hne2 h6, by rw [← h5]; simp [h7], ?_⟩
          intro tp htp
          rw [← h5, List.zip_cons_cons] at htp
          rcases List.mem_cons.mp htp with rfl | htp
          · refine ⟨rfl, ?_, rfl, ?_, gobble_body h1 hg⟩
            · simp only [spanAt]; omega
            · intro hcl _
              obtain ⟨h9, h10⟩ := hc hcl
              refine ⟨h9, ?_⟩
              simp only [spanAt]
              rw [h10, hi]
              unfold startOf
              have := colOf_le before
              split
              · omega
              · rename_i hnl; rw [colOf_first hnl]; omega
          · have hr := h8 tp htp
            have hmem : tp.2 ∈ ps := (List.of_mem_zip htp).2
            refine ⟨hr.token, hr.width, hr.height, ?_, hr.body⟩
            intro hcl hq
            have hle := h6.before_le tp.2 hmem
            have hnl : byte '\n' ∉ text := hq ⟨tok, before, text⟩ (by simp) (by simp at hle ⊢; omega)
            refine hr.pos ⟨hcl, hnl, ?_⟩ fun q hqm => hq q (by simp [hqm])
            refine tokenLines_zero h1 h3 hnl ?_
            rintro rfl
            rw [tokLoop_nil] at h4
            cases h4
            simp at htp

/-! ## C26: cutting -/

theorem tokLoop_total : ∀ (fuel : Nat) (st : TState) (inp : Text), inp.length ≤ fuel →
    tokLoop fuel st inp ≠ .error .diverge := by
  intro fuel
  induction fuel with
  | zero =>
    intro st inp h
    have : inp = [] := List.length_eq_zero_iff.mp (by omega)
    subst this
    rw [tokLoop_nil]; simp
  | succ fuel ih =>
    intro st inp h
    by_cases hne : inp = []
    · subst hne; rw [tokLoop_nil]; simp
    · cases hg : gobble inp with
      | error e =>
        rw [tokLoop_panic hg]
        obtain ⟨cs, _, h2⟩ := gobble_error hg
        rw [strLoop_error h2]; simp
      | ok r =>
        obtain ⟨out, o⟩ := r
        cases o with
        | none =>
          rcases gobble_none (StrOk.extent inp) hg with ⟨h1, _⟩ | ⟨c, hs, rfl⟩ | ⟨rfl, rfl⟩ | ⟨rfl, _, _⟩
          · exact absurd h1 hne
          · rw [tokLoop_space hs]; exact ih _ _ (by simp at h; omega)
          · rw [tokLoop_open]; simp
          · rw [tokLoop_stuck hne hg]; simp
        | some tok =>
          have := gobble_shorter hg
          rw [tokLoop_tok hg]
          intro he
          have h2 := ih (afterTok st tok (inp.length - out.length)) out (by omega)
          cases hx : tokLoop fuel (afterTok st tok (inp.length - out.length)) out with
          | error e => rw [hx] at he h2; simp [bind, Except.bind] at he; subst he; exact h2 rfl
          | ok a => rw [hx] at he; simp [bind, Except.bind] at he

theorem tokenize_false {inp : Text} : tokenize inp false = tokLoop inp.length .init inp := by
  unfold tokenize
  cases tokLoop inp.length .init inp <;> rfl

theorem tokenize_error {inp : Text} {strip : Bool} {e : TokErr} :
    tokenize inp strip = .error e ↔ tokLoop inp.length .init inp = .error e := by
  unfold tokenize
  cases h : tokLoop inp.length .init inp with
  | error e' => simp [err_bind]
  | ok ts => cases strip <;> simp [ok_bind]

/-- **C26** (1). Tokenizing always ends. -/
theorem tokenize_terminates (inp : Text) (strip : Bool) : tokenize inp strip ≠ .error .diverge := by
  intro h
  exact tokLoop_total _ _ _ (Nat.le_refl _) (tokenize_error.mp h)

/-- **C26** (2). What is accepted is cut into tokens, each the longest possible, with nothing but
whitespace between them (and possibly an ignored `/*` at the very end); every token is the one its
text spells, except perhaps strings with two-digit escapes (`StrExtent`; see `hex_escape_finding`). -/
theorem tokenize_cuts {inp : Text} {toks : List STok} (h : tokenize inp false = .ok toks) :
    ∃ ps, Cuts StrExtent [] inp ps ∧ toks.map STok.token = ps.map Place.token ∧
      ∀ p ∈ ps, NoHexEscape p.text → Lexeme StrBody p.token p.text := by
  rw [tokenize_false] at h
  obtain ⟨ps, h1, h2, h3⟩ := tokLoop_sound _ _ [] _ _ False h rfl (fun hf => hf.elim)
  refine ⟨ps, h1, ?_, ?_⟩
  · apply List.ext_getElem (by simp [h2])
    intro i hi1 hi2
    simp only [List.length_map] at hi1 hi2
    simp only [List.getElem_map]
    have hm : (toks[i], ps[i]) ∈ toks.zip ps := by
      rw [List.mem_iff_getElem]
      exact ⟨i, by simp; omega, by simp⟩
    exact (h3 _ hm).token
  · intro p hp
    obtain ⟨i, hi, rfl⟩ := List.mem_iff_getElem.mp hp
    have hm : (toks[i], ps[i]) ∈ toks.zip ps := by
      rw [List.mem_iff_getElem]
      exact ⟨i, by simp; omega, by simp⟩
    exact (h3 _ hm).body

theorem gobble_string {t v rest : Text} (h : strLoop (t ++ byte '"' :: rest) = .ok (some (rest, v))) :
    gobble (byte '"' :: (t ++ [byte '"']) ++ rest) = .ok (rest, some (.string v)) := by
  unfold gobble
  have he : t ++ [byte '"'] ++ rest = t ++ byte '"' :: rest := by simp
  simp only [List.cons_append, quote_kinds.2.2.2.1, Bool.false_eq_true, if_false, if_true, he, h, ok_bind]

theorem gobble_string_panic {t rest : Text} (h : strLoop (t ++ byte '"' :: rest) = .error .panic) :
    gobble (byte '"' :: (t ++ [byte '"']) ++ rest) = .error .panic := by
  unfold gobble
  have he : t ++ [byte '"'] ++ rest = t ++ byte '"' :: rest := by simp
  simp only [List.cons_append, quote_kinds.2.2.2.1, Bool.false_eq_true, if_false, if_true, he, h, err_bind]

theorem NoHexEscape.inner {t : Text} (h : NoHexEscape (byte '"' :: (t ++ [byte '"']))) : NoHexEscape t := by
  intro pre d e post he
  exact h (byte '"' :: pre) d e (post ++ [byte '"']) (by simp [he])

/-- The step on a longest lexeme. -/
theorem gobble_lexeme {text rest : Text} {tok : Token} (hl : Lexeme StrBody tok text)
    (hm : Longest StrBody text (text ++ rest)) (hne : text ++ rest ≠ ascii "/*")
    (hn : ∀ s, tok = .string s → NoHexEscape text) : gobble (text ++ rest) = .ok (rest, some tok) := by
  have hc := hl.cls
  obtain ⟨c, cs, rfl, _⟩ := hc.nonempty
  by_cases hq : c = byte '"'
  · subst hq
    obtain ⟨t, v, hb, rfl, rfl⟩ := hc.str_inv
    exact gobble_string (strLoop_body hb (hn v rfl).inner rest)
  · rcases gobble_takes (StrOk.extent _) hl.extent (longest_iff.mp hm) hne with h1 | ⟨tok', h1, h2⟩
    · obtain ⟨cs', h2, _⟩ := gobble_error h1
      simp only [List.cons_append, List.cons.injEq] at h2
      exact absurd h2.1 hq
    · rw [h1, h2.cls.tok_unique hl.extent.cls hq]

/-- The loop on whitespace and tokens, backwards: a cut source is accepted. -/
theorem tokLoop_complete {before inp : Text} {ps : List Place} (h : Cuts StrBody before inp ps)
    (hn : ∀ p ∈ ps, ∀ s, p.token = .string s → NoHexEscape p.text) :
    ∀ fuel st, inp.length ≤ fuel →
      ∃ toks, tokLoop fuel st inp = .ok toks ∧ toks.map STok.token = ps.map Place.token := by
  induction h with
  | nil => intro fuel st _; exact ⟨[], tokLoop_nil _ _, rfl⟩
  | openComment =>
    intro fuel st hf
    cases fuel with
    | zero => exact absurd hf (by decide +kernel)
    | succ fuel => exact ⟨[], tokLoop_open _ _, rfl⟩
  | space hs _ ih =>
    intro fuel st hf
    cases fuel with
    | zero => simp at hf
    | succ fuel => rw [tokLoop_space hs]; exact ih hn fuel _ (by simp at hf; omega)
  | @tok before tok text rest ps hl hm hne _ ih =>
    intro fuel st hf
    have hg := gobble_lexeme hl hm hne (hn ⟨tok, before, text⟩ (by simp))
    have := gobble_shorter hg
    cases fuel with
    | zero => omega
    | succ fuel =>
      obtain ⟨toks, h1, h2⟩ := ih (fun p hp => hn p (by simp [hp])) fuel
        (afterTok st tok ((text ++ rest).length - rest.length)) (by omega)
      rw [tokLoop_tok hg, h1]
      exact ⟨_, rfl, by simp [h2]⟩

/-- **C26** (3). Every source that the lexical grammar cuts into tokens is accepted, with those
tokens, if its strings have no two-digit escapes. -/
theorem tokenize_accepts_partial {inp : Text} {ps : List Place} (h : Cuts StrBody [] inp ps)
    (hn : ∀ p ∈ ps, ∀ s, p.token = .string s → NoHexEscape p.text) :
    ∃ toks, tokenize inp false = .ok toks ∧ toks.map STok.token = ps.map Place.token := by
  rw [tokenize_false]
  exact tokLoop_complete h hn _ _ (Nat.le_refl _)

theorem tokLoop_error : ∀ (fuel : Nat) (st : TState) (before inp : Text) (e : TokErr), inp.length ≤ fuel →
    st.index = before.length + 64 → tokLoop fuel st inp = .error e →
    ∃ pre post, inp = pre ++ post ∧
      ((e = .panic ∧ ∃ cs, post = byte '"' :: cs ∧ ¬ NoHexEscape cs) ∨
       (e = .unexpected (before.length + pre.length + 64) ∧ (∃ c cs, post = c :: cs ∧ isSpace c = false) ∧
        ∀ tok text rest, Lexeme StrBody tok text → post ≠ text ++ rest)) := by
  intro fuel
  induction fuel with
  | zero =>
    intro st before inp e hf hi h
    have : inp = [] := List.length_eq_zero_iff.mp (by omega)
    subst this
    rw [tokLoop_nil] at h; cases h
  | succ fuel ih =>
    intro st before inp e hf hi h
    by_cases hne : inp = []
    · subst hne; rw [tokLoop_nil] at h; cases h
    · cases hg : gobble inp with
      | error e' =>
        rw [tokLoop_panic hg] at h
        obtain ⟨cs, h1, h2⟩ := gobble_error hg
        cases h
        refine ⟨[], inp, rfl, .inl ⟨strLoop_error h2, cs, h1, ?_⟩⟩
        intro hn
        rw [strLoop_exact _ hn] at h2
        cases h2
      | ok r =>
        obtain ⟨out, o⟩ := r
        cases o with
        | none =>
          rcases gobble_none (StrOk.extent inp) hg with ⟨h1, _⟩ | ⟨c, hs, rfl⟩ | ⟨rfl, rfl⟩ | ⟨rfl, h1, h2⟩
          · exact absurd h1 hne
          · rw [tokLoop_space hs] at h
            obtain ⟨pre, post, h1, h2⟩ := ih (afterSpace st c) (before ++ [c]) out e (by simp at hf; omega)
              (by unfold afterSpace; split <;> simp [hi] <;> omega) h
            refine ⟨c :: pre, post, by simp [h1], ?_⟩
            rcases h2 with h2 | ⟨h2, h3⟩
            · exact .inl h2
            · refine .inr ⟨?_, h3⟩
              rw [h2]; simp; omega
          · rw [tokLoop_open] at h; cases h
          · rw [tokLoop_stuck hne hg] at h
            cases h
            refine ⟨[], out, rfl, .inr ⟨by simp [hi], h1, ?_⟩⟩
            intro tok text rest hl
            exact h2 tok text rest hl.extent
        | some tok =>
          obtain ⟨text, h1, rfl, h3⟩ := gobble_some (StrOk.extent inp) hg
          have hsh := gobble_shorter hg
          have hlen : (text ++ out).length - out.length = text.length := by simp
          rw [tokLoop_tok hg, hlen] at h
          have he : tokLoop fuel (afterTok st tok text.length) out = .error e := by
            cases hx : tokLoop fuel (afterTok st tok text.length) out with
            | error e' => rw [hx] at h; simpa [bind, Except.bind] using h
            | ok a => rw [hx] at h; simp [bind, Except.bind] at h
          obtain ⟨pre, post, h4, h5⟩ := ih (afterTok st tok text.length) (before ++ text) out e (by omega)
            (by simp [afterTok, hi]; omega) he
          refine ⟨text ++ pre, post, by simp [h4], ?_⟩
          rcases h5 with h5 | ⟨h5, h6⟩
          · exact .inl h5
          · refine .inr ⟨?_, h6⟩
            rw [h5]; simp; omega

/-- **C26** (4). Tokenizing panics only if a backslash and two hex digits follow a quote. -/
theorem tokenize_no_panic_partial {inp : Text} {strip : Bool} (h : NoHexEscape inp) :
    tokenize inp strip ≠ .error .panic := by
  intro he
  obtain ⟨pre, post, h1, h2 | ⟨h2, _⟩⟩ := tokLoop_error _ _ [] _ _ (Nat.le_refl _) rfl (tokenize_error.mp he)
  · obtain ⟨_, cs, h3, h4⟩ := h2
    subst h3
    subst h1
    exact h4 h.drop.tail
  · cases h2

/-- **C26** (5). An error other than a panic means that some byte of the source, not whitespace,
starts no token; the error shows its offset plus 64. -/
theorem tokenize_unexpected {inp : Text} {strip : Bool} {i : Nat} (h : tokenize inp strip = .error (.unexpected i)) :
    ∃ pre post, inp = pre ++ post ∧ i = pre.length + 64 ∧ (∃ c cs, post = c :: cs ∧ isSpace c = false) ∧
      ∀ tok text rest, Lexeme StrBody tok text → post ≠ text ++ rest := by
  obtain ⟨pre, post, h1, ⟨h2, _⟩ | ⟨h2, h3, h4⟩⟩ := tokLoop_error _ _ [] _ _ (Nat.le_refl _) rfl (tokenize_error.mp h)
  · cases h2
  · refine ⟨pre, post, h1, ?_, h3, h4⟩
    simpa using h2

/-- The cut of a source is unique. -/
theorem Cuts.unique {before inp : Text} {ps qs : List Place} (h : Cuts StrBody before inp ps)
    (h' : Cuts StrBody before inp qs) : ps = qs := by
  have hopen : ∀ {tok text rest}, Lexeme StrBody tok text → text ++ rest ≠ [] := by
    intro tok text rest hl
    obtain ⟨c, cs, rfl, _⟩ := hl.cls.nonempty
    simp
  have hsp : ∀ {tok text rest c inp}, Lexeme StrBody tok text → isSpace c = true → text ++ rest ≠ c :: inp := by
    intro tok text rest c inp hl hs he
    obtain ⟨c', cs, rfl, hs'⟩ := hl.cls.nonempty
    simp only [List.cons_append, List.cons.injEq] at he
    rw [he.1, hs] at hs'; cases hs'
  have hos : ∀ {c inp}, isSpace c = true → ascii "/*" ≠ c :: inp := by
    intro c inp hs he
    have : ascii "/*" = [byte '/', byte '*'] := by decide +kernel
    rw [this] at he
    simp only [List.cons.injEq] at he
    rw [← he.1] at hs
    revert hs; decide
  induction h generalizing qs with
  | nil =>
    generalize hx : ([] : Text) = x at h'
    cases h' with
    | nil => rfl
    | openComment => rfl
    | space => cases hx
    | tok hl => exact absurd hx.symm (hopen hl)
  | openComment =>
    generalize hx : ascii "/*" = x at h'
    cases h' with
    | nil => rfl
    | openComment => rfl
    | space hs => exact absurd hx (hos hs)
    | tok _ _ hn => exact absurd hx.symm hn
  | @space b c i ps hs _ ih =>
    generalize hx : c :: i = x at h'
    cases h' with
    | nil => cases hx
    | openComment => exact absurd hx.symm (hos hs)
    | space hs' h2 => simp only [List.cons.injEq] at hx; obtain ⟨rfl, rfl⟩ := hx; exact ih h2
    | tok hl => exact absurd hx.symm (hsp hl hs)
  | @tok b tok text rest ps hl hm hn _ ih =>
    generalize hx : text ++ rest = x at h'
    cases h' with
    | nil => exact absurd hx (hopen hl)
    | openComment => exact absurd hx hn
    | space hs => exact absurd hx (hsp hl hs)
    | @tok _ tok' text' rest' qs' hl' hm' hn' h2 =>
      have ha := hm _ _ _ hl' hx
      have hb := hm' _ _ _ hl hx.symm
      obtain ⟨rfl, rfl⟩ := append_len hx (Nat.le_antisymm hb ha)
      rw [hl.cls.tok_unique_body hl'.cls, ih h2]

/-! ## C27: strings -/

/-- **C27** (1). A string literal without two-digit escapes denotes the bytes its text says. -/
theorem string_bytes_partial {t v : Text} (h : StrBody t v) (hn : NoHexEscape t) :
    ∃ toks, tokenize (byte '"' :: (t ++ [byte '"'])) false = .ok toks ∧ toks.map STok.token = [.string v] := by
  have hc : Cuts StrBody [] (byte '"' :: (t ++ [byte '"']) ++ []) [⟨.string v, [], byte '"' :: (t ++ [byte '"'])⟩] := by
    refine .tok (.string h) (by rw [List.append_nil]; exact all_longest _) ?_ .nil
    have : ascii "/*" = [byte '/', byte '*'] := by decide +kernel
    rw [this, List.append_nil]
    intro he
    simp only [List.cons.injEq] at he
    exact absurd he.1 (by decide)
  rw [List.append_nil] at hc
  have := tokenize_accepts_partial hc (by
    intro p hp s hs
    simp only [List.mem_cons, List.not_mem_nil, or_false] at hp
    subst hp
    intro pre d e post he hh
    simp only at he
    cases pre with
    | nil => simp only [List.nil_append, List.cons.injEq] at he; exact absurd he.1 (by decide)
    | cons x pre =>
      simp only [List.cons_append, List.cons.injEq] at he
      rcases List.append_eq_append_iff.mp he.2 with ⟨a, h3, h4⟩ | ⟨a, h3, h4⟩
      · rcases List.cons_eq_append_iff.mp h4 with ⟨_, h5⟩ | ⟨a', _, h5⟩
        · simp at h5
        · simp at h5
      · rcases a with _ | ⟨x1, _ | ⟨x2, _ | ⟨x3, a⟩⟩⟩
        · simp at h4
        · simp at h4
        · simp only [List.cons_append, List.nil_append, List.cons.injEq] at h4
          have := hh.2
          rw [h4.2.2.1, quote_not_hex] at this
          cases this
        · simp only [List.cons_append, List.cons.injEq] at h4
          obtain ⟨rfl, rfl, rfl, _⟩ := h4
          exact hn pre _ _ a h3 hh)
  exact this

/-- **C27** (2), violated. `"\41"` must denote the byte `0x41`, but the compiler panics. -/
theorem hex_escape_panics_finding : StrBody (ascii "\\41") [0x41] ∧ tokenize (ascii "\"\\41\"") false = .error .panic := by
  refine ⟨?_, by decide +kernel⟩
  have h : ascii "\\41" = [byte '\\', byte '4', byte '1'] := by decide +kernel
  rw [h]
  exact .hex2 (v := []) (by decide) (by decide) .nil

/-- **C27** (3), violated. `"\41B"` must denote `0x41 0x42` but denotes `0x1B 0x42`. -/
theorem hex_escape_finding : StrBody (ascii "\\41B") [0x41, 0x42] ∧
    tokensOf (ascii "\"\\41B\"") false = some [.string [0x1B, 0x42]] := by
  refine ⟨?_, by decide +kernel⟩
  have h : ascii "\\41B" = [byte '\\', byte '4', byte '1', byte 'B'] := by decide +kernel
  rw [h]
  exact .hex2 (v := [0x42]) (by decide) (by decide) (.plain (by decide) (by decide) .nil)

/-- **C27** (4), violated in general: a literal that is one two-digit escape always makes the compiler panic. -/
theorem hex_escape_general_finding {d e : UInt8} (hd : isHex d = true) (he : isHex e = true) (rest : Text) :
    gobble (byte '"' :: byte '\\' :: d :: e :: byte '"' :: rest) = .error .panic := by
  have := gobble_string_panic (t := [byte '\\', d, e]) (rest := rest) (strLoop_panic _ hd he quote_not_hex)
  simpa using this

/-! ## C28: comments and whitespace -/

/-- The tokens of a source, as a function of the text alone. -/
def lexAll : Nat → Text → Option (List Token)
  | 0, inp => if inp = [] then some [] else none
  | fuel + 1, inp =>
    if inp = [] then some []
    else
      match gobble inp with
      | .error _ => none
      | .ok (out, some tok) => (lexAll fuel out).map (tok :: ·)
      | .ok (out, none) => if out = [] then some [] else if out.length = inp.length then none else lexAll fuel out

theorem lexAll_nil (fuel : Nat) : lexAll fuel [] = some [] := by cases fuel <;> simp [lexAll]

theorem tokLoop_lexAll : ∀ (fuel : Nat) (st : TState) (inp : Text),
    (match tokLoop fuel st inp with | .ok ts => some (ts.map STok.token) | .error _ => none) = lexAll fuel inp := by
  intro fuel
  induction fuel with
  | zero => intro st inp; rw [tokLoop, lexAll]; split <;> rename_i h <;> split at h <;> simp_all
  | succ fuel ih =>
    intro st inp
    by_cases hne : inp = []
    · subst hne; rw [tokLoop_nil, lexAll_nil]; rfl
    · rw [lexAll, if_neg hne]
      cases hg : gobble inp with
      | error e => rw [tokLoop_panic hg]
      | ok r =>
        obtain ⟨out, o⟩ := r
        cases o with
        | none =>
          simp only
          rcases gobble_none (StrOk.extent inp) hg with ⟨h1, _⟩ | ⟨c, hs, rfl⟩ | ⟨rfl, rfl⟩ | ⟨rfl, _, _⟩
          · exact absurd h1 hne
          · rw [tokLoop_space hs, ih]
            by_cases ho : out = []
            · subst ho; simp [lexAll_nil]
            · simp [ho]
          · rw [tokLoop_open]; simp
          · rw [tokLoop_stuck hne hg]; simp [hne]
        | some tok =>
          simp only
          rw [tokLoop_tok hg, ← ih (afterTok st tok (inp.length - out.length)) out]
          cases tokLoop fuel (afterTok st tok (inp.length - out.length)) out with
          | error e => rfl
          | ok a => rfl

theorem lexAll_fuel : ∀ (fuel fuel' : Nat) (inp : Text), inp.length ≤ fuel → inp.length ≤ fuel' →
    lexAll fuel inp = lexAll fuel' inp := by
  intro fuel
  induction fuel with
  | zero =>
    intro fuel' inp h1 _
    have : inp = [] := List.length_eq_zero_iff.mp (by omega)
    subst this
    rw [lexAll_nil, lexAll_nil]
  | succ fuel ih =>
    intro fuel' inp h1 h2
    by_cases hne : inp = []
    · subst hne; rw [lexAll_nil, lexAll_nil]
    · cases fuel' with
      | zero => exact absurd (List.length_eq_zero_iff.mp (by omega)) hne
      | succ fuel' =>
        rw [lexAll, lexAll, if_neg hne, if_neg hne]
        cases hg : gobble inp with
        | error e => rfl
        | ok r =>
          obtain ⟨out, o⟩ := r
          cases o with
          | none =>
            simp only
            rcases gobble_none (StrOk.extent inp) hg with ⟨h1, _⟩ | ⟨c, hs, rfl⟩ | ⟨rfl, rfl⟩ | ⟨rfl, _, _⟩
            · exact absurd h1 hne
            · simp only [List.length_cons] at h1 h2
              rw [ih fuel' out (by omega) (by omega)]
            · simp
            · simp
          | some tok =>
            have := gobble_shorter hg
            simp only
            rw [ih fuel' out (by omega) (by omega)]

/-- The tokens of a source. -/
def lexed (inp : Text) : Option (List Token) := lexAll inp.length inp

theorem tokensOf_lexed (inp : Text) (strip : Bool) : tokensOf inp strip =
    (lexed inp).map fun ts => if strip then ts.filter fun t => !t.isComment else ts := by
  unfold tokensOf lexed tokenize
  rw [← tokLoop_lexAll inp.length .init inp]
  cases tokLoop inp.length .init inp with
  | error e => rfl
  | ok ts =>
    cases strip with
    | false => simp [ok_bind]
    | true =>
      simp only [ok_bind, if_true, Option.map_some, Option.some.injEq]
      rw [List.filter_map]
      rfl

theorem lexed_space {c : UInt8} (h : isSpace c = true) (inp : Text) : lexed (c :: inp) = lexed inp := by
  unfold lexed
  rw [List.length_cons, lexAll, if_neg (by simp), gobble_space h]
  simp only
  by_cases ho : inp = []
  · subst ho; rfl
  · simp [ho]

theorem lexed_tok {inp out : Text} {tok : Token} (h : gobble inp = .ok (out, some tok)) :
    lexed inp = (lexed out).map (tok :: ·) := by
  have h1 := gobble_shorter h
  unfold lexed
  cases inp with
  | nil => simp at h1
  | cons c cs =>
    rw [List.length_cons, lexAll, if_neg (by simp), h]
    simp only
    rw [lexAll_fuel cs.length out.length out (by simp at h1; omega) (Nat.le_refl _)]

theorem lexed_panic {inp : Text} {e : TokErr} (h : gobble inp = .error e) : lexed inp = none := by
  unfold lexed
  cases inp with
  | nil => simp [gobble] at h
  | cons c cs => rw [List.length_cons, lexAll, if_neg (by simp), h]

theorem extent_unique : ∀ t v t' v' r r', StrExtent t v → StrExtent t' v' →
    t ++ byte '"' :: r = t' ++ byte '"' :: r' → t = t' := (StrOk.extent []).unique

/-- A longest lexeme stays longest if whitespace comes after it, or the same byte as before. -/
theorem longest_follow {tok : Token} {text X r' : Text} {y : UInt8} (hl : Lexeme StrExtent tok text)
    (hm : Longest StrExtent text (text ++ X)) (hne : text ++ X ≠ ascii "/*")
    (hc : isSpace y = true ∧ (X = [] → tok.isComment = false) ∨ ∃ r, X = y :: r) :
    Longest StrExtent text (text ++ y :: r') ∧ text ++ y :: r' ≠ ascii "/*" := by
  have hlonger : ∀ {tok'' x r}, Lexeme StrExtent tok'' (text ++ [x]) → X = x :: r → False := by
    intro tok'' x r h1 h2
    have := hm _ _ r h1 (by rw [h2]; simp)
    simp at this
    omega
  have hslash : ¬ (text = [byte '/'] ∧ ∃ r, X = byte '*' :: r) := by
    rintro ⟨rfl, r, rfl⟩
    cases r with
    | nil => exact hne (by decide +kernel)
    | cons z r =>
      have h1 : Lexeme StrExtent (.commentBlock [z]) (byte '/' :: byte '*' :: [z]) :=
        .blockEnd (by simp) (by rintro ⟨a, b, h⟩; cases a <;> simp at h)
      have := hm _ _ r h1 (by simp)
      simp at this
  refine ⟨?_, ?_⟩
  · intro tok' text' rest hl' he
    rcases Nat.lt_or_ge text.length text'.length with hlt | hge
    · exfalso
      have hpre : text <+: text' :=
        List.prefix_of_prefix_length_le (l₃ := text ++ y :: r') ⟨_, rfl⟩ ⟨rest, he.symm⟩ (Nat.le_of_lt hlt)
      obtain ⟨u, rfl⟩ := hpre
      cases u with
      | nil => simp at hlt
      | cons z u =>
        simp only [List.append_assoc, List.append_cancel_left_eq, List.cons_append, List.cons.injEq] at he
        obtain ⟨rfl, _⟩ := he
        obtain ⟨h1, h2⟩ := extend extent_unique hl hl'
        rcases hc with ⟨hsy, hX⟩ | ⟨r, hX⟩
        · rcases h1 with h1 | ⟨h1, h3⟩
          · rw [hsy] at h1; cases h1
          · cases X with
            | nil => rw [hX rfl] at h1; cases h1
            | cons x r => obtain ⟨_, h4⟩ := h3 x; exact hlonger h4 rfl
        · rcases h2 with ⟨_, h2⟩ | ⟨h2, rfl⟩
          · exact hlonger h2 hX
          · exact hslash ⟨h2, r, hX⟩
    · exact hge
  · intro he
    have hab : ascii "/*" = [byte '/', byte '*'] := by decide +kernel
    rw [hab] at he
    obtain ⟨c, cs, rfl, _⟩ := hl.cls.nonempty
    simp only [List.cons_append, List.cons.injEq] at he
    obtain ⟨rfl, he⟩ := he
    cases cs with
    | nil =>
      simp only [List.nil_append, List.cons.injEq] at he
      rcases hc with ⟨hsy, _⟩ | ⟨r, hX⟩
      · rw [he.1] at hsy; revert hsy; decide
      · rw [he.1] at hX; exact hslash ⟨rfl, r, hX⟩
    | cons z cs => simp at he

/-- Two ways to go on after a lexeme that do not change how it is read. -/
theorem gobble_follow {tok : Token} {text X X' : Text} (hl : Lexeme StrExtent tok text)
    (hm : Longest StrExtent text (text ++ X)) (hne : text ++ X ≠ ascii "/*")
    (hm' : Longest StrExtent text (text ++ X')) (hne' : text ++ X' ≠ ascii "/*") :
    (gobble (text ++ X) = .error .panic ∧ gobble (text ++ X') = .error .panic) ∨
    ∃ tok', gobble (text ++ X) = .ok (X, some tok') ∧ gobble (text ++ X') = .ok (X', some tok') := by
  have hc := hl.cls
  obtain ⟨c, cs, rfl, _⟩ := hc.nonempty
  by_cases hq : c = byte '"'
  · subst hq
    obtain ⟨t, v, ⟨v0, hb⟩, rfl, rfl⟩ := hc.str_inv
    rcases strLoop_local hb with h | ⟨v', h⟩
    · exact .inl ⟨gobble_string_panic (h _), gobble_string_panic (h _)⟩
    · exact .inr ⟨_, gobble_string (h _), gobble_string (h _)⟩
  · right
    have hno : ∀ Y e, gobble (c :: cs ++ Y) ≠ .error e := by
      intro Y e he
      obtain ⟨cs', h2, _⟩ := gobble_error he
      simp only [List.cons_append, List.cons.injEq] at h2
      exact hq h2.1
    rcases gobble_takes (StrOk.extent _) hl hm hne with h1 | ⟨tok1, h1, h2⟩
    · exact absurd h1 (hno _ _)
    · rcases gobble_takes (StrOk.extent _) hl hm' hne' with h3 | ⟨tok2, h3, h4⟩
      · exact absurd h3 (hno _ _)
      · refine ⟨tok1, h1, ?_⟩
        rw [h3, h2.cls.tok_unique h4.cls hq]

/-- What is done to the tokens after a place carries over to the whole source. -/
theorem lexed_boundary {a b f : Text} {s : UInt8} (F : List Token → List Token)
    (hF : ∀ t ts ts', F ts = F ts' → F (t :: ts) = F (t :: ts'))
    (hs : isSpace s = true) (h : BoundaryAt a b) (hb : (lexed (s :: f ++ b)).map F = (lexed b).map F) :
    (lexed (a ++ (s :: f ++ b))).map F = (lexed (a ++ b)).map F := by
  induction h with
  | here => exact hb
  | space hc _ ih =>
    have ih := ih hb
    simp only [List.cons_append] at ih ⊢
    rw [lexed_space hc, lexed_space hc]
    exact ih
  | @tok tok text a b hl hm hne hend _ ih =>
    have ih := ih hb
    rw [List.append_assoc, List.append_assoc]
    have hfol : Longest StrExtent text (text ++ (a ++ (s :: f ++ b))) ∧ text ++ (a ++ (s :: f ++ b)) ≠ ascii "/*" := by
      cases a with
      | nil =>
        rw [List.nil_append, List.cons_append]
        exact longest_follow hl hm hne (.inl ⟨hs, hend⟩)
      | cons x a' =>
        rw [List.cons_append]
        exact longest_follow hl hm hne (.inr ⟨_, rfl⟩)
    rcases gobble_follow hl hm hne hfol.1 hfol.2 with ⟨h1, h2⟩ | ⟨tok', h1, h2⟩
    · rw [lexed_panic h1, lexed_panic h2]
    · rw [lexed_tok h1, lexed_tok h2]
      cases hx : lexed (a ++ (s :: f ++ b)) with
      | none =>
        rw [hx] at ih
        cases hy : lexed (a ++ b) with
        | none => rfl
        | some ts => rw [hy] at ih; cases ih
      | some ts =>
        rw [hx] at ih
        cases hy : lexed (a ++ b) with
        | none => rw [hy] at ih; cases ih
        | some ts' =>
          rw [hy] at ih
          simp only [Option.map_some, Option.some.injEq] at ih ⊢
          exact hF _ _ _ ih

theorem lexed_spaces {f b : Text} (h : ∀ c ∈ f, isSpace c = true) : lexed (f ++ b) = lexed b := by
  induction f with
  | nil => rfl
  | cons c f ih =>
    rw [List.cons_append, lexed_space (h c (by simp))]
    exact ih fun x hx => h x (by simp [hx])

theorem slash2_ne (x y : UInt8) (l : Text) : byte '/' :: x :: y :: l ≠ ascii "/*" := by
  have hab : ascii "/*" = [byte '/', byte '*'] := by decide +kernel
  rw [hab]; simp

theorem lexed_filler {f b : Text} (h : Filler f) :
    (lexed (f ++ b)).map (List.filter fun t => !t.isComment) = (lexed b).map (List.filter fun t => !t.isComment) := by
  have hdrop : ∀ {X : Text} {tok : Token}, tok.isComment = true →
      ((lexed X).map (tok :: ·)).map (List.filter fun t => !t.isComment) =
        (lexed X).map (List.filter fun t => !t.isComment) := by
    intro X tok ht
    rw [Option.map_map]
    congr 1
    funext ts
    simp [ht]
  induction h with
  | nil => rfl
  | space hc _ ih => rw [List.cons_append, lexed_space hc]; exact ih
  | @line t f ht _ ih =>
    have hg : gobble (byte '/' :: byte '/' :: (t ++ [byte '\n']) ++ (f ++ b)) = .ok (f ++ b, some (.commentLine t)) := by
      apply gobble_lexeme (.line ht)
      · have := line_longest (SB := StrBody) (rest := f ++ b) ht
        simpa using this
      · cases t <;> simpa using slash2_ne _ _ _
      · intro s hs; cases hs
    have he : byte '/' :: byte '/' :: (t ++ byte '\n' :: f) ++ b = byte '/' :: byte '/' :: (t ++ [byte '\n']) ++ (f ++ b) := by simp
    rw [he, lexed_tok hg, hdrop rfl]
    exact ih
  | @block t f ht _ ih =>
    have hg : gobble (byte '/' :: byte '*' :: (t ++ [byte '*', byte '/']) ++ (f ++ b)) = .ok (f ++ b, some (.commentBlock t)) := by
      apply gobble_lexeme (.block ht)
      · have := block_longest (SB := StrBody) (t := t) (rest := f ++ b)
        simpa using this
      · cases t <;> simpa using slash2_ne _ _ _
      · intro s hs; cases hs
    have he : byte '/' :: byte '*' :: (t ++ byte '*' :: byte '/' :: f) ++ b = byte '/' :: byte '*' :: (t ++ [byte '*', byte '/']) ++ (f ++ b) := by simp
    rw [he, lexed_tok hg, hdrop rfl]
    exact ih

/-- **C28** (1). Stripping comments gives the tokens, with their positions, that are left when the
comments are dropped from the tokens with comments. -/
theorem strip_is_filter (inp : Text) : tokenize inp true =
    (tokenize inp false).map fun ts => ts.filter fun t => !t.token.isComment := by
  rw [tokenize_false]
  unfold tokenize
  cases tokLoop inp.length .init inp <;> rfl

/-- **C28** (2). Whitespace added between tokens changes no token, with or without comments. -/
theorem whitespace_irrelevant {a w b : Text} {strip : Bool} (h : BoundaryAt a b) (hw : ∀ c ∈ w, isSpace c = true) :
    tokensOf (a ++ (w ++ b)) strip = tokensOf (a ++ b) strip := by
  cases w with
  | nil => rfl
  | cons s f =>
    have h1 := lexed_boundary (f := f) id (by intro t ts ts' h; simp at h; simp [h]) (hw s (by simp)) h
      (by rw [lexed_spaces hw])
    simp only [Option.map_id_fun, id_eq] at h1
    rw [tokensOf_lexed, tokensOf_lexed, h1]

/-- **C28** (3). Comments added between tokens, with whitespace before them, change no token if
comments are stripped. -/
theorem comments_irrelevant {a f b : Text} {s : UInt8} (h : BoundaryAt a b) (hs : isSpace s = true) (hf : Filler f) :
    tokensOf (a ++ (s :: f ++ b)) true = tokensOf (a ++ b) true := by
  have h1 := lexed_boundary (f := f) (List.filter fun t => !t.isComment)
    (by intro t ts ts' h; simp only [List.filter_cons]; split <;> simp [h]) hs h
    (lexed_filler (.space hs hf))
  rw [tokensOf_lexed, tokensOf_lexed]
  simp only [if_true]
  exact h1

theorem cuts_boundary_aux {before inp : Text} {ps : List Place} (h : Cuts StrExtent before inp ps) :
    ∀ p ∈ ps, ∃ mid post, p.before = before ++ mid ∧ inp = mid ++ (p.text ++ post) ∧ BoundaryAt mid (p.text ++ post) := by
  induction h with
  | nil => simp
  | openComment => simp
  | @space before c inp ps hs _ ih =>
    intro p hp
    obtain ⟨mid, post, h1, h2, h3⟩ := ih p hp
    exact ⟨c :: mid, post, by simp [h1], by simp [h2], .space hs h3⟩
  | @tok before tok text rest ps hl hm hn hc ih =>
    intro p hp
    rcases List.mem_cons.mp hp with rfl | hp
    · exact ⟨[], rest, by simp, rfl, .here⟩
    · obtain ⟨mid, post, h1, h2, h3⟩ := ih p hp
      refine ⟨text ++ mid, post, by simp [h1], by simp [h2], .tok hl (by rw [← h2]; exact hm) (by rw [← h2]; exact hn) ?_ h3⟩
      intro he
      have hp' : p.text ≠ [] := by
        have : ∀ {b i qs}, Cuts StrExtent b i qs → ∀ q ∈ qs, q.text ≠ [] := by
          intro b i qs h
          induction h with
          | nil => simp
          | openComment => simp
          | space _ _ ih => exact ih
          | tok hl _ _ _ ih =>
            intro q hq
            rcases List.mem_cons.mp hq with rfl | hq
            · obtain ⟨c, cs, h, _⟩ := hl.cls.nonempty
              simp only; rw [h]; simp
            · exact ih q hq
        exact this hc p hp
      simp [hp'] at he

/-- **C28** (4). The places where C28 (2) and (3) allow whitespace and comments include those before every token of an
accepted source. -/
theorem before_tokens_boundary {inp : Text} {ps : List Place} (h : Cuts StrExtent [] inp ps) :
    ∀ p ∈ ps, ∃ post, inp = p.before ++ (p.text ++ post) ∧ BoundaryAt p.before (p.text ++ post) := by
  intro p hp
  obtain ⟨mid, post, h1, h2, h3⟩ := cuts_boundary_aux h p hp
  simp only [List.nil_append] at h1
  rw [h1]
  exact ⟨post, h2, h3⟩

/-! ## C29: printing -/

/-- Printing a token gives its spelling, then possibly a space. -/
theorem show_fixed {tok : Token} {w : String} (h : fixedText tok = some w) :
    tok.show = ascii w ∨ tok.show = ascii w ++ [byte ' '] := by
  cases tok <;> simp only [fixedText, Option.some.injEq, reduceCtorEq] at h <;> subst h <;> decide +kernel

theorem longest_space {tok : Token} {text r : Text} {s : UInt8} (hl : Lexeme StrBody tok text) (hc : tok.isComment = false)
    (hs : isSpace s = true) : Longest StrBody text (text ++ s :: r) ∧ text ++ s :: r ≠ ascii "/*" := by
  refine ⟨?_, ?_⟩
  · intro tok' text' rest hl' he
    rcases Nat.lt_or_ge text.length text'.length with hlt | hge
    · exfalso
      have hpre : text <+: text' :=
        List.prefix_of_prefix_length_le (l₃ := text ++ s :: r) ⟨_, rfl⟩ ⟨rest, he.symm⟩ (Nat.le_of_lt hlt)
      obtain ⟨u, rfl⟩ := hpre
      cases u with
      | nil => simp at hlt
      | cons z u =>
        simp only [List.append_assoc, List.append_cancel_left_eq, List.cons_append, List.cons.injEq] at he
        obtain ⟨rfl, _⟩ := he
        obtain ⟨h1, _⟩ := extend (fun t v t' v' r r' ha hb hh => (StrBody_unique ha hb hh).1) hl hl'
        rcases h1 with h1 | ⟨h1, _⟩
        · rw [hs] at h1; cases h1
        · rw [hc] at h1; cases h1
    · exact hge
  · intro he
    have hab : ascii "/*" = [byte '/', byte '*'] := by decide +kernel
    rw [hab] at he
    have : s ∈ [byte '/', byte '*'] := by rw [← he]; simp
    simp only [List.mem_cons, List.not_mem_nil, or_false] at this
    rcases this with rfl | rfl <;> revert hs <;> decide

/-- A printed token followed by a space is read back. -/
theorem print_one {tok : Token} (hp : Printable tok) (before rest : Text) {toks : List Token}
    (hr : ∀ before, ∃ ps, Cuts StrBody before rest ps ∧ ps.map Place.token = toks ∧
      ∀ p ∈ ps, ∀ s, p.token = .string s → NoHexEscape p.text) :
    ∃ ps, Cuts StrBody before (tok.show ++ [byte ' '] ++ rest) ps ∧ ps.map Place.token = tok :: toks ∧
      ∀ p ∈ ps, ∀ s, p.token = .string s → NoHexEscape p.text := by
  have hsp : isSpace (byte ' ') = true := by decide
  -- a lexeme that is no comment, followed by spaces
  have simple : ∀ {text : Text} (before : Text), Lexeme StrBody tok text → tok.isComment = false →
      (∀ s, tok = .string s → NoHexEscape text) → (tok.show = text ∨ tok.show = text ++ [byte ' ']) →
      ∃ ps, Cuts StrBody before (tok.show ++ [byte ' '] ++ rest) ps ∧ ps.map Place.token = tok :: toks ∧
        ∀ p ∈ ps, ∀ s, p.token = .string s → NoHexEscape p.text := by
    intro text before hl hc hn hsh
    rcases hsh with hsh | hsh
    · obtain ⟨ps, h1, h2, h3⟩ := hr (before ++ text ++ [byte ' '])
      obtain ⟨h4, h5⟩ := longest_space (r := rest) hl hc hsp
      refine ⟨⟨tok, before, text⟩ :: ps, ?_, by simp [h2], ?_⟩
      · rw [hsh, List.append_assoc]
        exact .tok hl h4 h5 (.space hsp h1)
      · intro p hp
        rcases List.mem_cons.mp hp with rfl | hp
        · exact hn
        · exact h3 p hp
    · obtain ⟨ps, h1, h2, h3⟩ := hr (before ++ text ++ [byte ' '] ++ [byte ' '])
      obtain ⟨h4, h5⟩ := longest_space (r := byte ' ' :: rest) hl hc hsp
      refine ⟨⟨tok, before, text⟩ :: ps, ?_, by simp [h2], ?_⟩
      · rw [hsh, List.append_assoc, List.append_assoc]
        exact .tok hl h4 h5 (.space hsp (.space hsp h1))
      · intro p hp
        rcases List.mem_cons.mp hp with rfl | hp
        · exact hn
        · exact h3 p hp
  cases hf : fixedText tok with
  | some w =>
    have hcom : tok.isComment = false := by cases tok <;> first | rfl | simp [fixedText] at hf
    exact simple before (.fixed hf) hcom (by rintro s rfl; simp [fixedText] at hf) (show_fixed hf)
  | none =>
    cases tok with
    | ident s =>
      obtain ⟨h1, h2, h3⟩ := hp
      have : Lexeme StrBody (.ident s) (ascii s) := by
        have := Lexeme.ident (SB := StrBody) h1 (by rw [h2]; exact h3)
        rwa [h2] at this
      exact simple before this rfl (by intro s hs; cases hs) (.inl rfl)
    | int s =>
      obtain ⟨h2, h3⟩ := hp
      have : Lexeme StrBody (.int s) (ascii s) := by
        rcases h3 with ⟨h3, h4⟩ | ⟨ds, h3, h4⟩
        · have := Lexeme.dec (SB := StrBody) h3 h4
          rwa [h2] at this
        · have := Lexeme.hex (SB := StrBody) h4
          rwa [← h3, h2] at this
      exact simple before this rfl (by intro s hs; cases hs) (.inl rfl)
    | string v =>
      obtain ⟨h1, h2⟩ := hp
      have hb : ∀ {v : Text}, byte '"' ∉ v → byte '\\' ∉ v → StrBody v v := by
        intro v
        induction v with
        | nil => intro _ _; exact .nil
        | cons c v ih =>
          intro h1 h2
          simp only [List.mem_cons, not_or] at h1 h2
          exact .plain (Ne.symm h1.1) (Ne.symm h2.1) (ih h1.2 h2.2)
      refine simple before (.string (hb h1 h2)) rfl ?_ (.inl (by simp [Token.show]))
      intro s _ pre d e post he
      have : byte '\\' ∈ byte '"' :: (v ++ [byte '"']) := by rw [he]; simp
      simp only [List.mem_cons, List.mem_append, h2, List.not_mem_nil, or_false, false_or] at this
      exact absurd this (by decide)
    | commentLine t =>
      obtain ⟨ps, h1, h2, h3⟩ := hr (before ++ (byte '/' :: byte '/' :: (t ++ [byte '\n'])) ++ [byte ' '])
      have hlx := Lexeme.line (SB := StrBody) hp
      refine ⟨⟨.commentLine t, before, byte '/' :: byte '/' :: (t ++ [byte '\n'])⟩ :: ps, ?_, by simp [h2], ?_⟩
      · have hsh : Token.show (.commentLine t) ++ [byte ' '] ++ rest =
            (byte '/' :: byte '/' :: (t ++ [byte '\n'])) ++ (byte ' ' :: rest) := by
          have h1 : ascii "//" = [byte '/', byte '/'] := by decide +kernel
          have h2 : ascii "\n" = [byte '\n'] := by decide +kernel
          simp [Token.show, h1, h2]
        rw [hsh]
        refine .tok hlx ?_ ?_ (.space hsp h1)
        · have := line_longest (SB := StrBody) (rest := byte ' ' :: rest) hp
          simpa using this
        · cases t <;> simpa using slash2_ne _ _ _
      · intro p hp
        rcases List.mem_cons.mp hp with rfl | hp
        · intro s hs; cases hs
        · exact h3 p hp
    | commentBlock t =>
      obtain ⟨ps, h1, h2, h3⟩ := hr (before ++ (byte '/' :: byte '*' :: (t ++ [byte '*', byte '/'])) ++ [byte ' '] ++ [byte ' '])
      have hlx := Lexeme.block (SB := StrBody) hp
      refine ⟨⟨.commentBlock t, before, byte '/' :: byte '*' :: (t ++ [byte '*', byte '/'])⟩ :: ps, ?_, by simp [h2], ?_⟩
      · have hsh : Token.show (.commentBlock t) ++ [byte ' '] ++ rest =
            (byte '/' :: byte '*' :: (t ++ [byte '*', byte '/'])) ++ (byte ' ' :: byte ' ' :: rest) := by
          have h1 : ascii "/*" = [byte '/', byte '*'] := by decide +kernel
          have h2 : ascii "*/ " = [byte '*', byte '/', byte ' '] := by decide +kernel
          simp [Token.show, h1, h2]
        rw [hsh]
        refine .tok hlx ?_ ?_ (.space hsp (.space hsp h1))
        · have := block_longest (SB := StrBody) (t := t) (rest := byte ' ' :: byte ' ' :: rest)
          simpa using this
        · cases t <;> simpa using slash2_ne _ _ _
      · intro p hp
        rcases List.mem_cons.mp hp with rfl | hp
        · intro s hs; cases hs
        · exact h3 p hp
    | _ => simp [fixedText] at hf

theorem print_cuts {toks : List Token} (h : ∀ t ∈ toks, Printable t) : ∀ before,
    ∃ ps, Cuts StrBody before (printAll toks) ps ∧ ps.map Place.token = toks ∧
      ∀ p ∈ ps, ∀ s, p.token = .string s → NoHexEscape p.text := by
  induction toks with
  | nil => intro before; exact ⟨[], .nil, rfl, by simp⟩
  | cons t toks ih =>
    intro before
    have := print_one (h t (by simp)) before (printAll toks) (ih fun x hx => h x (by simp [hx]))
    simpa [printAll] using this

/-- **C29** (1). Tokens written one after another, separated by spaces, are read back unchanged, if they are tokens
that a source can contain and their strings hold neither quotes nor backslashes. -/
theorem print_read_partial {toks : List Token} (h : ∀ t ∈ toks, Printable t) :
    tokensOf (printAll toks) false = some toks := by
  obtain ⟨ps, h1, h2, h3⟩ := print_cuts h []
  obtain ⟨ts, h4, h5⟩ := tokenize_accepts_partial h1 h3
  unfold tokensOf
  rw [h4]
  simp only
  rw [h5, h2]

/-- **C29** (2), violated: a string that holds a quote is written without escape and not read back. -/
theorem print_string_finding : tokensOf (ascii "\"a\\\"b\"") false = some [.string (ascii "a\"b")] ∧
    tokensOf (printAll [.string (ascii "a\"b")]) false = none := by
  constructor <;> decide +kernel

/-! ## C30: positions -/

theorem tokenLines_count {tok : Token} {text : Text} (h : Lexeme StrExtent tok text)
    (h1 : ∀ s, tok = .string s → byte '\n' ∉ text) (h2 : ∀ s, tok = .commentLine s → byte '\n' ∈ text) :
    tokenLines tok = text.count (byte '\n') := by
  cases h with
  | @fixed tok w hf =>
    have hw : ∀ p ∈ keywords ++ operators ++ [("/", Token.div)], byte '\n' ∉ ascii p.1 := by decide +kernel
    have : byte '\n' ∉ ascii w := by
      rcases fixed_tables hf with hk | ho | hd
      · exact hw (w, tok) (by simp [hk])
      · exact hw (w, tok) (by simp [ho])
      · subst hd
        simp only [fixedText, Option.some.injEq] at hf
        subst hf
        exact hw ("/", .div) (by simp)
    rw [List.count_eq_zero_of_not_mem this]
    cases tok <;> first | rfl | simp [fixedText] at hf
  | ident h _ =>
    obtain ⟨c, cs, rfl, h3, h4⟩ := h
    rw [List.count_eq_zero_of_not_mem]
    · rfl
    · intro hm
      rcases List.mem_cons.mp hm with rfl | hm
      · revert h3; decide
      · have := h4 _ hm; revert this; decide
  | dec _ h =>
    rw [List.count_eq_zero_of_not_mem]
    · rfl
    · exact space_free (by decide) h
  | @hex t h =>
    rw [List.count_eq_zero_of_not_mem]
    · rfl
    · have := space_free (p := isHex) (by decide) h
      simp only [List.mem_cons, this, or_false, not_or]
      exact ⟨by decide, by decide⟩
  | string => rw [List.count_eq_zero_of_not_mem (h1 _ rfl)]; rfl
  | @line t h =>
    simp only [tokenLines, List.count_cons, List.count_append, List.count_eq_zero_of_not_mem h]
    decide
  | @lineEnd t h =>
    have := h2 _ rfl
    simp only [List.mem_cons, h, or_false] at this
    exact absurd this (by decide)
  | @block t h =>
    have h1 : List.count (byte '\n') [byte '*', byte '/'] = 0 := by decide
    have h2 : (byte '/' == byte '\n') = false := by decide
    have h3 : (byte '*' == byte '\n') = false := by decide
    simp only [tokenLines, List.count_cons, List.count_append, h1, h2, h3]
    simp [List.count_eq_countP]
  | @blockEnd t _ h =>
    have h2 : (byte '/' == byte '\n') = false := by decide
    have h3 : (byte '*' == byte '\n') = false := by decide
    simp only [tokenLines, List.count_cons, h2, h3]
    simp [List.count_eq_countP]

/-- A token on a line after the first, with no line break inside an earlier comment or string, none in itself if it is a
string, and not a line comment at the end of the source. -/
structure Plain (ps : List Place) (p : Place) : Prop where
  later : byte '\n' ∈ p.before
  earlier : ∀ q ∈ ps, q.before.length < p.before.length → byte '\n' ∉ q.text
  string : ∀ s, p.token = .string s → byte '\n' ∉ p.text
  comment : ∀ s, p.token = .commentLine s → byte '\n' ∈ p.text

theorem cuts_lexeme {SB : Text → Text → Prop} {before inp : Text} {ps : List Place} (h : Cuts SB before inp ps) :
    ∀ p ∈ ps, Lexeme SB p.token p.text := by
  induction h with
  | nil => simp
  | openComment => simp
  | space _ _ ih => exact ih
  | tok hl _ _ _ ih =>
    intro p hp
    rcases List.mem_cons.mp hp with rfl | hp
    · exact hl
    · exact ih p hp

theorem cuts_before_sub {SB : Text → Text → Prop} {before inp : Text} {ps : List Place} (h : Cuts SB before inp ps) :
    ∀ q ∈ ps, ∀ p ∈ ps, q.before.length < p.before.length → ∀ x ∈ q.text, x ∈ p.before := by
  have hpre : ∀ {before inp ps}, Cuts SB before inp ps → ∀ p ∈ ps, before <+: p.before := by
    intro before inp ps h
    induction h with
    | nil => simp
    | openComment => simp
    | space _ _ ih => intro p hp; exact (List.prefix_append _ _).trans (ih p hp)
    | tok _ _ _ _ ih =>
      intro p hp
      rcases List.mem_cons.mp hp with rfl | hp
      · exact List.prefix_refl _
      · exact (List.prefix_append _ _).trans (ih p hp)
  induction h with
  | nil => simp
  | openComment => simp
  | space _ _ ih => exact ih
  | @tok before tok text rest ps hl hm hn hc ih =>
    intro q hq p hp hlt x hx
    rcases List.mem_cons.mp hq with rfl | hq
    · rcases List.mem_cons.mp hp with rfl | hp
      · simp at hlt
      · exact (hpre hc p hp).subset (by simp at hx ⊢; exact .inr hx)
    · rcases List.mem_cons.mp hp with rfl | hp
      · have := (hpre hc q hq).length_le
        simp at this hlt
        omega
      · exact ih q hq p hp hlt x hx

/-- **C30** (1). Positions are exact for tokens on later lines that no line break in a comment or string precedes; in all
cases the columns of a token are as many as its text has bytes. On the first line the columns are 64 too large. -/
theorem spans_exact_partial {inp : Text} {toks : List STok} (h : tokenize inp false = .ok toks) :
    ∃ ps, Cuts StrExtent [] inp ps ∧ toks.length = ps.length ∧ ∀ tp ∈ toks.zip ps,
      tp.1.token = tp.2.token ∧ tp.1.span.colStop = tp.1.span.colStart + tp.2.text.length ∧
      (Plain ps tp.2 → ExactSpan tp.2 tp.1.span) ∧
      (byte '\n' ∉ tp.2.before → tp.1.span.lineStart = 1 ∧ tp.1.span.colStart = colOf tp.2.before + 64) := by
  rw [tokenize_false] at h
  obtain ⟨ps, h1, h2, h3⟩ := tokLoop_sound _ _ [] _ _ True h rfl (by intro _; exact ⟨rfl, rfl⟩)
  refine ⟨ps, h1, h2, ?_⟩
  intro tp htp
  have hr := h3 tp htp
  have hmem : tp.2 ∈ ps := (List.of_mem_zip htp).2
  refine ⟨hr.token, hr.width, ?_, ?_⟩
  · intro hp
    obtain ⟨h4, h5⟩ := hr.pos trivial hp.earlier
    rw [if_pos hp.later] at h5
    refine ⟨h4, ?_, h5, ?_⟩
    · rw [hr.height, h4, lineOf_text, tokenLines_count (cuts_lexeme h1 _ hmem) hp.string hp.comment]
    · rw [hr.width, h5]
  · intro hn
    obtain ⟨h4, h5⟩ := hr.pos trivial (by
      intro q hq hlt hm
      obtain ⟨post, h6, h7⟩ := before_tokens_boundary h1 tp.2 hmem
      exact hn (cuts_before_sub h1 q hq tp.2 hmem hlt _ hm))
    rw [if_neg hn] at h5
    refine ⟨?_, h5⟩
    rw [h4, lineOf, List.count_eq_zero_of_not_mem hn]

/-- **C30** (2), violated: the first token of a source is reported at column 65 (`index` starts at `064`). -/
theorem first_line_finding : tokenize (ascii "a") false = .ok [⟨.ident "a", ⟨1, 1, 65, 66⟩⟩] := by decide +kernel

/-- **C30** (3), violated: after a comment with a line break the columns go on from the line where the comment started. -/
theorem comment_column_finding : tokenize (ascii "\n/*\n*/a") true = .ok [⟨.ident "a", ⟨3, 3, 6, 7⟩⟩] ∧
    colOf (ascii "\n/*\n*/") = 3 := by decide +kernel

/-- **C30** (4), violated: a line break inside a string is not counted. -/
theorem string_line_finding : tokenize (ascii "\n\"\n\"a") false =
    .ok [⟨.string [10], ⟨2, 2, 1, 4⟩⟩, ⟨.ident "a", ⟨2, 2, 4, 5⟩⟩] ∧ lineOf (ascii "\n\"\n\"") = 3 := by decide +kernel

/-- Spec: the span from the start of `a` to the end of `b`. -/
def Span.through (a b : Span) : Span := ⟨a.lineStart, b.lineStop, a.colStart, b.colStop⟩

/-- **C30** (5). Joining the spans of two tokens, the second after the first, gives the span through both, if the second
starts on a later line or everything is on one line. -/
theorem span_add_partial {a b : Span} (ha : a.lineStart ≤ a.lineStop) (hb : b.lineStart ≤ b.lineStop)
    (hab : a.lineStop ≤ b.lineStart)
    (hc : a.lineStart = b.lineStop → a.colStart ≤ b.colStart ∧ a.colStop ≤ b.colStop)
    (hl : a.lineStart < b.lineStart ∨ a.lineStart = b.lineStop) : a.add b = Span.through a b := by
  unfold Span.add Span.through
  by_cases h : a.lineStart = b.lineStop
  · rw [if_pos h]
    obtain ⟨h1, h2⟩ := hc h
    have h3 : a.lineStop = b.lineStop := by omega
    rw [h3, Nat.min_eq_left h1, Nat.max_eq_right h2]
  · rw [if_neg h, if_pos (by omega)]

/-- **C30** (6), violated: if the second span starts on the line of the first and ends on a later one, the result starts
where the second starts and ends where the first ends. -/
theorem span_add_finding {a b : Span} (h1 : a.lineStart = b.lineStart) (h2 : b.lineStart < b.lineStop) :
    a.add b = Span.through b a := by
  unfold Span.add Span.through
  rw [if_neg (by omega), if_neg (by omega)]

/-! ## Examples -/

/-- A source with most kinds of tokens. -/
example : tokensOf (ascii "type a = u8; // c\nconst x: i32 = 0x1F >>> 2 /* d */ ;") true =
    some [.type, .ident "a", .equal, .u8, .semicolon, .const, .ident "x", .colon, .i32, .equal, .int "0x1F",
      .shrSigned, .int "2", .semicolon] := by decide +kernel

/-- The hypothesis of C26 (3) and C28 on a source: it is cut at the spaces. -/
example : ∃ ps, Cuts StrExtent [] (ascii "type a = u8;") ps ∧ ps.length = 5 := by
  have h : ∃ toks, tokenize (ascii "type a = u8;") false = .ok toks ∧ toks.length = 5 := ⟨_, rfl, by decide +kernel⟩
  obtain ⟨toks, h1, h2⟩ := h
  obtain ⟨ps, h3, h4, _⟩ := tokenize_cuts h1
  refine ⟨ps, h3, ?_⟩
  have := congrArg List.length h4
  simp only [List.length_map] at this
  omega

/-- C28 on a source: between `a` and `=` there may be whitespace and a comment. -/
example : tokensOf (ascii "a" ++ (byte ' ' :: ascii "// no\n" ++ ascii "=1")) true = tokensOf (ascii "a" ++ ascii "=1") true := by
  refine comments_irrelevant ?_ (by decide) ?_
  · have h : ascii "a" = [byte 'a'] ++ [] := by decide +kernel
    rw [h]
    refine .tok (tok := .ident (ofAscii [byte 'a'])) ?_ ?_ (by decide +kernel) (by intro h; exact absurd h (by decide +kernel)) .here
    · have := identToken_lexeme (SB := StrExtent) (t := [byte 'a']) ⟨_, _, rfl, by decide, by simp⟩
      have h2 : identToken [byte 'a'] = .ident (ofAscii [byte 'a']) := by decide +kernel
      rwa [h2] at this
    · have := word_longest (SB := StrExtent) (c := byte 'a') (cs := ascii "=1") (by decide)
      have h2 : (ascii "=1").takeWhile isIdentPart = [] := by decide +kernel
      rw [h2] at this
      exact this
  · have h : ascii "// no\n" = byte '/' :: byte '/' :: (ascii " no" ++ byte '\n' :: []) := by decide +kernel
    rw [h]
    exact .line (by decide +kernel) .nil

/-- C29 on some tokens. -/
example : tokensOf (printAll [.ident "x", .colon, .u8, .shr, .string (ascii "hi"), .int "12", .commentLine (ascii "c")]) false =
    some [.ident "x", .colon, .u8, .shr, .string (ascii "hi"), .int "12", .commentLine (ascii "c")] := by
  apply print_read_partial
  intro t ht
  simp only [List.mem_cons, List.not_mem_nil, or_false] at ht
  rcases ht with rfl | rfl | rfl | rfl | rfl | rfl | rfl
  · refine ⟨⟨byte 'x', [], by decide +kernel, by decide, by simp⟩, by decide +kernel, ?_⟩
    rintro ⟨tok, h⟩
    cases tok <;> simp [fixedText] at h
  · trivial
  · trivial
  · trivial
  · exact ⟨by decide +kernel, by decide +kernel⟩
  · exact ⟨by decide +kernel, .inl ⟨by decide +kernel, by decide +kernel⟩⟩
  · show byte '\n' ∉ ascii "c"
    decide +kernel

/-- C30 on a source: the second line is reported exactly. -/
example : tokenize (ascii "a\n  b") false = .ok [⟨.ident "a", ⟨1, 1, 65, 66⟩⟩, ⟨.ident "b", ⟨2, 2, 3, 4⟩⟩] := by
  decide +kernel

end Verif.Props
