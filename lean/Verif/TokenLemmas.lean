import Verif.TokenTables
/-!
# The tokenizer takes one longest lexeme at a time
-/
namespace Verif.Props

/-! ## Strings -/

/-- The scan that `StrBody` describes, as a function. -/
def strScan : Text → Option (Text × Text)
  | [] => none
  | c :: cs =>
    if c = byte '\\' then
      match cs with
      | [] => none
      | d :: ds =>
        if isHex d then
          match ds with
          | [] => none
          | e :: es =>
            if isHex e then (strScan es).map fun p => (p.1, (16 * hexVal d + hexVal e) :: p.2)
            else (strScan (e :: es)).map fun p => (p.1, hexVal d :: p.2)
        else (strScan ds).map fun p => (p.1, d :: p.2)
    else if c = byte '"' then some (cs, [])
    else (strScan cs).map fun p => (p.1, c :: p.2)

theorem bslash_ne_quote : ¬ (byte '\\' = byte '"') := by decide

theorem quote_not_hex : isHex (byte '"') = false := by decide

theorem hex_plain (b : UInt8) (h : isHex b = true) : b ≠ byte '"' ∧ b ≠ byte '\\' := by
  have := u8_forall (fun b => decide (isHex b = true → b ≠ byte '"' ∧ b ≠ byte '\\')) (by decide +kernel) b
  exact of_decide_eq_true this h

theorem tbind {ε α β} {x : Except ε α} {f : α → Except ε β} {r : β} (h : (x >>= f) = .ok r) :
    ∃ a, x = .ok a ∧ f a = .ok r := by
  cases x with
  | error e => cases h
  | ok a => exact ⟨a, rfl, h⟩

theorem strScan_hex2 {d e : UInt8} (es : Text) (hd : isHex d = true) (he : isHex e = true) :
    strScan (byte '\\' :: d :: e :: es) = (strScan es).map fun p => (p.1, (16 * hexVal d + hexVal e) :: p.2) := by
  rw [strScan.eq_def]; simp [hd, he]
theorem strScan_hex1 {d e : UInt8} (es : Text) (hd : isHex d = true) (he : isHex e = false) :
    strScan (byte '\\' :: d :: e :: es) = (strScan (e :: es)).map fun p => (p.1, hexVal d :: p.2) := by
  rw [strScan.eq_def]; simp [hd, he]
theorem strScan_esc {d : UInt8} (ds : Text) (hd : isHex d = false) :
    strScan (byte '\\' :: d :: ds) = (strScan ds).map fun p => (p.1, d :: p.2) := by
  rw [strScan.eq_def]; simp [hd]
theorem strScan_quote (cs : Text) : strScan (byte '"' :: cs) = some (cs, []) := by
  rw [strScan.eq_def]; simp [show ¬ byte '"' = byte '\\' by decide]
theorem strScan_plain {c : UInt8} (cs : Text) (h1 : c ≠ byte '\\') (h2 : c ≠ byte '"') :
    strScan (c :: cs) = (strScan cs).map fun p => (p.1, c :: p.2) := by
  rw [strScan.eq_def]; simp [h1, h2]

theorem strLoop_hex2 {d e f : UInt8} (fs : Text) (hd : isHex d = true) (he : isHex e = true) (hf : isHex f = true) :
    strLoop (byte '\\' :: d :: e :: f :: fs) =
      (strLoop (f :: fs) >>= fun r => .ok (r.map fun p => (p.1, (16 * hexVal e + hexVal f) :: p.2))) := by
  rw [strLoop.eq_def]; simp [hd, he, hf]
theorem strLoop_panic {d e f : UInt8} (fs : Text) (hd : isHex d = true) (he : isHex e = true) (hf : isHex f = false) :
    strLoop (byte '\\' :: d :: e :: f :: fs) = .error .panic := by
  rw [strLoop.eq_def]; simp [hd, he, hf]
theorem strLoop_hex1 {d e : UInt8} (es : Text) (hd : isHex d = true) (he : isHex e = false) :
    strLoop (byte '\\' :: d :: e :: es) =
      (strLoop (e :: es) >>= fun r => .ok (r.map fun p => (p.1, hexVal d :: p.2))) := by
  rw [strLoop.eq_def]; simp [hd, he]
theorem strLoop_esc {d : UInt8} (ds : Text) (hd : isHex d = false) :
    strLoop (byte '\\' :: d :: ds) = (strLoop ds >>= fun r => .ok (r.map fun p => (p.1, d :: p.2))) := by
  rw [strLoop.eq_def]; simp [hd]
theorem strLoop_quote (cs : Text) : strLoop (byte '"' :: cs) = .ok (some (cs, [])) := by
  rw [strLoop.eq_def]; simp [show ¬ byte '"' = byte '\\' by decide]
theorem strLoop_plain {c : UInt8} (cs : Text) (h1 : c ≠ byte '\\') (h2 : c ≠ byte '"') :
    strLoop (c :: cs) = (strLoop cs >>= fun r => .ok (r.map fun p => (p.1, c :: p.2))) := by
  rw [strLoop.eq_def]; simp [h1, h2]

theorem strScan_sound : ∀ (cs : Text) (rest v : Text), strScan cs = some (rest, v) →
    ∃ t, cs = t ++ byte '"' :: rest ∧ StrBody t v := by
  intro cs
  induction cs using strScan.induct with
  | case1 => intro rest v h; simp [strScan] at h
  | case2 => intro rest v h; simp [strScan] at h
  | case3 d hd => intro rest v h; simp [strScan, hd] at h
  | case4 d hd e es he ih =>
    intro rest v h
    rw [strScan_hex2 _ hd he] at h
    simp only [Option.map_eq_some_iff] at h
    obtain ⟨p, h1, h2⟩ := h
    cases h2
    obtain ⟨t, h3, h4⟩ := ih _ _ h1
    exact ⟨byte '\\' :: d :: e :: t, by simp [h3], .hex2 hd he h4⟩
  | case5 d hd e es he ih =>
    intro rest v h
    rw [strScan_hex1 _ hd (by simpa using he)] at h
    simp only [Option.map_eq_some_iff] at h
    obtain ⟨p, h1, h2⟩ := h
    cases h2
    obtain ⟨t, h3, h4⟩ := ih _ _ h1
    refine ⟨byte '\\' :: d :: t, by simp [h3], .hex1 hd ?_ h4⟩
    intro e' t' ht
    subst ht
    simp only [List.cons_append, List.cons.injEq] at h3
    rw [← h3.1]; simpa using he
  | case6 d ds hd ih =>
    intro rest v h
    rw [strScan_esc _ (by simpa using hd)] at h
    simp only [Option.map_eq_some_iff] at h
    obtain ⟨p, h1, h2⟩ := h
    cases h2
    obtain ⟨t, h3, h4⟩ := ih _ _ h1
    exact ⟨byte '\\' :: d :: t, by simp [h3], .escape (by simpa using hd) h4⟩
  | case7 cs h0 =>
    intro rest v h
    rw [strScan_quote] at h
    simp only [Option.some.injEq, Prod.mk.injEq] at h
    obtain ⟨rfl, rfl⟩ := h
    exact ⟨[], rfl, .nil⟩
  | case8 c cs h1 h2 ih =>
    intro rest v h
    rw [strScan_plain _ h1 h2] at h
    simp only [Option.map_eq_some_iff] at h
    obtain ⟨p, h3, h4⟩ := h
    cases h4
    obtain ⟨t, h5, h6⟩ := ih _ _ h3
    exact ⟨c :: t, by simp [h5], .plain h2 h1 h6⟩

theorem strScan_complete {t v : Text} (h : StrBody t v) (rest : Text) :
    strScan (t ++ byte '"' :: rest) = some (rest, v) := by
  induction h with
  | nil => exact strScan_quote _
  | plain h1 h2 _ ih => rw [List.cons_append, strScan_plain _ h2 h1, ih]; rfl
  | escape h1 _ ih => rw [List.cons_append, List.cons_append, strScan_esc _ h1, ih]; rfl
  | @hex1 d t v h1 h2 _ ih =>
    cases t with
    | nil =>
      simp only [List.nil_append] at ih
      rw [List.cons_append, List.cons_append, List.nil_append, strScan_hex1 _ h1 quote_not_hex, ih]; rfl
    | cons e t' =>
      have h3 := h2 e t' rfl
      simp only [List.cons_append] at ih ⊢
      rw [strScan_hex1 _ h1 h3, ih]; rfl
  | hex2 h1 h2 _ ih =>
    rw [List.cons_append, List.cons_append, List.cons_append, strScan_hex2 _ h1 h2, ih]; rfl

theorem StrBody_unique {t v t' v' r r' : Text} (h : StrBody t v) (h' : StrBody t' v')
    (he : t ++ byte '"' :: r = t' ++ byte '"' :: r') : t = t' ∧ v = v' := by
  have h1 := strScan_complete h r
  have h2 := strScan_complete h' r'
  rw [he, h2] at h1
  simp only [Option.some.injEq, Prod.mk.injEq] at h1
  obtain ⟨rfl, rfl⟩ := h1
  exact ⟨List.append_cancel_right he, rfl⟩

/-- The extent the code finds is right whenever it does not panic. -/
theorem strLoop_extent : ∀ (cs : Text) (o : Option (Text × Text)), strLoop cs = .ok o →
    o.map Prod.fst = (strScan cs).map Prod.fst := by
  intro cs
  induction cs using strLoop.induct with
  | case1 => intro o h; cases h; rfl
  | case2 => intro o h; simp [strLoop] at h; cases h; simp [strScan]
  | case3 d hd => intro o h; simp [strLoop, hd] at h; cases h; simp [strScan, hd]
  | case4 d hd e he => intro o h; simp [strLoop, hd, he] at h
  | case5 d hd e he f fs hf ih =>
    intro o h
    rw [strLoop_hex2 _ hd he hf] at h
    obtain ⟨r, h1, h2⟩ := tbind h
    cases h2
    have := ih _ h1
    rw [strScan_hex2 _ hd he, Option.map_map, Option.map_map]
    exact this
  | case6 d hd e he f fs hf =>
    intro o h
    rw [strLoop_panic _ hd he (by simpa using hf)] at h
    cases h
  | case7 d hd e es he ih =>
    intro o h
    rw [strLoop_hex1 _ hd (by simpa using he)] at h
    obtain ⟨r, h1, h2⟩ := tbind h
    cases h2
    have := ih _ h1
    rw [strScan_hex1 _ hd (by simpa using he), Option.map_map, Option.map_map]
    exact this
  | case8 d ds hd ih =>
    intro o h
    rw [strLoop_esc _ (by simpa using hd)] at h
    obtain ⟨r, h1, h2⟩ := tbind h
    cases h2
    have := ih _ h1
    rw [strScan_esc _ (by simpa using hd), Option.map_map, Option.map_map]
    exact this
  | case9 cs h0 => intro o h; rw [strLoop_quote] at h; cases h; rw [strScan_quote]
  | case10 c cs h1 h2 ih =>
    intro o h
    rw [strLoop_plain _ h1 h2] at h
    obtain ⟨r, h3, h4⟩ := tbind h
    cases h4
    have := ih _ h3
    rw [strScan_plain _ h1 h2, Option.map_map, Option.map_map]
    exact this

theorem NoHexEscape.tail {c : UInt8} {cs : Text} (h : NoHexEscape (c :: cs)) : NoHexEscape cs := by
  intro pre d e post he
  exact h (c :: pre) d e post (by simp [he])

theorem NoHexEscape.drop {a b : Text} (h : NoHexEscape (a ++ b)) : NoHexEscape b := by
  intro pre d e post he
  exact h (a ++ pre) d e post (by simp [he])

/-- Without two-digit escapes the code reads strings exactly. -/
theorem strLoop_exact : ∀ (cs : Text), NoHexEscape cs → strLoop cs = .ok (strScan cs) := by
  intro cs
  induction cs using strLoop.induct with
  | case1 => intro h; rfl
  | case2 => intro h; simp [strLoop, strScan]
  | case3 d hd => intro h; simp [strLoop, strScan, hd]
  | case4 d hd e he => intro h; exact absurd ⟨hd, he⟩ (h [] d e [] rfl)
  | case5 d hd e he f fs hf ih => intro h; exact absurd ⟨hd, he⟩ (h [] d e (f :: fs) rfl)
  | case6 d hd e he f fs hf => intro h; exact absurd ⟨hd, he⟩ (h [] d e (f :: fs) rfl)
  | case7 d hd e es he ih =>
    intro h
    rw [strLoop_hex1 _ hd (by simpa using he), ih h.tail.tail, strScan_hex1 _ hd (by simpa using he)]; rfl
  | case8 d ds hd ih =>
    intro h
    rw [strLoop_esc _ (by simpa using hd), ih h.tail.tail, strScan_esc _ (by simpa using hd)]; rfl
  | case9 cs h0 => intro h; rw [strLoop_quote, strScan_quote]
  | case10 c cs h1 h2 ih => intro h; rw [strLoop_plain _ h1 h2, ih h.tail, strScan_plain _ h1 h2]; rfl

/-- What the code makes of a string does not depend on what follows the closing quote. -/
theorem strLoop_local {t v : Text} (h : StrBody t v) :
    (∀ rest, strLoop (t ++ byte '"' :: rest) = .error .panic) ∨
    ∃ v', ∀ rest, strLoop (t ++ byte '"' :: rest) = .ok (some (rest, v')) := by
  induction h with
  | nil => exact .inr ⟨[], fun rest => strLoop_quote _⟩
  | @plain c t v h1 h2 _ ih =>
    rcases ih with ih | ⟨v', ih⟩
    · exact .inl fun rest => by rw [List.cons_append, strLoop_plain _ h2 h1, ih]; rfl
    · exact .inr ⟨c :: v', fun rest => by rw [List.cons_append, strLoop_plain _ h2 h1, ih]; rfl⟩
  | @escape c t v h1 _ ih =>
    rcases ih with ih | ⟨v', ih⟩
    · exact .inl fun rest => by rw [List.cons_append, List.cons_append, strLoop_esc _ h1, ih]; rfl
    · exact .inr ⟨c :: v', fun rest => by rw [List.cons_append, List.cons_append, strLoop_esc _ h1, ih]; rfl⟩
  | @hex1 d t v h1 h2 _ ih =>
    have step : ∀ rest, strLoop (byte '\\' :: d :: t ++ byte '"' :: rest) =
        (strLoop (t ++ byte '"' :: rest) >>= fun r => .ok (r.map fun p => (p.1, hexVal d :: p.2))) := by
      intro rest
      cases t with
      | nil => exact strLoop_hex1 _ h1 quote_not_hex
      | cons e t' => exact strLoop_hex1 _ h1 (h2 e t' rfl)
    rcases ih with ih | ⟨v', ih⟩
    · exact .inl fun rest => by rw [step, ih]; rfl
    · exact .inr ⟨hexVal d :: v', fun rest => by rw [step, ih]; rfl⟩
  | @hex2 d e t v h1 h2 _ ih =>
    cases t with
    | nil => exact .inl fun rest => strLoop_panic _ h1 h2 quote_not_hex
    | cons f t' =>
      cases hf : isHex f with
      | false => exact .inl fun rest => strLoop_panic _ h1 h2 hf
      | true =>
        rcases ih with ih | ⟨v', ih⟩
        · exact .inl fun rest => by
            have := strLoop_hex2 (t' ++ byte '"' :: rest) h1 h2 hf
            have h3 := ih rest
            simp only [List.cons_append] at h3 ⊢
            rw [this, h3]; rfl
        · exact .inr ⟨(16 * hexVal e + hexVal f) :: v', fun rest => by
            have := strLoop_hex2 (t' ++ byte '"' :: rest) h1 h2 hf
            have h3 := ih rest
            simp only [List.cons_append] at h3 ⊢
            rw [this, h3]; rfl⟩

/-! ## Lexemes by first byte -/

theorem ascii_ofAscii (t : Text) : ascii (ofAscii t) = t := by
  unfold ascii ofAscii
  rw [String.toList_ofList, List.map_map]
  conv => rhs; rw [← List.map_id t]
  apply List.map_congr_left
  intro b _
  have := u8_forall (fun b => decide (byte (Char.ofNat b.toNat) = b)) (by decide +kernel) b
  exact of_decide_eq_true this

theorem IsIdent.first {t : Text} (h : IsIdent t) : ∃ c cs, t = c :: cs ∧ isIdentStart c = true := by
  obtain ⟨c, cs, h1, h2, _⟩ := h
  exact ⟨c, cs, h1, h2⟩

theorem ident_not_op {t : Text} (h : IsIdent t) : ∀ p ∈ operators, ascii p.1 ≠ t := by
  intro p hp he
  obtain ⟨c, cs, h1, h2⟩ := h.first
  obtain ⟨c', cs', h3, h4, _⟩ := operators_start p hp
  rw [he, h1] at h3
  simp only [List.cons.injEq] at h3
  rw [← h3.1] at h4
  simp [opStart, h2] at h4

theorem kw_lookup_mem {s : String} {k : Token} : ∀ {l : List (String × Token)}, l.lookup s = some k → (s, k) ∈ l := by
  intro l
  induction l with
  | nil => intro h; simp at h
  | cons p l ih =>
    intro h
    obtain ⟨a, b⟩ := p
    rw [List.lookup_cons] at h
    split at h
    · rename_i hs
      simp only [Option.some.injEq] at h
      subst h
      have : s = a := by simpa using hs
      simp [this]
    · exact List.mem_cons_of_mem _ (ih h)

theorem identToken_lexeme {SB : Text → Text → Prop} {t : Text} (h : IsIdent t) : Lexeme SB (identToken t) t := by
  unfold identToken
  cases hl : keywords.lookup (ofAscii t) with
  | some k =>
    have hm := kw_lookup_mem hl
    have := tables_fixed _ (List.mem_append_left operators hm)
    have := Lexeme.fixed (SB := SB) this
    rwa [ascii_ofAscii] at this
  | none =>
    refine .ident h ?_
    rintro ⟨tok, htok⟩
    rcases fixed_tables htok with hk | ho | hd
    · rw [keywords_unique _ hk] at hl; cases hl
    · exact ident_not_op h _ ho (ascii_ofAscii t)
    · subst hd
      obtain ⟨c, cs, h1, h2⟩ := h.first
      simp only [fixedText, Option.some.injEq] at htok
      have := congrArg ascii htok
      rw [ascii_ofAscii, h1] at this
      have h3 : ascii "/" = [byte '/'] := by decide +kernel
      rw [h3] at this
      simp only [List.cons.injEq] at this
      rw [← this.1] at h2
      revert h2; decide

theorem ident_identToken {t : Text} (h : ¬ Reserved (ofAscii t)) : identToken t = .ident (ofAscii t) := by
  unfold identToken
  cases hl : keywords.lookup (ofAscii t) with
  | none => rfl
  | some k => exact absurd ⟨k, tables_fixed _ (List.mem_append_left operators (kw_lookup_mem hl))⟩ h

theorem keyword_identToken {w : String} {tok : Token} (h : (w, tok) ∈ keywords) : identToken (ascii w) = tok := by
  unfold identToken
  rw [(keywords_ident _ h).2, keywords_unique _ h]

/-- What a lexeme can be, by its first byte. -/
inductive Class (SB : Text → Text → Prop) (tok : Token) : Text → Prop
  | str {t v} : SB t v → tok = .string v → Class SB tok (byte '"' :: (t ++ [byte '"']))
  | int {c cs} : isDigit c = true → tok = .int (ofAscii (c :: cs)) →
      ((∀ x ∈ cs, isDigit x = true) ∨
        ∃ ds, c = byte '0' ∧ cs = byte 'x' :: ds ∧ ∀ x ∈ ds, isHex x = true) → Class SB tok (c :: cs)
  | div : tok = .div → Class SB tok [byte '/']
  | line {t} : byte '\n' ∉ t → tok = .commentLine t → Class SB tok (byte '/' :: byte '/' :: (t ++ [byte '\n']))
  | lineEnd {t} : byte '\n' ∉ t → tok = .commentLine t → Class SB tok (byte '/' :: byte '/' :: t)
  | block {t} : ¬ ClosesBlock t → tok = .commentBlock t →
      Class SB tok (byte '/' :: byte '*' :: (t ++ [byte '*', byte '/']))
  | blockEnd {t} : t ≠ [] → ¬ ClosesBlock t → tok = .commentBlock t → Class SB tok (byte '/' :: byte '*' :: t)
  | op {w c cs} : (w, tok) ∈ operators → ascii w = c :: cs → opStart c = true → Class SB tok (c :: cs)
  | word {c cs} : isIdentStart c = true → (∀ x ∈ cs, isIdentPart x = true) → tok = identToken (c :: cs) →
      Class SB tok (c :: cs)

theorem Lexeme.cls {SB : Text → Text → Prop} {tok : Token} {text : Text} (h : Lexeme SB tok text) : Class SB tok text := by
  cases h with
  | @fixed _ w h =>
    rcases fixed_tables h with hk | ho | hd
    · obtain ⟨c, cs, h1, h2, h3⟩ := (keywords_ident _ hk).1
      have h4 := keyword_identToken hk
      rw [show ascii w = c :: cs from h1] at h4 ⊢
      exact .word h2 h3 h4.symm
    · obtain ⟨c, cs, h1, h2, _⟩ := operators_start _ ho
      rw [show ascii w = c :: cs from h1]
      exact .op ho h1 h2
    · subst hd
      simp only [fixedText, Option.some.injEq] at h
      subst h
      exact .div rfl
  | ident h1 h2 =>
    obtain ⟨c, cs, rfl, h3, h4⟩ := h1
    exact .word h3 h4 (ident_identToken h2).symm
  | @dec t h1 h2 =>
    cases text with
    | nil => exact absurd rfl h1
    | cons c cs => exact .int (h2 c (by simp)) rfl (.inl fun x hx => h2 x (by simp [hx]))
  | hex h => exact .int (by decide) rfl (.inr ⟨_, rfl, rfl, h⟩)
  | string h => exact .str h rfl
  | line h => exact .line h rfl
  | lineEnd h => exact .lineEnd h rfl
  | block h => exact .block h rfl
  | blockEnd h1 h2 => exact .blockEnd h1 h2 rfl

/-- The first byte tells the classes apart. -/
theorem first_kinds (b : UInt8) :
    (opStart b = true → isSpace b = false ∧ b ≠ byte '"' ∧ isDigit b = false ∧ b ≠ byte '/' ∧ isIdentStart b = false) ∧
    (isIdentStart b = true → opStart b = false ∧ isSpace b = false ∧ b ≠ byte '"' ∧ isDigit b = false ∧ b ≠ byte '/') ∧
    (isDigit b = true → opStart b = false ∧ isSpace b = false ∧ b ≠ byte '"' ∧ isIdentStart b = false ∧ b ≠ byte '/') := by
  have := u8_forall (fun b => decide (
    (opStart b = true → isSpace b = false ∧ b ≠ byte '"' ∧ isDigit b = false ∧ b ≠ byte '/' ∧ isIdentStart b = false) ∧
    (isIdentStart b = true → opStart b = false ∧ isSpace b = false ∧ b ≠ byte '"' ∧ isDigit b = false ∧ b ≠ byte '/') ∧
    (isDigit b = true → opStart b = false ∧ isSpace b = false ∧ b ≠ byte '"' ∧ isIdentStart b = false ∧ b ≠ byte '/')))
    (by decide +kernel) b
  exact of_decide_eq_true this

theorem Class.nonempty {SB tok text} (h : Class SB tok text) : ∃ c cs, text = c :: cs ∧ isSpace c = false := by
  cases h with
  | str => exact ⟨_, _, rfl, by decide⟩
  | int h => exact ⟨_, _, rfl, ((first_kinds _).2.2 h).2.1⟩
  | div => exact ⟨_, _, rfl, by decide⟩
  | line => exact ⟨_, _, rfl, by decide⟩
  | lineEnd => exact ⟨_, _, rfl, by decide⟩
  | block => exact ⟨_, _, rfl, by decide⟩
  | blockEnd => exact ⟨_, _, rfl, by decide⟩
  | op _ _ h => exact ⟨_, _, rfl, ((first_kinds _).1 h).1⟩
  | word h => exact ⟨_, _, rfl, ((first_kinds _).2.1 h).2.1⟩

theorem slash_kinds : opStart (byte '/') = false ∧ isIdentStart (byte '/') = false ∧ isDigit (byte '/') = false ∧
    isSpace (byte '/') = false ∧ byte '/' ≠ byte '"' := by decide
theorem quote_kinds : opStart (byte '"') = false ∧ isIdentStart (byte '"') = false ∧ isDigit (byte '"') = false ∧
    isSpace (byte '"') = false ∧ byte '"' ≠ byte '/' := by decide

theorem Class.str_inv {SB tok cs} (h : Class SB tok (byte '"' :: cs)) :
    ∃ t v, SB t v ∧ tok = .string v ∧ cs = t ++ [byte '"'] := by
  generalize hx : byte '"' :: cs = x at h
  cases h with
  | str h1 h2 => simp only [List.cons.injEq, true_and] at hx; exact ⟨_, _, h1, h2, hx⟩
  | int h => simp only [List.cons.injEq] at hx; rw [← hx.1, quote_kinds.2.2.1] at h; cases h
  | div => simp [quote_kinds.2.2.2.2] at hx
  | line => simp [quote_kinds.2.2.2.2] at hx
  | lineEnd => simp [quote_kinds.2.2.2.2] at hx
  | block => simp [quote_kinds.2.2.2.2] at hx
  | blockEnd => simp [quote_kinds.2.2.2.2] at hx
  | op _ _ h => simp only [List.cons.injEq] at hx; rw [← hx.1, quote_kinds.1] at h; cases h
  | word h => simp only [List.cons.injEq] at hx; rw [← hx.1, quote_kinds.2.1] at h; cases h

theorem Class.int_inv {SB tok c cs} (h : Class SB tok (c :: cs)) (hc : isDigit c = true) :
    tok = .int (ofAscii (c :: cs)) ∧
      ((∀ x ∈ cs, isDigit x = true) ∨
        ∃ ds, c = byte '0' ∧ cs = byte 'x' :: ds ∧ ∀ x ∈ ds, isHex x = true) := by
  have hk := (first_kinds c).2.2 hc
  generalize hx : c :: cs = x at h
  cases h with
  | int h h1 h2 => simp only [List.cons.injEq] at hx; obtain ⟨rfl, rfl⟩ := hx; exact ⟨h1, h2⟩
  | str => simp [hk] at hx
  | div => simp [hk] at hx
  | line => simp [hk] at hx
  | lineEnd => simp [hk] at hx
  | block => simp [hk] at hx
  | blockEnd => simp [hk] at hx
  | op _ _ h => simp only [List.cons.injEq] at hx; rw [← hx.1, hk.1] at h; cases h
  | word h => simp only [List.cons.injEq] at hx; rw [← hx.1, hk.2.2.2.1] at h; cases h

theorem Class.op_inv {SB tok c cs} (h : Class SB tok (c :: cs)) (hc : opStart c = true) :
    ∃ w, (w, tok) ∈ operators ∧ ascii w = c :: cs := by
  have hk := (first_kinds c).1 hc
  generalize hx : c :: cs = x at h
  cases h with
  | op h1 h2 h3 => exact ⟨_, h1, h2⟩
  | str => simp [hk] at hx
  | div => simp [hk] at hx
  | line => simp [hk] at hx
  | lineEnd => simp [hk] at hx
  | block => simp [hk] at hx
  | blockEnd => simp [hk] at hx
  | int h => simp only [List.cons.injEq] at hx; rw [← hx.1, hk.2.2.1] at h; cases h
  | word h => simp only [List.cons.injEq] at hx; rw [← hx.1, hk.2.2.2.2] at h; cases h

theorem Class.word_inv {SB tok c cs} (h : Class SB tok (c :: cs)) (hc : isIdentStart c = true) :
    (∀ x ∈ cs, isIdentPart x = true) ∧ tok = identToken (c :: cs) := by
  have hk := (first_kinds c).2.1 hc
  generalize hx : c :: cs = x at h
  cases h with
  | word h1 h2 h3 => simp only [List.cons.injEq] at hx; obtain ⟨rfl, rfl⟩ := hx; exact ⟨h2, h3⟩
  | str => simp [hk] at hx
  | div => simp [hk] at hx
  | line => simp [hk] at hx
  | lineEnd => simp [hk] at hx
  | block => simp [hk] at hx
  | blockEnd => simp [hk] at hx
  | int h => simp only [List.cons.injEq] at hx; rw [← hx.1, hk.2.2.2.1] at h; cases h
  | op _ _ h => simp only [List.cons.injEq] at hx; rw [← hx.1, hk.1] at h; cases h

theorem Class.slash_inv {SB tok cs} (h : Class SB tok (byte '/' :: cs)) :
    (tok = .div ∧ cs = []) ∨
    (∃ t, byte '\n' ∉ t ∧ tok = .commentLine t ∧ (cs = byte '/' :: t ∨ cs = byte '/' :: (t ++ [byte '\n']))) ∨
    (∃ t, ¬ ClosesBlock t ∧ tok = .commentBlock t ∧
      ((t ≠ [] ∧ cs = byte '*' :: t) ∨ cs = byte '*' :: (t ++ [byte '*', byte '/']))) := by
  generalize hx : byte '/' :: cs = x at h
  cases h with
  | str => simp [slash_kinds.2.2.2.2] at hx
  | div h => simp at hx; exact .inl ⟨h, hx⟩
  | line h1 h2 => simp at hx; exact .inr (.inl ⟨_, h1, h2, .inr hx⟩)
  | lineEnd h1 h2 => simp at hx; exact .inr (.inl ⟨_, h1, h2, .inl hx⟩)
  | block h1 h2 => simp at hx; exact .inr (.inr ⟨_, h1, h2, .inr hx⟩)
  | blockEnd h0 h1 h2 => simp at hx; exact .inr (.inr ⟨_, h1, h2, .inl ⟨h0, hx⟩⟩)
  | int h => simp only [List.cons.injEq] at hx; rw [← hx.1, slash_kinds.2.2.1] at h; cases h
  | op _ _ h => simp only [List.cons.injEq] at hx; rw [← hx.1, slash_kinds.1] at h; cases h
  | word h => simp only [List.cons.injEq] at hx; rw [← hx.1, slash_kinds.2.1] at h; cases h

end Verif.Props
