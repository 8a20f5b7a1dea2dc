import Verif.TokenSpec
/-!
# Lemmas about the tokenizer
-/
namespace Verif.Props

/-! ## Bytes and tables -/

theorem u8_forall (p : UInt8 → Bool) (h : ((List.range 256).all fun n => p n.toUInt8) = true)
    (b : UInt8) : p b = true := by
  have := List.all_eq_true.mp h b.toNat (by simp; exact b.toNat_lt)
  simpa using this

/-- The kinds of first bytes. -/
theorem classes (b : UInt8) :
    (isSpace b = true → b ≠ byte '"' ∧ isDigit b = false ∧ b ≠ byte '/' ∧ isIdentStart b = false ∧ isIdentPart b = false ∧ isHex b = false) ∧
    (isDigit b = true → b ≠ byte '"' ∧ b ≠ byte '/' ∧ isIdentStart b = false ∧ isIdentPart b = true ∧ isHex b = true) ∧
    (isIdentStart b = true → b ≠ byte '"' ∧ b ≠ byte '/' ∧ isIdentPart b = true ∧ isDigit b = false ∧ isSpace b = false) := by
  have := u8_forall (fun b => decide (
    (isSpace b = true → b ≠ byte '"' ∧ isDigit b = false ∧ b ≠ byte '/' ∧ isIdentStart b = false ∧ isIdentPart b = false ∧ isHex b = false) ∧
    (isDigit b = true → b ≠ byte '"' ∧ b ≠ byte '/' ∧ isIdentStart b = false ∧ isIdentPart b = true ∧ isHex b = true) ∧
    (isIdentStart b = true → b ≠ byte '"' ∧ b ≠ byte '/' ∧ isIdentPart b = true ∧ isDigit b = false ∧ isSpace b = false)))
    (by decide +kernel) b
  exact of_decide_eq_true this

/-- First bytes of operators. -/
def opStart (b : UInt8) : Bool :=
  !isSpace b && b != byte '"' && !isDigit b && b != byte '/' && !isIdentStart b

theorem operators_start : ∀ p ∈ operators, ∃ c cs, ascii p.1 = c :: cs ∧ opStart c = true ∧
    ∀ x ∈ ascii p.1, isSpace x = false := by
  have h : operators.all (fun p => match ascii p.1 with
      | [] => false
      | c :: cs => opStart c && (c :: cs).all fun x => !isSpace x) = true := by decide +kernel
  intro p hp
  have := List.all_eq_true.mp h p hp
  cases ha : ascii p.1 with
  | nil => rw [ha] at this; cases this
  | cons c cs =>
    rw [ha] at this
    simp only [Bool.and_eq_true, List.all_eq_true] at this
    exact ⟨c, cs, rfl, this.1, fun x hx => by simpa using this.2 x hx⟩

theorem operators_order :
    operators.Pairwise fun a b => (ascii a.1).isPrefixOf (ascii b.1) = false := by
  decide +kernel

theorem keywords_ident : ∀ p ∈ keywords, IsIdent (ascii p.1) ∧ ofAscii (ascii p.1) = p.1 := by
  have h : keywords.all (fun p => (match ascii p.1 with
      | [] => false
      | c :: cs => isIdentStart c && cs.all isIdentPart) && ofAscii (ascii p.1) == p.1) = true := by
    decide +kernel
  intro p hp
  have := List.all_eq_true.mp h p hp
  simp only [Bool.and_eq_true, beq_iff_eq] at this
  refine ⟨?_, this.2⟩
  cases ha : ascii p.1 with
  | nil => rw [ha] at this; cases this.1
  | cons c cs =>
    rw [ha] at this
    simp only [Bool.and_eq_true, List.all_eq_true] at this
    exact ⟨c, cs, rfl, this.1.1, this.1.2⟩

theorem tables_fixed : ∀ p ∈ keywords ++ operators, fixedText p.2 = some p.1 := by
  decide +kernel

theorem fixed_tables {tok : Token} {w : String} (h : fixedText tok = some w) :
    (w, tok) ∈ keywords ∨ (w, tok) ∈ operators ∨ tok = .div := by
  cases tok <;> simp [fixedText] at h <;> subst h <;> simp [keywords, operators]

theorem keywords_unique : ∀ p ∈ keywords, keywords.lookup p.1 = some p.2 := by decide +kernel

theorem operators_unique : ∀ p ∈ operators, ∀ q ∈ operators, p.1 = q.1 → p.2 = q.2 := by
  decide +kernel

theorem fixed_word {tok tok' : Token} {w : String} (h : fixedText tok = some w)
    (h' : fixedText tok' = some w) : tok = tok' := by
  cases tok <;> simp [fixedText] at h <;> subst h <;> cases tok' <;> simp_all [fixedText]

/-! ## Lists -/

theorem takeWhile_max {p : UInt8 → Bool} {a r inp : Text} (h : inp = a ++ r)
    (ha : ∀ x ∈ a, p x = true) : a.length ≤ (inp.takeWhile p).length := by
  subst h
  induction a with
  | nil => simp
  | cons c cs ih =>
    have h1 := ha c (by simp)
    have h2 := ih (fun x hx => ha x (by simp [hx]))
    simp [h1]
    exact h2

theorem takeWhile_all {p : UInt8 → Bool} (l : Text) : ∀ x ∈ l.takeWhile p, p x = true := by
  intro x hx
  have := List.all_takeWhile (p := p) (l := l)
  exact List.all_eq_true.mp this x hx

theorem takeWhile_stop {p : UInt8 → Bool} {a : Text} {s : UInt8} {r : Text}
    (ha : ∀ x ∈ a, p x = true) (hs : p s = false) :
    (a ++ s :: r).takeWhile p = a ∧ (a ++ s :: r).dropWhile p = s :: r := by
  induction a with
  | nil => simp [hs]
  | cons c cs ih =>
    have h1 := ha c (by simp)
    have h2 := ih (fun x hx => ha x (by simp [hx]))
    simp [h1, h2]

theorem append_len {a b r s : Text} (h : a ++ r = b ++ s) (hl : a.length = b.length) : a = b ∧ r = s :=
  List.append_inj h hl

end Verif.Props
