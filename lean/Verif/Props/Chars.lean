import Verif.TokenTables
/-!
# C26: which bytes are letters, digits and blanks

The lexical grammar (`TokenSpec.lean`) speaks of classes of bytes with the functions that the tokenizer uses. Here is what they are, without them.
-/
namespace Verif.Props
open Verif

/-- The character of a byte. -/
def charOf (b : UInt8) : Char := Char.ofNat b.toNat

/-- **C26.** Blanks are the space, tab, line feed, form feed and carriage return; digits, hexadecimal digits and letters are those of ASCII; a name starts with a letter or `_`
and goes on with letters, digits and `_`. -/
theorem character_classes (b : UInt8) :
    (isSpace b = true ↔ charOf b ∈ [' ', '\t', '\n', '\x0c', '\r']) ∧
    (isDigit b = true ↔ charOf b ∈ "0123456789".toList) ∧
    (isHex b = true ↔ charOf b ∈ "0123456789abcdefABCDEF".toList) ∧
    (isIdentStart b = true ↔ charOf b ∈ "abcdefghijklmnopqrstuvwxyzABCDEFGHIJKLMNOPQRSTUVWXYZ_".toList) ∧
    (isIdentPart b = true ↔ charOf b ∈ "abcdefghijklmnopqrstuvwxyzABCDEFGHIJKLMNOPQRSTUVWXYZ_0123456789".toList) := by
  have := u8_forall (fun b => decide (
    (isSpace b = true ↔ charOf b ∈ [' ', '\t', '\n', '\x0c', '\r']) ∧
    (isDigit b = true ↔ charOf b ∈ "0123456789".toList) ∧
    (isHex b = true ↔ charOf b ∈ "0123456789abcdefABCDEF".toList) ∧
    (isIdentStart b = true ↔ charOf b ∈ "abcdefghijklmnopqrstuvwxyzABCDEFGHIJKLMNOPQRSTUVWXYZ_".toList) ∧
    (isIdentPart b = true ↔ charOf b ∈ "abcdefghijklmnopqrstuvwxyzABCDEFGHIJKLMNOPQRSTUVWXYZ_0123456789".toList)))
    (by decide +kernel) b
  exact of_decide_eq_true this

/-- **C27.** A hexadecimal digit, lower or upper case, stands for its place among the sixteen. -/
theorem hex_digit_values (b : UInt8) (h : isHex b = true) : "0123456789abcdef".toList[(hexVal b).toNat]? = some (charOf b).toLower := by
  have := u8_forall (fun b => decide (isHex b = true → "0123456789abcdef".toList[(hexVal b).toNat]? = some (charOf b).toLower)) (by decide +kernel) b
  exact of_decide_eq_true this h

example : "0123456789abcdef".toList[(hexVal (byte 'C')).toNat]? = some 'c' := hex_digit_values _ (by decide +kernel)

/-- **C26.** A name is a text of letters, digits and `_` that is not empty and does not start with a digit. -/
theorem identifier_iff (t : Text) :
    IsIdent t ↔ (∃ c cs, t = c :: cs ∧ (charOf c).isDigit = false) ∧ ∀ x ∈ t, (charOf x).isAlphanum = true ∨ charOf x = '_' := by
  have h : ∀ b : UInt8, (isIdentStart b = true ↔ (charOf b).isDigit = false ∧ ((charOf b).isAlphanum = true ∨ charOf b = '_')) ∧
      (isIdentPart b = true ↔ ((charOf b).isAlphanum = true ∨ charOf b = '_')) := fun b => by
    have := u8_forall (fun b => decide ((isIdentStart b = true ↔ (charOf b).isDigit = false ∧ ((charOf b).isAlphanum = true ∨ charOf b = '_')) ∧
      (isIdentPart b = true ↔ ((charOf b).isAlphanum = true ∨ charOf b = '_')))) (by decide +kernel) b
    exact of_decide_eq_true this
  constructor
  · rintro ⟨c, cs, rfl, hc, hp⟩
    exact ⟨⟨c, cs, rfl, ((h c).1.1 hc).1⟩, fun x hx => (List.mem_cons.1 hx).elim (fun e => e ▸ ((h c).1.1 hc).2) fun hx => (h x).2.1 (hp x hx)⟩
  · rintro ⟨⟨c, cs, rfl, hd⟩, hp⟩
    exact ⟨c, cs, rfl, (h c).1.2 ⟨hd, hp c (List.mem_cons_self ..)⟩, fun x hx => (h x).2.2 (hp x (List.mem_cons_of_mem _ hx))⟩

example : IsIdent (ascii "_a9") ∧ ¬ IsIdent (ascii "9a") := by
  refine ⟨(identifier_iff _).2 ⟨⟨byte '_', [byte 'a', byte '9'], by decide +kernel, by decide +kernel⟩, by decide +kernel⟩, fun h => ?_⟩
  obtain ⟨⟨c, cs, e, hd⟩, -⟩ := (identifier_iff _).1 h
  have : c = byte '9' := by
    have : (ascii "9a").head? = some (byte '9') := by decide +kernel
    rw [e] at this
    exact Option.some.inj this
  subst this
  exact absurd hd (by decide +kernel)

end Verif.Props
