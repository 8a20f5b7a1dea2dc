import Verif.Parser
import Verif.ParserSpec
/-!
# Parser: depth, lengths
-/
namespace Verif

open Ast

/-! ## More depth changes nothing once the depth suffices -/

/-- Either the first ran out of depth, or both are the same. -/
def PLe {α : Type} (x y : PRes α) : Prop := x = .error .diverge ∨ x = y

theorem PLe.refl {α} (x : PRes α) : PLe x x := .inr rfl

theorem PLe.bind {α β} {x y : PRes α} {f g : α → PRes β} (h : PLe x y) (hf : ∀ a, PLe (f a) (g a)) :
    PLe (x >>= f) (y >>= g) := by
  rcases h with h | h
  · subst h; exact .inl rfl
  · subst h
    cases x with
    | error e => exact .inr rfl
    | ok a => exact hf a

theorem step_mono {r r' : Rec} (h : ∀ g t, PLe (r g t) (r' g t)) (g : NT) (t : Toks) :
    PLe (step r g t) (step r' g t) := by
  cases g <;> dsimp only [step]
  all_goals
    first
    | unfold parseExpr | unfold parseLvl | unfold parseLvlLoop | unfold parseCast | unfold parseCastLoop
    | unfold parseUnary | unfold parseIndex | unfold parseIndexLoop | unfold parsePrimary
    | unfold parseArgs | unfold parseArgsLoop | unfold parseType | unfold parseTypeLoop | unfold parseLen
    | unfold parseContainer | unfold parseContainerLoop | unfold parseEnum | unfold parseEnumLoop
    | unfold parseBitfield | unfold parseBitLoop | unfold parseField | unfold parseCond | unfold parseCalc
    | unfold parseTransLoop | unfold parseTypeDecl | unfold parseTypeArgsLoop | unfold parseImportDecl
    | unfold parseImportLoop | unfold parseConstDecl | unfold parseDecl | unfold parseProgramLoop
  all_goals try unfold parseOperand
  all_goals try unfold parseRaw parseSimple
  all_goals try unfold parseEnumValue parseEnumRhs
  all_goals try unfold parseLenExpr
  all_goals try unfold parseBracket
  all_goals try unfold parseParams
  all_goals try unfold parseDflt
  all_goals try unfold parseBody
  all_goals try unfold parseBitValue
  all_goals
    repeat first
      | exact PLe.refl _
      | exact h _ _
      | apply PLe.bind
      | intro _
      | split

theorem P_mono_succ (n : Nat) (g : NT) (t : Toks) : PLe (P n g t) (P (n + 1) g t) := by
  induction n generalizing g t with
  | zero => exact .inl rfl
  | succ n ih => exact step_mono ih g t

theorem P_mono {n m : Nat} (h : n ≤ m) (g : NT) (t : Toks) : PLe (P n g t) (P m g t) := by
  induction h with
  | refl => exact .refl _
  | step _ ih =>
    rcases ih with ih | ih
    · exact .inl ih
    · rw [ih]; exact P_mono_succ _ g t

/-! ## The token iterator -/

theorem eatTok_some {w : Token} {t r : Toks} (h : eatTok w t = some r) : t = w :: r := by
  cases t with
  | nil => cases h
  | cons a t =>
    simp only [eatTok] at h
    split at h
    · rename_i h'; cases h; rw [h']
    · cases h

theorem eatTok_none {w : Token} {t : Toks} (h : eatTok w t = none) (r : Toks) : t ≠ w :: r := by
  rintro rfl; simp [eatTok] at h

theorem eatAny_some {ws : List Token} {t r : Toks} {x : Token} (h : eatAny ws t = some (x, r)) :
    t = x :: r ∧ x ∈ ws := by
  cases t with
  | nil => cases h
  | cons a t =>
    simp only [eatAny] at h
    split at h
    · rename_i h'; cases h; exact ⟨rfl, h'⟩
    · cases h

theorem eatAny_none {ws : List Token} {t r : Toks} {x : Token} (h : eatAny ws t = none) (hx : x ∈ ws) :
    t ≠ x :: r := by
  rintro rfl; simp [eatAny, hx] at h

theorem expectTok_ok {w : Token} {t r : Toks} (h : expectTok w t = .ok r) : t = w :: r := by
  cases t with
  | nil => cases h
  | cons a t =>
    simp only [expectTok] at h
    split at h
    · rename_i h'; cases h; rw [h']
    · cases h

theorem peekTok_true {w : Token} {t : Toks} (h : peekTok w t = .ok true) : ∃ r, t = w :: r := by
  cases t with
  | nil => cases h
  | cons a t => simp only [peekTok, Except.ok.injEq, beq_iff_eq] at h; exact ⟨t, by rw [h]⟩

theorem peekTok_false {w : Token} {t : Toks} (h : peekTok w t = .ok false) (r : Toks) : t ≠ w :: r := by
  rintro rfl; simp [peekTok] at h

theorem expectIdent_ok {t r : Toks} {s : String} (h : expectIdent t = .ok (s, r)) : t = .ident s :: r := by
  unfold expectIdent at h
  split at h
  · cases h; rfl
  · cases h
  · cases h

theorem expectString_ok {t r : Toks} {s : Text} (h : expectString t = .ok (s, r)) :
    t = .string s :: r := by
  unfold expectString at h
  split at h
  · cases h; rfl
  · cases h
  · cases h

theorem scalarOf_iff (k : EScalar) (t : Token) : scalarOf t = some k ↔ Props.scalarTok k = some t := by
  constructor
  · intro h
    unfold scalarOf at h
    split at h <;> first | (cases h; rfl) | cases h
  · intro h
    obtain ⟨s, e⟩ := k
    cases s <;> cases e <;> first | (cases h; rfl) | cases h

theorem parseScalar_some {t r : Toks} {k : EScalar} (h : parseScalar t = (some k, r)) :
    ∃ x, t = x :: r ∧ Props.scalarTok k = some x := by
  unfold parseScalar at h
  split at h
  · split at h
    · rename_i hs; cases h; exact ⟨_, rfl, (scalarOf_iff _ _).mp hs⟩
    · cases h
  · cases h

theorem parseScalar_none {t r : Toks} (h : parseScalar t = (none, r)) : r = t := by
  unfold parseScalar at h
  split at h
  · split at h
    · cases h
    · cases h; rfl
  · cases h; rfl

theorem pbind {α β : Type} {x : PRes α} {f : α → PRes β} {b : β} (h : x >>= f = .ok b) :
    ∃ a, x = .ok a ∧ f a = .ok b := by
  cases x with
  | error e => cases h
  | ok a => exact ⟨a, rfl, h⟩

theorem parseFlags_ok {t r : Toks} {fs : List String} (h : parseFlags t = .ok (fs, r)) :
    t = Props.flagToks fs ++ r := by
  induction t using parseFlags.induct generalizing fs r with
  | case1 s ts ih =>
    rw [parseFlags] at h
    obtain ⟨⟨gs, r'⟩, h1, h2⟩ := pbind h
    cases h2
    simp [Props.flagToks, ih h1]
  | case2 t ts h' => rw [parseFlags] at h; cases h; exact h'
  | case3 => cases h
  | case4 ts h1 h2 h3 =>
    rw [parseFlags] at h
    · cases h; rfl
    · assumption
    · assumption
    · assumption

end Verif
