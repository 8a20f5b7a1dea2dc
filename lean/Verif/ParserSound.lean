import Verif.ParserLemmas
/-!
# Parser: what is returned is spelt by what was consumed
-/
namespace Verif

open Lean.Parser.Tactic

open Ast Props

/-- Splits a successful sequence of two calls. -/
macro "pb " p:rcasesPatLo ", " q:rcasesPatLo " from " h:ident : tactic =>
  `(tactic| (obtain ⟨$p, $q, hx⟩ := pbind $h; clear $h; have $h := hx; clear hx; try dsimp only at $h:ident))

/-- The tokens do not begin with `+`. -/
def NoPlus (r : Toks) : Prop := ∀ r', r ≠ .plus :: r'

/-- What a successful call of `g` says about the consumed tokens `u`, the value and the tokens left. -/
def Der : (g : NT) → Toks → Out g → Toks → Prop
  | .expr, u, v, r => Gr (.lvl 0) u v ∧ NoPlus r
  | .lvl l, u, v, r => l ≤ 10 → Gr (.lvl l) u v ∧ (l ≤ 9 → NoPlus r)
  | .lvlLoop l e, u, v, r => l ≤ 10 →
      (∀ u0, Gr (.lvl l) u0 e → Gr (.lvl l) (u0 ++ u) v) ∧ (l ≤ 9 → (l = 9 ∨ NoPlus (u ++ r)) → NoPlus r)
  | .cast, u, v, _ => Gr (.lvl 11) u v
  | .castLoop e, u, v, _ => ∀ u0, Gr (.lvl 11) u0 e → Gr (.lvl 11) (u0 ++ u) v
  | .unary, u, v, _ => Gr (.lvl 12) u v
  | .index, u, v, _ => Gr (.lvl 13) u v
  | .indexLoop e, u, v, r => (∀ u0, Gr (.lvl 13) u0 e → Gr (.lvl 13) (u0 ++ u) v) ∧ ∀ r', r ≠ .leftSquare :: r'
  | .primary, u, v, _ => Gr (.lvl 14) u v
  | .args, u, v, r => (u = [] ∧ v = [] ∧ ∀ r', r ≠ .leftParen :: r') ∨
      ∃ u', u = .leftParen :: (u' ++ [.rightParen]) ∧ Gr .args u' v
  | .argsLoop acc, u, v, _ => ∃ u' es, v = acc ++ es ∧ u = u' ++ [.rightParen] ∧ Gr .args u' es
  | .type, u, v, _ => Gr .type u v
  | .typeLoop ty, u, v, _ => ∀ u0, Gr .type u0 ty → Gr .type (u0 ++ u) v
  | .len, u, v, _ => Gr .len u v
  | .container, u, v, _ => Gr .type u v
  | .containerLoop acc, u, v, _ => ∃ is, v = acc ++ is ∧ Gr .items u is
  | .enum, u, v, _ => Gr .type u v
  | .enumLoop acc, u, v, _ => ∃ is, v = acc ++ is ∧ Gr (.enumItems acc.isEmpty) u is
  | .bitfield, u, v, _ => Gr .type u v
  | .bitLoop acc, u, v, _ => ∃ is, v = acc ++ is ∧ Gr (.bitItems acc.isEmpty) u is
  | .field, u, v, _ => Gr .field u v
  | .cond, u, v, _ => Gr .cond u v
  | .calcd, u, v, r => (v = none ∧ u = []) ∨ ∃ e u', v = some e ∧ u = .equal :: u' ∧ Gr (.lvl 0) u' e ∧ NoPlus r
  | .transLoop acc, u, v, _ => ∃ ts, v = acc ++ ts ∧ Gr .transforms u ts
  | .typeDecl, u, v, _ => Gr .body u v
  | .typeArgsLoop acc, u, v, _ => ∃ u' ps, v = acc ++ ps ∧ u = u' ++ [.rightParen] ∧ Gr .paramList u' ps
  | .importDecl, u, v, _ => Gr .body u v
  | .importLoop acc, u, v, _ => ∃ is, v = acc ++ is ∧ Gr .importItems u is
  | .constDecl, u, v, _ => Gr .body u v
  | .decl, u, v, _ => Gr .decl u v ∧ u ≠ []
  | .programLoop acc, u, v, r => ∃ ds, v = acc ++ ds ∧ Gr .program u ds ∧ r = []

/-- The functions called return what `Der` says. -/
def Snd (rec : Rec) : Prop := ∀ g t v r, rec g t = .ok (v, r) → ∃ u, t = u ++ r ∧ Der g u v r

variable {rec : Rec} (ih : Snd rec)
include ih

theorem operand_sound {l t v r} (h : parseOperand rec l t = .ok (v, r)) :
    ∃ u, t = u ++ r ∧ (l ≤ 10 → Gr (.lvl (l + 1)) u v ∧ (l ≤ 8 → NoPlus r)) := by
  unfold parseOperand at h
  split at h
  · rename_i hl
    obtain ⟨u, hu, hd⟩ := ih (.lvl (l + 1)) _ _ _ h
    exact ⟨u, hu, fun _ => ⟨(hd (by omega)).1, fun h8 => (hd (by omega)).2 (by omega)⟩⟩
  · rename_i hl
    obtain ⟨u, hu, hd⟩ := ih .cast _ _ _ h
    refine ⟨u, hu, fun h10 => ⟨?_, fun h8 => by omega⟩⟩
    have : l = 10 := by omega
    subst this; exact hd

theorem expr_sound {t v r} (h : parseExpr rec t = .ok (v, r)) : ∃ u, t = u ++ r ∧ Der .expr u v r := by
  unfold parseExpr at h
  pb ⟨e, t1⟩, h1 from h
  obtain ⟨u1, rfl, d1⟩ := ih (.lvl 1) _ _ _ h1
  replace d1 := d1 (by omega)
  split at h
  · rename_i t2 h2
    have := eatTok_some h2; subst this
    pb ⟨a, t3⟩, h3 from h
    obtain ⟨u3, rfl, d3⟩ := ih .expr _ _ _ h3
    pb t4, h4 from h
    have := expectTok_ok h4; subst this
    pb ⟨b, t5⟩, h5 from h
    obtain ⟨u5, rfl, d5⟩ := ih (.lvl 1) _ _ _ h5
    replace d5 := d5 (by omega)
    cases h
    exact ⟨u1 ++ .question :: (u3 ++ .colon :: u5), by simp, .ternary d1.1 d3.1 d5.1, d5.2 (by omega)⟩
  · cases h
    exact ⟨u1, rfl, .up d1.1, d1.2 (by omega)⟩

theorem lvl_sound {l t v r} (h : parseLvl rec l t = .ok (v, r)) : ∃ u, t = u ++ r ∧ Der (.lvl l) u v r := by
  unfold parseLvl at h
  pb ⟨e, t1⟩, h1 from h
  obtain ⟨u1, rfl, d1⟩ := operand_sound ih h1
  obtain ⟨u2, rfl, d2⟩ := ih (.lvlLoop l e) _ _ _ h
  refine ⟨u1 ++ u2, by simp, fun hl => ?_⟩
  refine ⟨(d2 hl).1 _ (.up (d1 hl).1), fun h9 => (d2 hl).2 h9 ?_⟩
  by_cases h : l = 9
  · exact .inl h
  · exact .inr ((d1 hl).2 (by omega))

omit ih in
theorem levelOp_spec {l : Nat} {x : Token} {op : BinOp} (h : levelOp l x = some op) :
    prec op = l ∧ opTok op = x := by
  unfold levelOp at h
  split at h <;> first | (cases h; exact ⟨rfl, rfl⟩) | cases h

theorem lvlLoop_sound {l e t v r} (h : parseLvlLoop rec l e t = .ok (v, r)) :
    ∃ u, t = u ++ r ∧ Der (.lvlLoop l e) u v r := by
  unfold parseLvlLoop at h
  split at h
  · rename_i x t1 h1
    obtain ⟨rfl, hx⟩ := eatAny_some h1
    pb ⟨b, t2⟩, h2 from h
    obtain ⟨u2, rfl, d2⟩ := operand_sound ih h2
    split at h
    · rename_i op hop
      obtain ⟨u3, rfl, d3⟩ := ih (.lvlLoop l _) _ _ _ h
      obtain ⟨hp, ho⟩ := levelOp_spec hop
      subst hp; subst ho
      refine ⟨opTok op :: (u2 ++ u3), by simp, fun hl => ⟨fun u0 d0 => ?_, fun h9 _ => ?_⟩⟩
      · have := (d3 hl).1 _ (.binary d0 (d2 hl).1)
        simpa using this
      · refine (d3 hl).2 h9 ?_
        by_cases h : prec op = 9
        · exact .inl h
        · exact .inr ((d2 hl).2 (by omega))
    · cases h
  · rename_i hn
    cases h
    refine ⟨[], rfl, fun hl => ⟨fun u0 d0 => by simpa using d0, fun h9 hor => ?_⟩⟩
    rcases hor with rfl | h
    · intro r'; exact eatAny_none hn (by simp [levelToks])
    · exact h

theorem cast_sound {t v r} (h : parseCast rec t = .ok (v, r)) : ∃ u, t = u ++ r ∧ Der .cast u v r := by
  unfold parseCast at h
  pb ⟨e, t1⟩, h1 from h
  obtain ⟨u1, rfl, d1⟩ := ih .unary _ _ _ h1
  obtain ⟨u2, rfl, d2⟩ := ih (.castLoop e) _ _ _ h
  exact ⟨u1 ++ u2, by simp, d2 _ (.up d1)⟩

theorem castLoop_sound {e t v r} (h : parseCastLoop rec e t = .ok (v, r)) :
    ∃ u, t = u ++ r ∧ Der (.castLoop e) u v r := by
  unfold parseCastLoop at h
  split at h
  · rename_i t1 h1
    obtain ⟨rfl, -⟩ := eatAny_some h1
    pb ⟨b, t2⟩, h2 from h
    obtain ⟨u2, rfl, d2⟩ := ih .type _ _ _ h2
    obtain ⟨u3, rfl, d3⟩ := ih (.castLoop _) _ _ _ h
    refine ⟨.cast :: (u2 ++ u3), by simp, fun u0 d0 => ?_⟩
    have := d3 _ (.cast d0 d2)
    simpa using this
  · rename_i t1 h1
    obtain ⟨rfl, -⟩ := eatAny_some h1
    pb ⟨b, t2⟩, h2 from h
    obtain ⟨u2, rfl, d2⟩ := ih .unary _ _ _ h2
    obtain ⟨u3, rfl, d3⟩ := ih (.castLoop _) _ _ _ h
    refine ⟨.elvis :: (u2 ++ u3), by simp, fun u0 d0 => ?_⟩
    have := d3 _ (.binary (op := .elvis) d0 d2)
    simpa [opTok] using this
  · cases h
  · cases h
    exact ⟨[], rfl, fun u0 d0 => by simpa using d0⟩

omit ih in
theorem unaryToks_append (t : Toks) : t = (unaryToks t).1 ++ (unaryToks t).2 := by
  induction t with
  | nil => rfl
  | cons a t ih =>
    rw [unaryToks]
    split
    · simp only [List.cons_append]; rw [← ih]
    · rfl

omit ih in
theorem applyUnary_sound {ops e v u} (h : applyUnary ops e = .ok v) (d : Gr (.lvl 12) u e) :
    Gr (.lvl 12) (ops ++ u) v := by
  induction ops generalizing v with
  | nil => cases h; exact d
  | cons x ops ih =>
    rw [applyUnary] at h
    pb i, h1 from h
    pb op, h2 from h
    cases h
    have hx : x = unTok op := by
      unfold unaryOp at h2
      split at h2 <;> first | (cases h2; rfl) | cases h2
    subst hx
    exact .unary (ih h1)

theorem unary_sound {t v r} (h : parseUnary rec t = .ok (v, r)) : ∃ u, t = u ++ r ∧ Der .unary u v r := by
  unfold parseUnary at h
  pb ⟨e, t1⟩, h1 from h
  obtain ⟨u1, hu, d1⟩ := ih .index _ _ _ h1
  pb e', h2 from h
  cases h
  refine ⟨(unaryToks t).1 ++ u1, ?_, applyUnary_sound h2 (.up d1)⟩
  rw [List.append_assoc, ← hu]; exact unaryToks_append t

theorem index_sound {t v r} (h : parseIndex rec t = .ok (v, r)) : ∃ u, t = u ++ r ∧ Der .index u v r := by
  unfold parseIndex at h
  pb ⟨e, t1⟩, h1 from h
  obtain ⟨u1, rfl, d1⟩ := ih .primary _ _ _ h1
  pb ⟨e', t2⟩, h2 from h
  obtain ⟨u2, rfl, d2⟩ := ih (.indexLoop e) _ _ _ h2
  simp only [Except.ok.injEq, Prod.mk.injEq] at h
  obtain ⟨rfl, hr⟩ := h
  have : t2.dropWhile (· == .leftSquare) = t2 := by
    cases t2 with
    | nil => rfl
    | cons a t2 =>
      rw [List.dropWhile_cons_of_neg]
      intro ha; rw [beq_iff_eq] at ha; subst ha; exact d2.2 _ rfl
  rw [this] at hr; subst hr
  exact ⟨u1 ++ u2, by simp, d2.1 _ (.up d1)⟩

theorem indexLoop_sound {e t v r} (h : parseIndexLoop rec e t = .ok (v, r)) :
    ∃ u, t = u ++ r ∧ Der (.indexLoop e) u v r := by
  unfold parseIndexLoop at h
  split at h
  · rename_i t1 h1
    obtain ⟨rfl, -⟩ := eatAny_some h1
    pb ⟨b, t2⟩, h2 from h
    obtain ⟨u2, rfl, d2⟩ := ih .expr _ _ _ h2
    pb t3, h3 from h
    have := expectTok_ok h3; subst this
    obtain ⟨u3, rfl, d3⟩ := ih (.indexLoop _) _ _ _ h
    refine ⟨.leftSquare :: (u2 ++ .rightSquare :: u3), by simp, fun u0 d0 => ?_, d3.2⟩
    have := d3.1 _ (.index d0 d2.1)
    simpa using this
  · rename_i t1 h1
    obtain ⟨rfl, -⟩ := eatAny_some h1
    pb ⟨m, t2⟩, h2 from h
    have := expectIdent_ok h2; subst this
    obtain ⟨u3, rfl, d3⟩ := ih (.indexLoop _) _ _ _ h
    refine ⟨.dot :: .ident m :: u3, by simp, fun u0 d0 => ?_, d3.2⟩
    have := d3.1 _ (.member (m := m) d0)
    simpa using this
  · cases h
  · rename_i hn
    cases h
    exact ⟨[], rfl, fun u0 d0 => by simpa using d0, fun r' => eatAny_none hn (by simp)⟩

theorem primary_sound {t v r} (h : parsePrimary rec t = .ok (v, r)) :
    ∃ u, t = u ++ r ∧ Der .primary u v r := by
  unfold parsePrimary at h
  split at h
  · cases h
  · rename_i value t
    cases hs : parseScalar t with
    | mk k r' =>
      rw [hs] at h
      cases k with
      | none =>
        cases h
        have := parseScalar_none hs; subst this
        exact ⟨[_], rfl, .int⟩
      | some k =>
        cases h
        obtain ⟨x, rfl, hx⟩ := parseScalar_some hs
        exact ⟨[_, _], rfl, .intTyped hx⟩
  · cases h; exact ⟨[_], rfl, .str⟩
  · cases h; exact ⟨[_], rfl, .true⟩
  · cases h; exact ⟨[_], rfl, .false⟩
  · rename_i name t
    split at h
    · rename_i t1 h1
      have := eatTok_some h1; subst this
      pb ⟨m, t2⟩, h2 from h
      have := expectIdent_ok h2; subst this
      cases h
      exact ⟨[_, _, _], rfl, .enumAccess⟩
    · pb p, h1 from h
      split at h
      · rename_i hp
        subst hp
        obtain ⟨t', rfl⟩ := peekTok_true h1
        pb ⟨as, t2⟩, h2 from h
        obtain ⟨u2, hu, d2⟩ := ih .args _ _ _ h2
        cases h
        rcases d2 with ⟨rfl, -, h3⟩ | ⟨u', rfl, d2⟩
        · exact absurd hu.symm (h3 t')
        · exact ⟨.ident name :: .leftParen :: (u' ++ [Token.rightParen]), by rw [hu]; rfl, .call d2⟩
      · cases h
        exact ⟨[_], rfl, .ref⟩
  · pb ⟨e, t2⟩, h2 from h
    obtain ⟨u2, rfl, d2⟩ := ih .expr _ _ _ h2
    pb t3, h3 from h
    have := expectTok_ok h3; subst this
    cases h
    exact ⟨.leftParen :: (u2 ++ [Token.rightParen]), by simp, .paren d2.1⟩
  · cases h

theorem args_sound {t v r} (h : parseArgs rec t = .ok (v, r)) : ∃ u, t = u ++ r ∧ Der .args u v r := by
  unfold parseArgs at h
  split at h
  · rename_i t1 h1
    have := eatTok_some h1; subst this
    obtain ⟨u, rfl, u', es, rfl, rfl, d⟩ := ih (.argsLoop []) _ _ _ h
    exact ⟨.leftParen :: (u' ++ [Token.rightParen]), rfl, .inr ⟨u', rfl, d⟩⟩
  · rename_i hn
    cases h
    exact ⟨[], rfl, .inl ⟨rfl, rfl, eatTok_none hn⟩⟩

theorem argsLoop_sound {acc t v r} (h : parseArgsLoop rec acc t = .ok (v, r)) :
    ∃ u, t = u ++ r ∧ Der (.argsLoop acc) u v r := by
  unfold parseArgsLoop at h
  split at h
  · rename_i t1 h1
    have := eatTok_some h1; subst this
    cases h
    exact ⟨[Token.rightParen], rfl, [], [], by simp, rfl, .argsNil⟩
  · pb ⟨e, t1⟩, h1 from h
    obtain ⟨u1, rfl, d1⟩ := ih .expr _ _ _ h1
    split at h
    · rename_i t2 h2
      have := eatTok_some h2; subst this
      obtain ⟨u3, rfl, u', es, rfl, rfl, d3⟩ := ih (.argsLoop _) _ _ _ h
      exact ⟨u1 ++ Token.comma :: (u' ++ [Token.rightParen]), by simp, u1 ++ .comma :: u', e :: es, by simp,
        by simp, .argsCons d1.1 d3⟩
    · pb t2, h2 from h
      have := expectTok_ok h2; subst this
      cases h
      exact ⟨u1 ++ [Token.rightParen], by simp, u1, [e], by simp, rfl, .argsLast d1.1⟩

omit ih in
theorem der_optArgs {u v r} (h : Der .args u v r) : Gr .optArgs u v := by
  rcases h with ⟨rfl, rfl, -⟩ | ⟨u', rfl, d⟩
  · exact .noArgs
  · exact .someArgs d

theorem simple_sound {t v r} (h : parseSimple rec t = .ok (v, r)) : ∃ u, t = u ++ r ∧ Gr .type u v := by
  unfold parseSimple at h
  split at h
  · rename_i k t1 hs
    obtain ⟨x, rfl, hx⟩ := parseScalar_some hs
    cases h
    exact ⟨[x], rfl, .scalar hx⟩
  · rename_i t1 hs
    have := parseScalar_none hs; subst this
    split at h
    · cases h; exact ⟨[_], rfl, .f32⟩
    · cases h; exact ⟨[_], rfl, .f64⟩
    · cases h; exact ⟨[_], rfl, .bool⟩
    · pb ⟨as, t2⟩, h2 from h
      obtain ⟨u2, rfl, d2⟩ := ih .args _ _ _ h2
      cases h
      exact ⟨_ :: u2, rfl, .typeRef (der_optArgs d2)⟩
    · cases h
    · cases h

theorem raw_sound {t v r} (h : parseRaw rec t = .ok (v, r)) : ∃ u, t = u ++ r ∧ Gr .type u v := by
  unfold parseRaw at h
  split at h
  · exact ih .container _ _ _ h
  · exact ih .enum _ _ _ h
  · exact ih .bitfield _ _ _ h
  · exact simple_sound ih h

theorem type_sound {t v r} (h : parseType rec t = .ok (v, r)) : ∃ u, t = u ++ r ∧ Der .type u v r := by
  unfold parseType at h
  pb ⟨ty, t1⟩, h1 from h
  obtain ⟨u1, rfl, d1⟩ := raw_sound ih h1
  obtain ⟨u2, rfl, d2⟩ := ih (.typeLoop ty) _ _ _ h
  exact ⟨u1 ++ u2, by simp, d2 _ d1⟩

theorem typeLoop_sound {ty t v r} (h : parseTypeLoop rec ty t = .ok (v, r)) :
    ∃ u, t = u ++ r ∧ Der (.typeLoop ty) u v r := by
  unfold parseTypeLoop at h
  split at h
  · rename_i t1 h1
    have := eatTok_some h1; subst this
    pb ⟨⟨b, o⟩, t2⟩, h2 from h
    obtain ⟨u2, rfl, d2⟩ := ih .len _ _ _ h2
    pb t3, h3 from h
    have := expectTok_ok h3; subst this
    obtain ⟨u4, rfl, d4⟩ := ih (.typeLoop _) _ _ _ h
    refine ⟨.leftSquare :: (u2 ++ .rightSquare :: u4), by simp, fun u0 d0 => ?_⟩
    have := d4 _ (.array d0 d2)
    simpa using this
  · cases h
    exact ⟨[], rfl, fun u0 d0 => by simpa using d0⟩

theorem lenExpr_sound {t v r} (h : parseLenExpr rec t = .ok (v, r)) :
    ∃ u, t = u ++ r ∧ ((v = none ∧ u = []) ∨ ∃ e, v = some e ∧ Gr (.lvl 0) u e) := by
  unfold parseLenExpr at h
  pb p, h1 from h
  split at h
  · cases h; exact ⟨[], rfl, .inl ⟨rfl, rfl⟩⟩
  · pb ⟨e, t1⟩, h1 from h
    obtain ⟨u1, rfl, d1⟩ := ih .expr _ _ _ h1
    cases h
    exact ⟨u1, rfl, .inr ⟨e, rfl, d1.1⟩⟩

theorem len_sound {t v r} (h : parseLen rec t = .ok (v, r)) : ∃ u, t = u ++ r ∧ Der .len u v r := by
  unfold parseLen at h
  pb ⟨e, t1⟩, h1 from h
  obtain ⟨u1, hu, d1⟩ := lenExpr_sound ih h1
  cases hd : eatTok .dotDot t with
  | none =>
    rw [hd] at h hu
    simp only [Option.getD_none] at hu
    subst hu
    rcases d1 with ⟨rfl, rfl⟩ | ⟨e, rfl, d1⟩
    · cases h
    · cases h; exact ⟨u1, rfl, .lenExpr d1⟩
  | some t' =>
    rw [hd] at h hu
    have := eatTok_some hd; subst this
    simp only [Option.getD_some] at hu
    subst hu
    rcases d1 with ⟨rfl, rfl⟩ | ⟨e, rfl, d1⟩
    · cases h; exact ⟨[Token.dotDot], rfl, .lenDots⟩
    · cases h; exact ⟨Token.dotDot :: u1, rfl, .lenDotsExpr d1⟩

theorem bracket_sound {t v r} (h : parseBracket rec t = .ok (v, r)) : ∃ u, t = u ++ r ∧ Gr .bracket u v := by
  unfold parseBracket at h
  split at h
  · rename_i t1 h1
    have := eatTok_some h1; subst this
    pb ⟨e, t2⟩, h2 from h
    obtain ⟨u2, rfl, d2⟩ := ih .expr _ _ _ h2
    pb t3, h3 from h
    have := expectTok_ok h3; subst this
    cases h
    exact ⟨.leftSquare :: (u2 ++ [Token.rightSquare]), by simp, .someBracket d2.1⟩
  · cases h; exact ⟨[], rfl, .noBracket⟩

theorem container_sound {t v r} (h : parseContainer rec t = .ok (v, r)) :
    ∃ u, t = u ++ r ∧ Der .container u v r := by
  unfold parseContainer at h
  pb t1, h1 from h
  have := expectTok_ok h1; subst this
  pb ⟨l, t2⟩, h2 from h
  obtain ⟨u2, rfl, d2⟩ := bracket_sound ih h2
  pb ⟨fs, t3⟩, h3 from h
  have := parseFlags_ok h3; subst this
  pb t4, h4 from h
  have := expectTok_ok h4; subst this
  pb ⟨is, t5⟩, h5 from h
  obtain ⟨u5, rfl, is', rfl, d5⟩ := ih (.containerLoop []) _ _ _ h5
  pb t6, h6 from h
  have := expectTok_ok h6; subst this
  cases h
  exact ⟨.container :: (u2 ++ (flagToks fs ++ .leftCurly :: (u5 ++ [Token.rightCurly]))), by simp,
    .container d2 d5⟩

theorem containerLoop_sound {acc t v r} (h : parseContainerLoop rec acc t = .ok (v, r)) :
    ∃ u, t = u ++ r ∧ Der (.containerLoop acc) u v r := by
  unfold parseContainerLoop at h
  pb p, h0 from h
  split at h
  · cases h; exact ⟨[], rfl, [], by simp, .itemsNil⟩
  · split at h
    · rename_i t1 h1
      have := eatTok_some h1; subst this
      pb ⟨n, t2⟩, h2 from h
      have := expectIdent_ok h2; subst this
      split at h
      · rename_i hn
        have : n = "pad" := hn
        subst this
        pb t3, h3 from h
        have := expectTok_ok h3; subst this
        pb ⟨e, t4⟩, h4 from h
        obtain ⟨u4, rfl, d4⟩ := ih .expr _ _ _ h4
        split at h
        · rename_i t5 h5
          have := eatTok_some h5; subst this
          obtain ⟨u6, rfl, is, rfl, d6⟩ := ih (.containerLoop _) _ _ _ h
          exact ⟨(.dot :: .ident "pad" :: .colon :: u4) ++ .comma :: u6, by simp, .pad e :: is, by simp,
            .itemsCons (.itemPad d4.1) d6⟩
        · cases h
          exact ⟨.dot :: .ident "pad" :: .colon :: u4, by simp, [.pad e], rfl, .itemsLast (.itemPad d4.1)⟩
      · cases h
    · pb ⟨n, t2⟩, h2 from h
      have := expectIdent_ok h2; subst this
      pb t3, h3 from h
      have := expectTok_ok h3; subst this
      pb ⟨f, t4⟩, h4 from h
      obtain ⟨u4, rfl, d4⟩ := ih .field _ _ _ h4
      split at h
      · rename_i t5 h5
        have := eatTok_some h5; subst this
        obtain ⟨u6, rfl, is, rfl, d6⟩ := ih (.containerLoop _) _ _ _ h
        exact ⟨(.ident n :: .colon :: u4) ++ .comma :: u6, by simp, .field n f :: is, by simp,
          .itemsCons (.itemField d4) d6⟩
      · cases h
        exact ⟨.ident n :: .colon :: u4, by simp, [.field n f], rfl, .itemsLast (.itemField d4)⟩

theorem enumRhs_sound {t v r} (h : parseEnumRhs rec t = .ok (v, r)) (b : Bool) (n : String) :
    ∃ u, t = u ++ r ∧ Gr (.enumItem b) (.ident n :: .equal :: u) (.mk n v) := by
  unfold parseEnumRhs at h
  split at h
  · rename_i t1 h1
    have := eatTok_some h1; subst this
    cases h; exact ⟨[Token.default], rfl, .enumDefault⟩
  · pb ⟨e, t1⟩, h1 from h
    obtain ⟨u1, rfl, d1⟩ := ih .expr _ _ _ h1
    cases h; exact ⟨u1, rfl, .enumExpr d1.1⟩

theorem enumValue_sound {b t v r} (h : parseEnumValue rec b t = .ok (v, r)) (n : String) :
    ∃ u, t = u ++ r ∧ Gr (.enumItem b) (.ident n :: u) (.mk n v) := by
  unfold parseEnumValue at h
  split at h
  · pb t1, h1 from h
    have := expectTok_ok h1; subst this
    obtain ⟨u, rfl, d⟩ := enumRhs_sound ih h b n
    exact ⟨.equal :: u, rfl, d⟩
  · rename_i hb
    split at h
    · rename_i t1 h1
      have := eatTok_some h1; subst this
      obtain ⟨u, rfl, d⟩ := enumRhs_sound ih h b n
      exact ⟨.equal :: u, rfl, d⟩
    · cases h
      have : b = false := by simpa using hb
      subst this
      exact ⟨[], rfl, .enumImplicit⟩

theorem enum_sound {t v r} (h : parseEnum rec t = .ok (v, r)) : ∃ u, t = u ++ r ∧ Der .enum u v r := by
  unfold parseEnum at h
  pb t1, h1 from h
  have := expectTok_ok h1; subst this
  split at h
  · cases h
  · rename_i k t2 hs
    obtain ⟨x, rfl, hx⟩ := parseScalar_some hs
    pb t3, h3 from h
    have := expectTok_ok h3; subst this
    pb ⟨is, t4⟩, h4 from h
    obtain ⟨u4, rfl, is', rfl, d4⟩ := ih (.enumLoop []) _ _ _ h4
    pb t5, h5 from h
    have := expectTok_ok h5; subst this
    cases h
    exact ⟨.enum :: x :: .leftCurly :: (u4 ++ [Token.rightCurly]), by simp, .enum hx d4⟩

theorem enumLoop_sound {acc t v r} (h : parseEnumLoop rec acc t = .ok (v, r)) :
    ∃ u, t = u ++ r ∧ Der (.enumLoop acc) u v r := by
  unfold parseEnumLoop at h
  pb ⟨n, t1⟩, h1 from h
  have := expectIdent_ok h1; subst this
  pb ⟨x, t2⟩, h2 from h
  obtain ⟨u2, rfl, d2⟩ := enumValue_sound ih h2 n
  split at h
  · cases h
    exact ⟨.ident n :: u2, rfl, [.mk n x], rfl, .enumLast d2⟩
  · rename_i t3 h3
    have := eatTok_some h3; subst this
    pb p, h4 from h
    split at h
    · cases h
      exact ⟨(.ident n :: u2) ++ [Token.comma], by simp, [.mk n x], rfl, .enumTrail d2⟩
    · obtain ⟨u5, rfl, is, rfl, d5⟩ := ih (.enumLoop _) _ _ _ h
      have hf : (acc ++ [EnumItem.mk n x]).isEmpty = false := by simp
      rw [hf] at d5
      exact ⟨(.ident n :: u2) ++ .comma :: u5, by simp, .mk n x :: is, by simp, .enumCons d2 d5⟩

theorem bitValue_sound {b t v r} (h : parseBitValue rec b t = .ok (v, r)) (n : String) :
    ∃ u, t = u ++ r ∧ Gr (.bitItem b) (.ident n :: u) (.mk n v) := by
  unfold parseBitValue at h
  split at h
  · pb t1, h1 from h
    have := expectTok_ok h1; subst this
    pb ⟨e, t2⟩, h2 from h
    obtain ⟨u2, rfl, d2⟩ := ih .expr _ _ _ h2
    cases h
    exact ⟨.equal :: u2, rfl, .bitExpr d2.1⟩
  · rename_i hb
    split at h
    · rename_i t1 h1
      have := eatTok_some h1; subst this
      pb ⟨e, t2⟩, h2 from h
      obtain ⟨u2, rfl, d2⟩ := ih .expr _ _ _ h2
      cases h
      exact ⟨.equal :: u2, rfl, .bitExpr d2.1⟩
    · cases h
      have : b = false := by simpa using hb
      subst this
      exact ⟨[], rfl, .bitImplicit⟩

theorem bitfield_sound {t v r} (h : parseBitfield rec t = .ok (v, r)) :
    ∃ u, t = u ++ r ∧ Der .bitfield u v r := by
  unfold parseBitfield at h
  pb t1, h1 from h
  have := expectTok_ok h1; subst this
  split at h
  · cases h
  · rename_i k t2 hs
    obtain ⟨x, rfl, hx⟩ := parseScalar_some hs
    pb t3, h3 from h
    have := expectTok_ok h3; subst this
    pb ⟨is, t4⟩, h4 from h
    obtain ⟨u4, rfl, is', rfl, d4⟩ := ih (.bitLoop []) _ _ _ h4
    pb t5, h5 from h
    have := expectTok_ok h5; subst this
    cases h
    exact ⟨.bitfield :: x :: .leftCurly :: (u4 ++ [Token.rightCurly]), by simp, .bitfield hx d4⟩

omit ih in
theorem isEmpty_eq_length {α : Type} (l : List α) : decide (l.length = 0) = l.isEmpty := by
  cases l <;> rfl

theorem bitLoop_sound {acc t v r} (h : parseBitLoop rec acc t = .ok (v, r)) :
    ∃ u, t = u ++ r ∧ Der (.bitLoop acc) u v r := by
  unfold parseBitLoop at h
  pb ⟨n, t1⟩, h1 from h
  have := expectIdent_ok h1; subst this
  pb ⟨x, t2⟩, h2 from h
  obtain ⟨u2, rfl, d2⟩ := bitValue_sound ih h2 n
  rw [isEmpty_eq_length] at d2
  split at h
  · cases h
    exact ⟨.ident n :: u2, rfl, [.mk n x], rfl, .bitLast d2⟩
  · rename_i t3 h3
    have := eatTok_some h3; subst this
    pb p, h4 from h
    split at h
    · cases h
      exact ⟨(.ident n :: u2) ++ [Token.comma], by simp, [.mk n x], rfl, .bitTrail d2⟩
    · obtain ⟨u5, rfl, is, rfl, d5⟩ := ih (.bitLoop _) _ _ _ h
      have hf : (acc ++ [BitItem.mk n x]).isEmpty = false := by simp
      rw [hf] at d5
      exact ⟨(.ident n :: u2) ++ .comma :: u5, by simp, .mk n x :: is, by simp, .bitCons d2 d5⟩

theorem cond_sound {t v r} (h : parseCond rec t = .ok (v, r)) : ∃ u, t = u ++ r ∧ Der .cond u v r := by
  unfold parseCond at h
  split at h
  · rename_i t1 h1
    have := eatTok_some h1; subst this
    pb ⟨e, t2⟩, h2 from h
    obtain ⟨u2, rfl, d2⟩ := ih .expr _ _ _ h2
    pb t3, h3 from h
    have := expectTok_ok h3; subst this
    cases h
    exact ⟨.leftCurly :: (u2 ++ [Token.rightCurly]), by simp, .someCond d2.1⟩
  · cases h; exact ⟨[], rfl, .noCond⟩

theorem calc_sound {t v r} (h : parseCalc rec t = .ok (v, r)) : ∃ u, t = u ++ r ∧ Der .calcd u v r := by
  unfold parseCalc at h
  split at h
  · rename_i t1 h1
    have := eatTok_some h1; subst this
    pb ⟨e, t2⟩, h2 from h
    obtain ⟨u2, rfl, d2⟩ := ih .expr _ _ _ h2
    cases h
    exact ⟨.equal :: u2, rfl, .inr ⟨e, u2, rfl, rfl, d2.1, d2.2⟩⟩
  · cases h; exact ⟨[], rfl, .inl ⟨rfl, rfl⟩⟩

omit ih in
theorem parseFlags_noPlus {t r : Toks} {fs : List String} (hp : NoPlus t) (h : parseFlags t = .ok (fs, r)) :
    fs = [] ∧ r = t := by
  rw [parseFlags] at h
  · cases h; exact ⟨rfl, rfl⟩
  · intro s ts h'; exact hp _ h'
  · intro s ts h'; exact hp _ h'
  · intro h'; exact hp _ h'

theorem field_sound {t v r} (h : parseField rec t = .ok (v, r)) : ∃ u, t = u ++ r ∧ Der .field u v r := by
  unfold parseField at h
  pb ⟨ty, t1⟩, h1 from h
  obtain ⟨u1, rfl, d1⟩ := ih .type _ _ _ h1
  pb ⟨o, t2⟩, h2 from h
  obtain ⟨u2, rfl, d2⟩ := ih .calcd _ _ _ h2
  pb ⟨fs, t3⟩, h3 from h
  pb ⟨c, t4⟩, h4 from h
  obtain ⟨u4, rfl, d4⟩ := ih .cond _ _ _ h4
  pb ⟨ts, t5⟩, h5 from h
  obtain ⟨u5, rfl, ts', rfl, d5⟩ := ih (.transLoop []) _ _ _ h5
  cases h
  rcases d2 with ⟨rfl, rfl⟩ | ⟨e, u2, rfl, rfl, d2, hp⟩
  · have := parseFlags_ok h3; subst this
    exact ⟨u1 ++ (flagToks fs ++ (u4 ++ u5)), by simp, .field d1 d4 d5⟩
  · obtain ⟨rfl, rfl⟩ := parseFlags_noPlus hp h3
    exact ⟨u1 ++ .equal :: (u2 ++ (u4 ++ u5)), by simp, .fieldCalc d1 d2 d4 d5⟩

theorem transLoop_sound {acc t v r} (h : parseTransLoop rec acc t = .ok (v, r)) :
    ∃ u, t = u ++ r ∧ Der (.transLoop acc) u v r := by
  unfold parseTransLoop at h
  split at h
  · rename_i t1 h1
    have := eatTok_some h1; subst this
    pb ⟨n, t2⟩, h2 from h
    have := expectIdent_ok h2; subst this
    pb ⟨as, t3⟩, h3 from h
    obtain ⟨u3, rfl, d3⟩ := ih .args _ _ _ h3
    pb ⟨c, t4⟩, h4 from h
    obtain ⟨u4, rfl, d4⟩ := ih .cond _ _ _ h4
    obtain ⟨u5, rfl, ts, rfl, d5⟩ := ih (.transLoop _) _ _ _ h
    exact ⟨(.arrow :: .ident n :: (u3 ++ u4)) ++ u5, by simp, .mk n as c :: ts, by simp,
      .transCons (.transform (der_optArgs d3) d4) d5⟩
  · cases h; exact ⟨[], rfl, [], by simp, .transNil⟩

theorem params_sound {t v r} (h : parseParams rec t = .ok (v, r)) : ∃ u, t = u ++ r ∧ Gr .params u v := by
  unfold parseParams at h
  split at h
  · rename_i t1 h1
    have := eatTok_some h1; subst this
    obtain ⟨u, rfl, u', ps, rfl, rfl, d⟩ := ih (.typeArgsLoop []) _ _ _ h
    exact ⟨.leftParen :: (u' ++ [Token.rightParen]), rfl, .someParams d⟩
  · cases h; exact ⟨[], rfl, .noParams⟩

theorem typeDecl_sound {t v r} (h : parseTypeDecl rec t = .ok (v, r)) :
    ∃ u, t = u ++ r ∧ Der .typeDecl u v r := by
  unfold parseTypeDecl at h
  pb t1, h1 from h
  have := expectTok_ok h1; subst this
  pb ⟨n, t2⟩, h2 from h
  have := expectIdent_ok h2; subst this
  pb ⟨ps, t3⟩, h3 from h
  obtain ⟨u3, rfl, d3⟩ := params_sound ih h3
  pb t4, h4 from h
  have := expectTok_ok h4; subst this
  pb ⟨f, t5⟩, h5 from h
  obtain ⟨u5, rfl, d5⟩ := ih .field _ _ _ h5
  cases h
  exact ⟨.type :: .ident n :: (u3 ++ .equal :: u5), by simp, .typeDecl d3 d5⟩

theorem dflt_sound {t v r} (h : parseDflt rec t = .ok (v, r)) : ∃ u, t = u ++ r ∧ Gr .dflt u v := by
  unfold parseDflt at h
  split at h
  · rename_i t1 h1
    have := eatTok_some h1; subst this
    pb ⟨e, t2⟩, h2 from h
    obtain ⟨u2, rfl, d2⟩ := ih .expr _ _ _ h2
    cases h
    exact ⟨.question :: u2, rfl, .someDflt d2.1⟩
  · cases h; exact ⟨[], rfl, .noDflt⟩

theorem typeArgsLoop_sound {acc t v r} (h : parseTypeArgsLoop rec acc t = .ok (v, r)) :
    ∃ u, t = u ++ r ∧ Der (.typeArgsLoop acc) u v r := by
  unfold parseTypeArgsLoop at h
  split at h
  · rename_i t1 h1
    have := eatTok_some h1; subst this
    cases h
    exact ⟨[Token.rightParen], rfl, [], [], by simp, rfl, .paramNil⟩
  · pb ⟨n, t1⟩, h1 from h
    have := expectIdent_ok h1; subst this
    pb t2, h2 from h
    have := expectTok_ok h2; subst this
    pb ⟨ty, t3⟩, h3 from h
    obtain ⟨u3, rfl, d3⟩ := ih .type _ _ _ h3
    pb ⟨dv, t4⟩, h4 from h
    obtain ⟨u4, rfl, d4⟩ := dflt_sound ih h4
    split at h
    · rename_i t5 h5
      have := eatTok_some h5; subst this
      obtain ⟨u6, rfl, u', ps, rfl, rfl, d6⟩ := ih (.typeArgsLoop _) _ _ _ h
      exact ⟨(.ident n :: .colon :: (u3 ++ u4)) ++ Token.comma :: (u' ++ [Token.rightParen]), by simp,
        (.ident n :: .colon :: (u3 ++ u4)) ++ .comma :: u', ⟨n, ty, dv⟩ :: ps, by simp,
        by simp, .paramCons (.param d3 d4) d6⟩
    · pb t5, h5 from h
      have := expectTok_ok h5; subst this
      cases h
      exact ⟨(.ident n :: .colon :: (u3 ++ u4)) ++ [Token.rightParen], by simp,
        .ident n :: .colon :: (u3 ++ u4), [⟨n, ty, dv⟩], by simp, rfl, .paramLast (.param d3 d4)⟩

theorem importDecl_sound {t v r} (h : parseImportDecl rec t = .ok (v, r)) :
    ∃ u, t = u ++ r ∧ Der .importDecl u v r := by
  unfold parseImportDecl at h
  pb t1, h1 from h
  have := expectTok_ok h1; subst this
  pb ⟨is, t2⟩, h2 from h
  obtain ⟨u2, rfl, is', rfl, d2⟩ := ih (.importLoop []) _ _ _ h2
  pb t3, h3 from h
  have := expectTok_ok h3; subst this
  pb ⟨s, t4⟩, h4 from h
  have := expectString_ok h4; subst this
  cases h
  exact ⟨.import_ :: (u2 ++ [Token.from_, Token.string s]), by simp, .importDecl d2⟩

omit ih in
theorem alias_sound {t v r} (h : parseAlias t = .ok (v, r)) (n : String) :
    ∃ u, t = u ++ r ∧ Gr .importItem (.ident n :: u) ⟨n, v⟩ := by
  unfold parseAlias at h
  split at h
  · rename_i t1 h1
    have := eatTok_some h1; subst this
    pb ⟨a, t2⟩, h2 from h
    have := expectIdent_ok h2; subst this
    cases h
    exact ⟨[.as_, .ident a], rfl, .importAlias⟩
  · cases h; exact ⟨[], rfl, .importPlain⟩

theorem importLoop_sound {acc t v r} (h : parseImportLoop rec acc t = .ok (v, r)) :
    ∃ u, t = u ++ r ∧ Der (.importLoop acc) u v r := by
  unfold parseImportLoop at h
  pb ⟨n, t1⟩, h1 from h
  have := expectIdent_ok h1; subst this
  pb ⟨x, t2⟩, h2 from h
  obtain ⟨u2, rfl, d2⟩ := alias_sound h2 n
  split at h
  · cases h
    exact ⟨.ident n :: u2, rfl, [⟨n, x⟩], rfl, .importLast d2⟩
  · rename_i t3 h3
    have := eatTok_some h3; subst this
    pb p, h4 from h
    split at h
    · cases h
      exact ⟨(.ident n :: u2) ++ [Token.comma], by simp, [⟨n, x⟩], rfl, .importTrail d2⟩
    · obtain ⟨u5, rfl, is, rfl, d5⟩ := ih (.importLoop _) _ _ _ h
      exact ⟨(.ident n :: u2) ++ .comma :: u5, by simp, ⟨n, x⟩ :: is, by simp, .importCons d2 d5⟩

omit ih in
theorem ffiDecl_sound {t v r} (h : parseFfiDecl t = .ok (v, r)) : ∃ u, t = u ++ r ∧ Gr .body u v := by
  unfold parseFfiDecl at h
  pb t1, h1 from h
  have := expectTok_ok h1; subst this
  pb ⟨n, t2⟩, h2 from h
  have := expectIdent_ok h2; subst this
  pb t3, h3 from h
  have := expectTok_ok h3; subst this
  split at h
  · rename_i k t4 h4
    obtain ⟨rfl, -⟩ := eatAny_some h4
    pb k', h5 from h
    cases h
    have hk : k = ffiTok k' := by
      unfold ffiKind at h5
      split at h5 <;> first | (cases h5; rfl) | cases h5
    subst hk
    exact ⟨[.importFfi, .ident n, .as_, ffiTok k'], rfl, .ffiDecl⟩
  · split at h <;> cases h

theorem constDecl_sound {t v r} (h : parseConstDecl rec t = .ok (v, r)) :
    ∃ u, t = u ++ r ∧ Der .constDecl u v r := by
  unfold parseConstDecl at h
  pb t1, h1 from h
  have := expectTok_ok h1; subst this
  pb ⟨n, t2⟩, h2 from h
  have := expectIdent_ok h2; subst this
  pb t3, h3 from h
  have := expectTok_ok h3; subst this
  pb ⟨ty, t4⟩, h4 from h
  obtain ⟨u4, rfl, d4⟩ := ih .type _ _ _ h4
  pb t5, h5 from h
  have := expectTok_ok h5; subst this
  pb ⟨e, t6⟩, h6 from h
  obtain ⟨u6, rfl, d6⟩ := ih .expr _ _ _ h6
  cases h
  exact ⟨.const :: .ident n :: .colon :: (u4 ++ .equal :: u6), by simp, .constDecl d4 d6.1⟩

theorem body_sound {t v r} (h : parseBody rec t = .ok (v, r)) : ∃ u, t = u ++ r ∧ Gr .body u v := by
  unfold parseBody at h
  split at h
  · exact ih .typeDecl _ _ _ h
  · exact ih .importDecl _ _ _ h
  · exact ffiDecl_sound h
  · exact ih .constDecl _ _ _ h
  · cases h
  · cases h

theorem decl_sound {t v r} (h : parseDecl rec t = .ok (v, r)) : ∃ u, t = u ++ r ∧ Der .decl u v r := by
  unfold parseDecl at h
  pb ⟨d, t1⟩, h1 from h
  obtain ⟨u1, rfl, d1⟩ := body_sound ih h1
  pb t2, h2 from h
  have := expectTok_ok h2; subst this
  cases h
  exact ⟨u1 ++ [Token.semicolon], by simp, .decl d1, by simp⟩

theorem programLoop_sound {acc t v r} (h : parseProgramLoop rec acc t = .ok (v, r)) :
    ∃ u, t = u ++ r ∧ Der (.programLoop acc) u v r := by
  unfold parseProgramLoop at h
  split at h
  · cases h; exact ⟨[], rfl, [], by simp, .programNil, rfl⟩
  · pb ⟨d, t1⟩, h1 from h
    obtain ⟨u1, hu, d1⟩ := ih .decl _ _ _ h1
    obtain ⟨u2, rfl, ds, rfl, d2, hr⟩ := ih (.programLoop _) _ _ _ h
    exact ⟨u1 ++ u2, by rw [hu]; simp, d :: ds, by simp, .programCons d1.1 d2, hr⟩

theorem step_sound : Snd (step rec) := by
  intro g t v r h
  cases g
  · exact expr_sound ih h
  · exact lvl_sound ih h
  · exact lvlLoop_sound ih h
  · exact cast_sound ih h
  · exact castLoop_sound ih h
  · exact unary_sound ih h
  · exact index_sound ih h
  · exact indexLoop_sound ih h
  · exact primary_sound ih h
  · exact args_sound ih h
  · exact argsLoop_sound ih h
  · exact type_sound ih h
  · exact typeLoop_sound ih h
  · exact len_sound ih h
  · exact container_sound ih h
  · exact containerLoop_sound ih h
  · exact enum_sound ih h
  · exact enumLoop_sound ih h
  · exact bitfield_sound ih h
  · exact bitLoop_sound ih h
  · exact field_sound ih h
  · exact cond_sound ih h
  · exact calc_sound ih h
  · exact transLoop_sound ih h
  · exact typeDecl_sound ih h
  · exact typeArgsLoop_sound ih h
  · exact importDecl_sound ih h
  · exact importLoop_sound ih h
  · exact constDecl_sound ih h
  · exact decl_sound ih h
  · exact programLoop_sound ih h

omit ih in
theorem P_sound (n : Nat) : Snd (P n) := by
  induction n with
  | zero => intro g t v r h; cases h
  | succ n ih => exact step_sound ih

end Verif
