import Verif.ParserSafe
/-!
# Parser: everything the grammar derives is found
-/
namespace Verif

open Ast Props

theorem pok_bind {α β} (a : α) (f : α → PRes β) : (Except.ok a >>= f) = f a := rfl

/-- With enough depth, `g` returns `r`. -/
def Runs (g : NT) (t : Toks) (r : Out g × Toks) : Prop := ∃ n, ∀ m, n ≤ m → P m g t = .ok r

/-- Enough depth for the calls of one step is one less than enough depth for it. -/
theorem Runs.intro {g : NT} {t : Toks} {r : Out g × Toks} (h : ∃ n, ∀ m, n ≤ m → step (P m) g t = .ok r) :
    Runs g t r := by
  obtain ⟨n, h⟩ := h
  refine ⟨n + 1, fun m hm => ?_⟩
  cases m with
  | zero => omega
  | succ m => exact h m (by omega)

/-- Tokens that may continue an expression of precedence at least `k` (spec level). -/
def continues (k : Nat) (x : Token) : Bool :=
  x == .doubleColon || x == .leftParen || (scalarOf x).isSome ||
  (k ≤ 13 && (x == .leftSquare || x == .dot)) ||
  (k ≤ 11 && (x == .cast || x == .elvis)) ||
  (List.range 11).any (fun l => 1 ≤ l && k ≤ l && (levelToks l).contains x) ||
  (k == 0 && x == .question)

/-- What follows does not continue an expression of precedence at least `k`. -/
def Stop (k : Nat) (r : Toks) : Prop := ∃ x r', r = x :: r' ∧ continues k x = false

theorem continues_mono {k l : Nat} (h : k ≤ l) {x : Token} (hk : continues k x = false) :
    continues l x = false := by
  simp only [continues, Bool.or_eq_false_iff, List.any_eq_false, Bool.and_eq_false_iff, Bool.and_eq_true,
    decide_eq_true_eq, decide_eq_false_iff_not, List.mem_range, beq_eq_false_iff_ne, ne_eq] at *
  obtain ⟨⟨⟨⟨⟨⟨h1, h2⟩, h3⟩, h4⟩, h5⟩, h6⟩, h7⟩ := hk
  refine ⟨⟨⟨⟨⟨⟨h1, h2⟩, h3⟩, ?_⟩, ?_⟩, ?_⟩, ?_⟩
  · rcases h4 with h4 | h4
    · left; omega
    · right; exact h4
  · rcases h5 with h5 | h5
    · left; omega
    · right; exact h5
  · intro i hi hc
    exact h6 i hi ⟨⟨hc.1.1, by omega⟩, hc.2⟩
  · rcases h7 with h7 | h7
    · left; omega
    · right; exact h7

theorem Stop.mono {k l : Nat} (h : k ≤ l) {r : Toks} (hs : Stop k r) : Stop l r := by
  obtain ⟨x, r', rfl, hx⟩ := hs
  exact ⟨x, r', rfl, continues_mono h hx⟩

theorem Stop.cons {k : Nat} {x : Token} (r : Toks) (h : continues k x = false) : Stop k (x :: r) := ⟨x, r, rfl, h⟩

theorem Stop.eat {k : Nat} {r : Toks} (hs : Stop k r) {w : Token} (hw : continues k w = true) :
    eatTok w r = none := by
  obtain ⟨x, r', rfl, hx⟩ := hs
  have : x ≠ w := by rintro rfl; rw [hx] at hw; cases hw
  simp only [eatTok, if_neg this]

theorem Stop.eatAny {k : Nat} {r : Toks} (hs : Stop k r) {ws : List Token} (hw : ∀ w ∈ ws, continues k w = true) :
    eatAny ws r = none := by
  obtain ⟨x, r', rfl, hx⟩ := hs
  have : x ∉ ws := by intro h; rw [hw x h] at hx; cases hx
  simp only [Verif.eatAny, if_neg this]

theorem continues_levelToks {k l : Nat} (hk : k ≤ l) (x : Token) (hx : x ∈ levelToks l) : continues k x = true := by
  have : 1 ≤ l ∧ l ≤ 10 := by
    unfold levelToks at hx
    split at hx <;> simp at hx <;> omega
  simp only [continues, Bool.or_eq_true, List.any_eq_true]
  left; right
  exact ⟨l, by simp; omega, by simp [hx]; omega⟩

theorem Stop.scalar {k : Nat} {r : Toks} (hs : Stop k r) : parseScalar r = (none, r) := by
  obtain ⟨x, r', rfl, hx⟩ := hs
  cases h : scalarOf x with
  | none => simp only [parseScalar, h]
  | some s => simp [continues, h] at hx

/-- The tokens do not begin with `w`. -/
def NoHead (w : Token) (r : Toks) : Prop := ∀ r', r ≠ w :: r'

theorem NoHead.eat {w : Token} {r : Toks} (h : NoHead w r) : eatTok w r = none := by
  cases r with
  | nil => rfl
  | cons x r =>
    have : x ≠ w := by rintro rfl; exact h _ rfl
    simp only [eatTok, if_neg this]

theorem NoHead.cons {w x : Token} (r : Toks) (h : x ≠ w) : NoHead w (x :: r) := by
  intro r' h'; cases h'; exact h rfl

theorem eat_self (w : Token) (r : Toks) : eatTok w (w :: r) = some r := by simp [eatTok]

theorem expect_self (w : Token) (r : Toks) : expectTok w (w :: r) = .ok r := by simp [expectTok]

theorem flags_complete (fs : List String) {r : Toks} (h : NoHead .plus r) :
    parseFlags (flagToks fs ++ r) = .ok (fs, r) := by
  induction fs with
  | nil =>
    simp only [flagToks, List.flatMap_nil, List.nil_append]
    rw [parseFlags]
    · intro s ts h'; exact h _ h'
    · intro s ts h'; exact h _ h'
    · intro h'; exact h _ h'
  | cons s fs ih =>
    have : flagToks (s :: fs) ++ r = .plus :: .ident s :: (flagToks fs ++ r) := by simp [flagToks]
    rw [this, parseFlags, ih]; rfl

theorem noHead_flags {w : Token} (hw : w ≠ .plus) (fs : List String) {r : Toks} (h : NoHead w r) :
    NoHead w (flagToks fs ++ r) := by
  cases fs with
  | nil => exact h
  | cons s fs => exact .cons _ (Ne.symm hw)

/-! ## First tokens -/

/-- Tokens an expression begins with. -/
def exprStart : Token → Bool
  | .int _ | .string _ | .true | .false | .ident _ | .leftParen | .not | .minus | .bitNot => true
  | _ => false

/-- Tokens a declaration begins with. -/
def declStart : Token → Bool
  | .type | .import_ | .importFfi | .const => true
  | _ => false

/-- How the phrases begin. -/
def First : Sym → Toks → Prop
  | .lvl k, u => ∃ x u', u = x :: u' ∧ exprStart x = true ∧ (13 ≤ k → x ≠ .not ∧ x ≠ .minus ∧ x ≠ .bitNot)
  | .item, u => ∃ x u', u = x :: u' ∧ x ≠ .rightCurly
  | .enumItem _, u | .enumItems _, u | .bitItem _, u | .bitItems _, u | .param, u
  | .importItem, u | .importItems, u => ∃ n u', u = .ident n :: u'
  | .transform, u => ∃ u', u = .arrow :: u'
  | .transforms, u => u = [] ∨ ∃ u', u = .arrow :: u'
  | .cond, u => u = [] ∨ ∃ u', u = .leftCurly :: u'
  | .body, u | .decl, u => ∃ x u', u = x :: u' ∧ declStart x = true
  | _, _ => True

theorem gr_first {s : Sym} {u : Toks} {v : s.Val} (h : Gr s u v) : First s u := by
  induction h with
  | up _ ih => obtain ⟨x, u', rfl, hx, hk⟩ := ih; exact ⟨x, u', rfl, hx, fun h => hk (by omega)⟩
  | ternary _ _ _ ih => obtain ⟨x, u', rfl, hx, hk⟩ := ih; exact ⟨x, _, rfl, hx, fun h => by omega⟩
  | @binary op u v a b _ _ ih =>
    obtain ⟨x, u', rfl, hx, hk⟩ := ih
    exact ⟨x, _, rfl, hx, fun h => hk h⟩
  | cast _ _ ih => obtain ⟨x, u', rfl, hx, hk⟩ := ih; exact ⟨x, _, rfl, hx, fun h => by omega⟩
  | @unary op => exact ⟨_, _, rfl, by cases op <;> rfl, fun h => by omega⟩
  | index _ _ ih => obtain ⟨x, u', rfl, hx, hk⟩ := ih; exact ⟨x, _, rfl, hx, hk⟩
  | member _ ih => obtain ⟨x, u', rfl, hx, hk⟩ := ih; exact ⟨x, _, rfl, hx, hk⟩
  | int | intTyped | str | true | false | ref | enumAccess | call | paren =>
    exact ⟨_, _, rfl, rfl, fun _ => ⟨nofun, nofun, nofun⟩⟩
  | itemField | itemPad => exact ⟨_, _, rfl, nofun⟩
  | enumImplicit | enumDefault | enumExpr | bitImplicit | bitExpr | param | importPlain | importAlias =>
    exact ⟨_, _, rfl⟩
  | enumLast _ ih | bitLast _ ih | importLast _ ih => exact ih
  | enumTrail _ ih | bitTrail _ ih | importTrail _ ih => obtain ⟨x, u', rfl⟩ := ih; exact ⟨x, _, rfl⟩
  | enumCons _ _ ih | bitCons _ _ ih | importCons _ _ ih => obtain ⟨x, u', rfl⟩ := ih; exact ⟨x, _, rfl⟩
  | transform => exact ⟨_, rfl⟩
  | transNil | noCond => exact .inl rfl
  | transCons _ _ ih => obtain ⟨u', rfl⟩ := ih; exact .inr ⟨_, rfl⟩
  | someCond => exact .inr ⟨_, rfl⟩
  | typeDecl | importDecl | ffiDecl | constDecl => exact ⟨_, _, rfl, rfl⟩
  | decl _ ih => obtain ⟨x, u', rfl, h⟩ := ih; exact ⟨x, _, rfl, h⟩
  | _ => trivial

/-! ## Ways through the functions -/

/-- With enough depth, the part `f` of a function returns `r`. -/
def Ev {α : Type} (f : Rec → PRes α) (r : α) : Prop := ∃ n, ∀ m, n ≤ m → f (P m) = .ok r

theorem runs_loop_end {l : Nat} {e : Expression} {r : Toks} (h : Stop l r) : Runs (.lvlLoop l e) r (e, r) := by
  refine .intro ⟨0, fun m _ => ?_⟩
  simp only [step, parseLvlLoop, h.eatAny (continues_levelToks (Nat.le_refl _))]

theorem runs_castLoop_end {e : Expression} {r : Toks} (h : Stop 11 r) : Runs (.castLoop e) r (e, r) := by
  refine .intro ⟨0, fun m _ => ?_⟩
  simp only [step, parseCastLoop, h.eatAny (ws := [.cast, .elvis]) (by decide)]

theorem runs_indexLoop_end {e : Expression} {r : Toks} (h : Stop 13 r) : Runs (.indexLoop e) r (e, r) := by
  refine .intro ⟨0, fun m _ => ?_⟩
  simp only [step, parseIndexLoop, h.eatAny (ws := [.leftSquare, .dot]) (by decide)]

theorem ev_operand_lvl {l : Nat} (hl : l < 10) {t : Toks} {r : Expression × Toks} (h : Runs (.lvl (l + 1)) t r) :
    Ev (fun rec => parseOperand rec l t) r := by
  obtain ⟨n, h⟩ := h
  exact ⟨n, fun m hm => by simp only [parseOperand, hl, if_true]; exact h m hm⟩

theorem ev_operand_cast {t : Toks} {r : Expression × Toks} (h : Runs .cast t r) :
    Ev (fun rec => parseOperand rec 10 t) r := by
  obtain ⟨n, h⟩ := h
  exact ⟨n, fun m hm => by simp only [parseOperand, Nat.lt_irrefl, if_false]; exact h m hm⟩

theorem runs_lvl {l : Nat} {t t' : Toks} {e r} (h1 : Ev (fun rec => parseOperand rec l t) (e, t'))
    (h2 : Runs (.lvlLoop l e) t' r) : Runs (.lvl l) t r := by
  obtain ⟨n1, h1⟩ := h1
  obtain ⟨n2, h2⟩ := h2
  refine .intro ⟨n1 + n2, fun m hm => ?_⟩
  simp only [step, parseLvl, h1 m (by omega), pok_bind]
  exact h2 m (by omega)

theorem opTok_mem {op : BinOp} (h : op ≠ .elvis) : opTok op ∈ levelToks (prec op) := by
  cases op <;> first | decide | exact absurd rfl h

theorem levelOp_opTok {op : BinOp} (h : op ≠ .elvis) : levelOp (prec op) (opTok op) = some op := by
  cases op <;> first | rfl | exact absurd rfl h

theorem eatAny_self {ws : List Token} {x : Token} (h : x ∈ ws) (r : Toks) : eatAny ws (x :: r) = some (x, r) := by
  simp [eatAny, h]

theorem runs_loop_op {op : BinOp} (hop : op ≠ .elvis) {a b : Expression} {t t' : Toks} {r}
    (h1 : Ev (fun rec => parseOperand rec (prec op) t) (b, t'))
    (h2 : Runs (.lvlLoop (prec op) (.binary op a b)) t' r) :
    Runs (.lvlLoop (prec op) a) (opTok op :: t) r := by
  obtain ⟨n1, h1⟩ := h1
  obtain ⟨n2, h2⟩ := h2
  refine .intro ⟨n1 + n2, fun m hm => ?_⟩
  simp only [step, parseLvlLoop, eatAny_self (opTok_mem hop), h1 m (by omega), pok_bind, levelOp_opTok hop]
  exact h2 m (by omega)

theorem runs_cast {t t' : Toks} {e r} (h1 : Runs .unary t (e, t')) (h2 : Runs (.castLoop e) t' r) :
    Runs .cast t r := by
  obtain ⟨n1, h1⟩ := h1
  obtain ⟨n2, h2⟩ := h2
  refine .intro ⟨n1 + n2, fun m hm => ?_⟩
  simp only [step, parseCast, h1 m (by omega), pok_bind]
  exact h2 m (by omega)

theorem runs_castLoop_cast {e : Expression} {ty : Ty} {t t' : Toks} {r} (h1 : Runs .type t (ty, t'))
    (h2 : Runs (.castLoop (.cast e ty)) t' r) : Runs (.castLoop e) (.cast :: t) r := by
  obtain ⟨n1, h1⟩ := h1
  obtain ⟨n2, h2⟩ := h2
  refine .intro ⟨n1 + n2, fun m hm => ?_⟩
  simp only [step, parseCastLoop, eatAny_self (ws := [.cast, .elvis]) (x := .cast) (by decide), h1 m (by omega), pok_bind]
  exact h2 m (by omega)

theorem runs_castLoop_elvis {e b : Expression} {t t' : Toks} {r} (h1 : Runs .unary t (b, t'))
    (h2 : Runs (.castLoop (.binary .elvis e b)) t' r) : Runs (.castLoop e) (.elvis :: t) r := by
  obtain ⟨n1, h1⟩ := h1
  obtain ⟨n2, h2⟩ := h2
  refine .intro ⟨n1 + n2, fun m hm => ?_⟩
  simp only [step, parseCastLoop, eatAny_self (ws := [.cast, .elvis]) (x := .elvis) (by decide), h1 m (by omega), pok_bind]
  exact h2 m (by omega)

theorem unaryToks_ops (ops : List UnOp) {x : Token} {u : Toks}
    (hx : x ≠ .not ∧ x ≠ .minus ∧ x ≠ .bitNot) : unaryToks (ops.map unTok ++ x :: u) = (ops.map unTok, x :: u) := by
  induction ops with
  | nil =>
    have : x ∉ [Token.not, .minus, .bitNot] := by simp [hx]
    simp only [List.map_nil, List.nil_append, unaryToks, if_neg this]
  | cons op ops ih =>
    have : unTok op ∈ [Token.not, .minus, .bitNot] := by cases op <;> decide
    simp only [List.map_cons, List.cons_append, unaryToks, if_pos this, ih]

theorem applyUnary_ops (ops : List UnOp) (e : Expression) :
    applyUnary (ops.map unTok) e = .ok (ops.foldr (fun op e => .unary op e) e) := by
  induction ops with
  | nil => rfl
  | cons op ops ih =>
    simp only [List.map_cons, applyUnary, ih, pok_bind, List.foldr_cons]
    cases op <;> rfl

theorem runs_unary {ops : List UnOp} {x : Token} {u t' : Toks} {e : Expression}
    (hx : x ≠ .not ∧ x ≠ .minus ∧ x ≠ .bitNot) (h1 : Runs .index (x :: u) (e, t')) :
    Runs .unary (ops.map unTok ++ x :: u) (ops.foldr (fun op e => .unary op e) e, t') := by
  obtain ⟨n1, h1⟩ := h1
  refine .intro ⟨n1, fun m hm => ?_⟩
  simp only [step, parseUnary, unaryToks_ops ops hx, h1 m (by omega), pok_bind, applyUnary_ops]

theorem runs_index {t t' r : Toks} {e e' : Expression} (h1 : Runs .primary t (e, t'))
    (h2 : Runs (.indexLoop e) t' (e', r)) (hr : NoHead .leftSquare r) : Runs .index t (e', r) := by
  obtain ⟨n1, h1⟩ := h1
  obtain ⟨n2, h2⟩ := h2
  refine .intro ⟨n1 + n2, fun m hm => ?_⟩
  have : r.dropWhile (· == .leftSquare) = r := by
    cases r with
    | nil => rfl
    | cons a r =>
      rw [List.dropWhile_cons_of_neg]
      intro ha; rw [beq_iff_eq] at ha; subst ha; exact hr _ rfl
  simp only [step, parseIndex, h1 m (by omega), pok_bind, h2 m (by omega), this]

theorem runs_indexLoop_index {a i : Expression} {t t' : Toks} {r} (h1 : Runs .expr t (i, .rightSquare :: t'))
    (h2 : Runs (.indexLoop (.index a i)) t' r) : Runs (.indexLoop a) (.leftSquare :: t) r := by
  obtain ⟨n1, h1⟩ := h1
  obtain ⟨n2, h2⟩ := h2
  refine .intro ⟨n1 + n2, fun m hm => ?_⟩
  simp only [step, parseIndexLoop, eatAny_self (ws := [.leftSquare, .dot]) (x := .leftSquare) (by decide),
    h1 m (by omega), pok_bind, expect_self]
  exact h2 m (by omega)

theorem runs_indexLoop_member {a : Expression} {n : String} {t : Toks} {r}
    (h2 : Runs (.indexLoop (.member a n)) t r) : Runs (.indexLoop a) (.dot :: .ident n :: t) r := by
  obtain ⟨n2, h2⟩ := h2
  refine .intro ⟨n2, fun m hm => ?_⟩
  simp only [step, parseIndexLoop, eatAny_self (ws := [.leftSquare, .dot]) (x := .dot) (by decide),
    expectIdent, pok_bind]
  exact h2 m (by omega)

theorem runs_expr {t r : Toks} {e : Expression} (h1 : Runs (.lvl 1) t (e, r)) (hr : Stop 0 r) :
    Runs .expr t (e, r) := by
  obtain ⟨n1, h1⟩ := h1
  refine .intro ⟨n1, fun m hm => ?_⟩
  simp only [step, parseExpr, h1 m (by omega), pok_bind, hr.eat (w := .question) (by decide)]

theorem runs_ternary {t t1 t2 r : Toks} {c a b : Expression} (h1 : Runs (.lvl 1) t (c, .question :: t1))
    (h2 : Runs .expr t1 (a, .colon :: t2)) (h3 : Runs (.lvl 1) t2 (b, r)) :
    Runs .expr t (.ternary c a b, r) := by
  obtain ⟨n1, h1⟩ := h1
  obtain ⟨n2, h2⟩ := h2
  obtain ⟨n3, h3⟩ := h3
  refine .intro ⟨n1 + n2 + n3, fun m hm => ?_⟩
  simp only [step, parseExpr, h1 m (by omega), pok_bind, eat_self, h2 m (by omega), expect_self, h3 m (by omega)]

/-! ## What completeness says about each kind of phrase -/

/-- Expressions. Left associative levels are stated with the loop that goes on after the phrase. -/
def CExpr (k : Nat) (u : Toks) (e : Expression) : Prop :=
  (k = 0 → ∀ rest, Stop 0 rest → Runs .expr (u ++ rest) (e, rest)) ∧
  (1 ≤ k → k ≤ 10 → ∀ rest r, Stop (k + 1) rest → Runs (.lvlLoop k e) rest r → Runs (.lvl k) (u ++ rest) r) ∧
  (k = 11 → ∀ rest r, Stop 12 rest → Runs (.castLoop e) rest r → Runs .cast (u ++ rest) r) ∧
  (k = 12 → ∃ ops u' e', u = List.map unTok ops ++ u' ∧ e = List.foldr (fun op e => .unary op e) e' ops ∧
    First (.lvl 13) u' ∧
    ∀ rest e'' r, Stop 14 rest → Runs (.indexLoop e') rest (e'', r) → NoHead .leftSquare r →
      Runs .index (u' ++ rest) (e'', r)) ∧
  (k = 13 → ∀ rest e' r, Stop 14 rest → Runs (.indexLoop e) rest (e', r) → NoHead .leftSquare r →
    Runs .index (u ++ rest) (e', r)) ∧
  (k = 14 → ∀ rest, Stop 14 rest → Runs .primary (u ++ rest) (e, rest)) ∧
  k ≤ 14

theorem Stop.noSquare {r : Toks} (h : Stop 13 r) : NoHead .leftSquare r := by
  intro r' h'; subst h'
  obtain ⟨x, r'', h', hx⟩ := h
  cases h'; revert hx; decide

theorem CExpr.unary {u : Toks} {e : Expression} (h : CExpr 12 u e) {rest : Toks} (hr : Stop 12 rest) :
    Runs .unary (u ++ rest) (e, rest) := by
  obtain ⟨ops, u', e', rfl, rfl, ⟨x, u'', rfl, -, hx⟩, hi⟩ := h.2.2.2.1 rfl
  rw [List.append_assoc]
  have h13 : Stop 13 rest := hr.mono (by omega)
  exact runs_unary (hx (by omega)) (hi _ _ _ (hr.mono (by omega)) (runs_indexLoop_end h13) h13.noSquare)

/-- An operand at level `l`. -/
theorem CExpr.operand {l : Nat} (h1 : 1 ≤ l) (hl : l ≤ 10) {u : Toks} {e : Expression} (h : CExpr (l + 1) u e)
    {rest : Toks} (hr : Stop (l + 1) rest) : Ev (fun rec => parseOperand rec l (u ++ rest)) (e, rest) := by
  by_cases h10 : l = 10
  · subst h10
    exact ev_operand_cast (h.2.2.1 rfl _ _ (hr.mono (by omega)) (runs_castLoop_end hr))
  · exact ev_operand_lvl (by omega)
      (h.2.1 (by omega) (by omega) _ _ (hr.mono (by omega)) (runs_loop_end hr))

theorem CExpr.up {k : Nat} {u : Toks} {e : Expression} (h : CExpr (k + 1) u e) (hf : First (.lvl (k + 1)) u) :
    CExpr k u e := by
  have hk := h.2.2.2.2.2.2
  refine ⟨?_, ?_, ?_, ?_, ?_, ?_, by omega⟩
  · rintro rfl rest hr
    exact runs_expr (h.2.1 (by omega) (by omega) _ _ (hr.mono (by omega)) (runs_loop_end (hr.mono (by omega)))) hr
  · intro h1 h10 rest r hr hl
    exact runs_lvl (h.operand h1 h10 hr) hl
  · rintro rfl rest r hr hl
    exact runs_cast (h.unary hr) hl
  · rintro rfl
    exact ⟨[], u, e, rfl, rfl, hf, h.2.2.2.2.1 rfl⟩
  · rintro rfl rest e' r hr hl hn
    exact runs_index (h.2.2.2.2.2.1 rfl _ hr) hl hn
  · rintro rfl; omega

/-- `CExpr` at level 0. -/
theorem CExpr.expr {u : Toks} {e : Expression} (h : CExpr 0 u e) {rest : Toks} (hr : Stop 0 rest) :
    Runs .expr (u ++ rest) (e, rest) := h.1 rfl rest hr

theorem CExpr.castL {u : Toks} {e : Expression} (h : CExpr 11 u e) {rest : Toks} {r} (hr : Stop 12 rest)
    (hl : Runs (.castLoop e) rest r) : Runs .cast (u ++ rest) r := h.2.2.1 rfl rest r hr hl

theorem CExpr.of0 {u : Toks} {e : Expression} (h : ∀ rest, Stop 0 rest → Runs .expr (u ++ rest) (e, rest)) :
    CExpr 0 u e := ⟨fun _ => h, by omega, by omega, by omega, by omega, by omega, by omega⟩

theorem CExpr.of14 {u : Toks} {e : Expression} (h : ∀ rest, Stop 14 rest → Runs .primary (u ++ rest) (e, rest)) :
    CExpr 14 u e := ⟨by omega, by omega, by omega, by omega, by omega, fun _ => h, by omega⟩

theorem CExpr.of11 {u : Toks} {e : Expression}
    (h : ∀ rest r, Stop 12 rest → Runs (.castLoop e) rest r → Runs .cast (u ++ rest) r) :
    CExpr 11 u e := ⟨by omega, by omega, fun _ => h, by omega, by omega, by omega, by omega⟩

theorem CExpr.of13 {u : Toks} {e : Expression}
    (h : ∀ rest e' r, Stop 14 rest → Runs (.indexLoop e) rest (e', r) → NoHead .leftSquare r →
      Runs .index (u ++ rest) (e', r)) :
    CExpr 13 u e := ⟨by omega, by omega, by omega, by omega, fun _ => h, by omega, by omega⟩

theorem prec_range (op : BinOp) : 1 ≤ prec op ∧ prec op ≤ 11 ∧ (prec op = 11 ↔ op = .elvis) := by
  cases op <;> decide

theorem continues_opTok (op : BinOp) : continues (prec op + 1) (opTok op) = false := by
  cases op <;> decide

theorem CExpr.binary {op : BinOp} {u v : Toks} {a b : Expression} (h1 : CExpr (prec op) u a)
    (h2 : CExpr (prec op + 1) v b) : CExpr (prec op) (u ++ opTok op :: v) (.binary op a b) := by
  obtain ⟨p1, p2, p3⟩ := prec_range op
  have hc := continues_opTok op
  by_cases he : op = .elvis
  · subst he
    refine .of11 fun rest r hr hl => ?_
    rw [List.append_assoc]
    exact h1.2.2.1 rfl _ _ (.cons _ hc) (runs_castLoop_elvis (CExpr.unary h2 hr) hl)
  · have hne : prec op ≠ 11 := fun h => he (p3.mp h)
    refine ⟨by omega, fun _ _ rest r hr hl => ?_, by omega, by omega, by omega, by omega, by omega⟩
    rw [List.append_assoc]
    exact h1.2.1 p1 (by omega) _ _ (.cons _ hc) (runs_loop_op he (h2.operand p1 (by omega) hr) hl)

theorem CExpr.ternary {u v w : Toks} {c a b : Expression} (h1 : CExpr 1 u c) (h2 : CExpr 0 v a) (h3 : CExpr 1 w b) :
    CExpr 0 (u ++ .question :: (v ++ .colon :: w)) (.ternary c a b) := by
  refine .of0 fun rest hr => ?_
  simp only [List.append_assoc, List.cons_append]
  have e1 : Stop 1 (.question :: (v ++ .colon :: (w ++ rest))) := .cons _ (by decide)
  exact runs_ternary (h1.2.1 (by omega) (by omega) _ _ (e1.mono (by omega)) (runs_loop_end e1))
    (h2.expr (.cons _ (by decide)))
    (h3.2.1 (by omega) (by omega) _ _ (hr.mono (by omega)) (runs_loop_end (hr.mono (by omega))))

theorem CExpr.unaryOp {op : UnOp} {u : Toks} {e : Expression} (h : CExpr 12 u e) :
    CExpr 12 (unTok op :: u) (.unary op e) := by
  obtain ⟨ops, u', e', rfl, rfl, hf, hi⟩ := h.2.2.2.1 rfl
  refine ⟨by omega, by omega, by omega, fun _ => ?_, by omega, by omega, by omega⟩
  exact ⟨op :: ops, u', e', rfl, rfl, hf, hi⟩

theorem CExpr.index {u v : Toks} {a i : Expression} (h1 : CExpr 13 u a) (h2 : CExpr 0 v i) :
    CExpr 13 (u ++ .leftSquare :: (v ++ [.rightSquare])) (.index a i) := by
  refine .of13 fun rest e' r hr hl hn => ?_
  simp only [List.append_assoc, List.cons_append, List.nil_append]
  exact h1.2.2.2.2.1 rfl _ _ _ (.cons _ (by decide))
    (runs_indexLoop_index (h2.expr (.cons _ (by decide))) hl) hn

theorem CExpr.member {u : Toks} {a : Expression} {n : String} (h1 : CExpr 13 u a) :
    CExpr 13 (u ++ [.dot, .ident n]) (.member a n) := by
  refine .of13 fun rest e' r hr hl hn => ?_
  simp only [List.append_assoc, List.cons_append, List.nil_append]
  exact h1.2.2.2.2.1 rfl _ _ _ (.cons _ (by decide)) (runs_indexLoop_member hl) hn

theorem scalarOf_tok {k : EScalar} {t : Token} (h : scalarTok k = some t) : scalarOf t = some k := by
  obtain ⟨s, e⟩ := k
  cases s <;> cases e <;> simp [scalarTok] at h <;> subst h <;> rfl

theorem parseScalar_tok {k : EScalar} {t : Token} (h : scalarTok k = some t) (r : Toks) :
    parseScalar (t :: r) = (some k, r) := by
  simp only [parseScalar, scalarOf_tok h]

/-- What completeness says about each kind of phrase. -/
def Comp : (s : Sym) → Toks → s.Val → Prop
  | .lvl k, u, e => CExpr k u e
  | .args, u, es => ∀ acc rest, Runs (.argsLoop acc) (u ++ .rightParen :: rest) (acc ++ es, rest)
  | .optArgs, u, es => ∀ rest, NoHead .leftParen rest → Runs .args (u ++ rest) (es, rest)
  | .bracket, u, e => ∀ rest, NoHead .leftSquare rest → Ev (fun rec => parseBracket rec (u ++ rest)) (e, rest)
  | .cond, u, e => ∀ rest, NoHead .leftCurly rest → Runs .cond (u ++ rest) (e, rest)
  | .dflt, u, e => ∀ rest, Stop 0 rest → Ev (fun rec => parseDflt rec (u ++ rest)) (e, rest)
  | .type, u, ty => ∀ rest r, NoHead .leftParen rest → Runs (.typeLoop ty) rest r → Runs .type (u ++ rest) r
  | .len, u, l => ∀ rest, Runs .len (u ++ .rightSquare :: rest) (l, .rightSquare :: rest)
  | .item, u, i => ∀ acc,
      (∀ rest r, Runs (.containerLoop (acc ++ [i])) rest r → Runs (.containerLoop acc) (u ++ .comma :: rest) r) ∧
      (∀ rest, Runs (.containerLoop acc) (u ++ .rightCurly :: rest) (acc ++ [i], .rightCurly :: rest))
  | .items, u, is => ∀ acc rest,
      Runs (.containerLoop acc) (u ++ .rightCurly :: rest) (acc ++ is, .rightCurly :: rest)
  | .enumItem b, u, i => ∀ acc, acc.isEmpty = b →
      (∀ n rest r, Runs (.enumLoop (acc ++ [i])) (.ident n :: rest) r →
        Runs (.enumLoop acc) (u ++ .comma :: .ident n :: rest) r) ∧
      (∀ rest, Runs (.enumLoop acc) (u ++ .rightCurly :: rest) (acc ++ [i], .rightCurly :: rest)) ∧
      (∀ rest, Runs (.enumLoop acc) (u ++ .comma :: .rightCurly :: rest) (acc ++ [i], .rightCurly :: rest))
  | .enumItems b, u, is => ∀ acc rest, acc.isEmpty = b →
      Runs (.enumLoop acc) (u ++ .rightCurly :: rest) (acc ++ is, .rightCurly :: rest)
  | .bitItem b, u, i => ∀ acc, acc.isEmpty = b →
      (∀ n rest r, Runs (.bitLoop (acc ++ [i])) (.ident n :: rest) r →
        Runs (.bitLoop acc) (u ++ .comma :: .ident n :: rest) r) ∧
      (∀ rest, Runs (.bitLoop acc) (u ++ .rightCurly :: rest) (acc ++ [i], .rightCurly :: rest)) ∧
      (∀ rest, Runs (.bitLoop acc) (u ++ .comma :: .rightCurly :: rest) (acc ++ [i], .rightCurly :: rest))
  | .bitItems b, u, is => ∀ acc rest, acc.isEmpty = b →
      Runs (.bitLoop acc) (u ++ .rightCurly :: rest) (acc ++ is, .rightCurly :: rest)
  | .field, u, f => ∀ x rest, x ∈ [Token.comma, .rightCurly, .semicolon] →
      Runs .field (u ++ x :: rest) (f, x :: rest)
  | .transform, u, t => ∀ acc rest r, NoHead .leftParen rest → NoHead .leftCurly rest →
      Runs (.transLoop (acc ++ [t])) rest r → Runs (.transLoop acc) (u ++ rest) r
  | .transforms, u, ts => ∀ acc x rest, x ∈ [Token.comma, .rightCurly, .semicolon] →
      Runs (.transLoop acc) (u ++ x :: rest) (acc ++ ts, x :: rest)
  | .param, u, p => ∀ acc,
      (∀ rest r, Runs (.typeArgsLoop (acc ++ [p])) rest r → Runs (.typeArgsLoop acc) (u ++ .comma :: rest) r) ∧
      (∀ rest, Runs (.typeArgsLoop acc) (u ++ .rightParen :: rest) (acc ++ [p], rest))
  | .paramList, u, ps => ∀ acc rest, Runs (.typeArgsLoop acc) (u ++ .rightParen :: rest) (acc ++ ps, rest)
  | .params, u, ps => ∀ rest, Ev (fun rec => parseParams rec (u ++ .equal :: rest)) (ps, .equal :: rest)
  | .importItem, u, i => ∀ acc,
      (∀ n rest r, Runs (.importLoop (acc ++ [i])) (.ident n :: rest) r →
        Runs (.importLoop acc) (u ++ .comma :: .ident n :: rest) r) ∧
      (∀ rest, Runs (.importLoop acc) (u ++ .from_ :: rest) (acc ++ [i], .from_ :: rest)) ∧
      (∀ rest, Runs (.importLoop acc) (u ++ .comma :: .from_ :: rest) (acc ++ [i], .from_ :: rest))
  | .importItems, u, is => ∀ acc rest,
      Runs (.importLoop acc) (u ++ .from_ :: rest) (acc ++ is, .from_ :: rest)
  | .body, u, d => ∀ rest, Ev (fun rec => parseBody rec (u ++ .semicolon :: rest)) (d, .semicolon :: rest)
  | .decl, u, d => ∀ rest, Runs .decl (u ++ rest) (d, rest)
  | .program, u, ds => ∀ acc, Runs (.programLoop acc) u (acc ++ ds, [])

/-! ### Atoms -/

theorem comp_int {s : String} : Comp (.lvl 14) [.int s] (.int s none) := by
  refine CExpr.of14 fun rest hr => .intro ⟨0, fun m _ => ?_⟩
  simp only [step, List.cons_append, List.nil_append, parsePrimary, hr.scalar, Option.map_none]

theorem comp_intTyped {s : String} {k : EScalar} {t : Token} (h : scalarTok k = some t) :
    Comp (.lvl 14) [.int s, t] (.int s (some k.scalar)) := by
  refine CExpr.of14 fun rest hr => .intro ⟨0, fun m _ => ?_⟩
  simp only [step, List.cons_append, List.nil_append, parsePrimary, parseScalar_tok h, Option.map_some]

theorem comp_str {s : Text} : Comp (.lvl 14) [.string s] (.str s) :=
  CExpr.of14 fun _ _ => .intro ⟨0, fun _ _ => rfl⟩

theorem comp_true : Comp (.lvl 14) [.true] (.bool true) :=
  CExpr.of14 fun _ _ => .intro ⟨0, fun _ _ => rfl⟩

theorem comp_false : Comp (.lvl 14) [.false] (.bool false) :=
  CExpr.of14 fun _ _ => .intro ⟨0, fun _ _ => rfl⟩

theorem comp_ref {n : String} : Comp (.lvl 14) [.ident n] (.ref n) := by
  refine CExpr.of14 fun rest hr => .intro ⟨0, fun m _ => ?_⟩
  have h1 := hr.eat (w := .doubleColon) (by decide)
  obtain ⟨x, r', rfl, hx⟩ := hr
  have h2 : (x == Token.leftParen) = false := by
    rw [beq_eq_false_iff_ne]; rintro rfl; revert hx; decide
  simp only [step, List.cons_append, List.nil_append, parsePrimary, h1, peekTok, h2, pok_bind]
  rfl

theorem comp_enumAccess {n k : String} : Comp (.lvl 14) [.ident n, .doubleColon, .ident k] (.enumAccess n k) := by
  refine CExpr.of14 fun rest hr => .intro ⟨0, fun m _ => ?_⟩
  simp only [step, List.cons_append, List.nil_append, parsePrimary, eat_self, expectIdent, pok_bind]

theorem comp_call {n : String} {u : Toks} {as : List Expression} (h : Comp .args u as) :
    Comp (.lvl 14) (.ident n :: .leftParen :: (u ++ [.rightParen])) (.call n as) := by
  refine CExpr.of14 fun rest hr => .intro ?_
  obtain ⟨k, h⟩ := h [] rest
  refine ⟨k + 1, fun m hm => ?_⟩
  have h2 : P m .args (.leftParen :: (u ++ .rightParen :: rest)) = .ok (as, rest) := by
    cases m with
    | zero => omega
    | succ m =>
      simp only [P, step, parseArgs, eat_self]
      exact h m (by omega)
  have h1 : eatTok .doubleColon (.leftParen :: (u ++ .rightParen :: rest)) = none := by simp [eatTok]
  simp only [step, List.cons_append, List.nil_append, List.append_assoc, parsePrimary, h1, peekTok, beq_self_eq_true,
    pok_bind, if_true, h2]

theorem comp_paren {u : Toks} {e : Expression} (h : Comp (.lvl 0) u e) :
    Comp (.lvl 14) (.leftParen :: (u ++ [.rightParen])) e := by
  refine CExpr.of14 fun rest hr => .intro ?_
  obtain ⟨k, h⟩ := CExpr.expr h (rest := .rightParen :: rest) (.cons _ (by decide))
  refine ⟨k, fun m hm => ?_⟩
  simp only [step, List.cons_append, List.nil_append, List.append_assoc, parsePrimary, h m hm, pok_bind, expect_self]

/-! ### Arguments and optional clauses -/

theorem First.notRightParen {k : Nat} {u : Toks} (h : First (.lvl k) u) (r : Toks) :
    eatTok .rightParen (u ++ r) = none := by
  obtain ⟨x, u', rfl, hx, -⟩ := h
  have : x ≠ .rightParen := by rintro rfl; cases hx
  simp [eatTok, this]

theorem comp_argsNil : Comp .args [] [] := fun acc rest => .intro ⟨0, fun m _ => by
  simp only [step, parseArgsLoop, List.nil_append, eat_self, List.append_nil]⟩

theorem comp_argsLast {u : Toks} {e : Expression} (g : Gr (.lvl 0) u e) (h : Comp (.lvl 0) u e) :
    Comp .args u [e] := fun acc rest => by
  obtain ⟨k, h⟩ := CExpr.expr h (rest := .rightParen :: rest) (.cons _ (by decide))
  refine .intro ⟨k, fun m hm => ?_⟩
  have h1 : eatTok .comma (.rightParen :: rest) = none := by simp [eatTok]
  simp only [step, parseArgsLoop, (gr_first g).notRightParen, h m hm, pok_bind, h1, expect_self]

theorem comp_argsCons {u v : Toks} {e : Expression} {es} (g : Gr (.lvl 0) u e) (h : Comp (.lvl 0) u e)
    (h2 : Comp .args v es) : Comp .args (u ++ .comma :: v) (e :: es) := fun acc rest => by
  obtain ⟨k, h⟩ := CExpr.expr h (rest := .comma :: (v ++ .rightParen :: rest)) (.cons _ (by decide))
  obtain ⟨k2, h2⟩ := h2 (acc ++ [e]) rest
  refine .intro ⟨k + k2, fun m hm => ?_⟩
  simp only [step, parseArgsLoop, List.append_assoc, List.cons_append, (gr_first g).notRightParen, h m (by omega),
    pok_bind, eat_self]
  rw [h2 m (by omega)]; simp

theorem comp_noArgs : Comp .optArgs [] [] := fun rest hr => .intro ⟨0, fun m _ => by
  simp only [step, parseArgs, List.nil_append, hr.eat]⟩

theorem comp_someArgs {u : Toks} {es} (h : Comp .args u es) : Comp .optArgs (.leftParen :: (u ++ [.rightParen])) es :=
  fun rest hr => by
  obtain ⟨k, h⟩ := h [] rest
  refine .intro ⟨k, fun m hm => ?_⟩
  simp only [step, parseArgs, List.append_assoc, List.cons_append, List.nil_append, eat_self]
  exact h m hm

theorem comp_noBracket : Comp .bracket [] none := fun rest hr => ⟨0, fun m _ => by
  simp only [parseBracket, List.nil_append, hr.eat]⟩

theorem comp_someBracket {u : Toks} {e} (h : Comp (.lvl 0) u e) :
    Comp .bracket (.leftSquare :: (u ++ [.rightSquare])) (some e) := fun rest hr => by
  obtain ⟨k, h⟩ := CExpr.expr h (rest := .rightSquare :: rest) (.cons _ (by decide))
  refine ⟨k, fun m hm => ?_⟩
  simp only [parseBracket, List.append_assoc, List.cons_append, List.nil_append, eat_self, h m hm, pok_bind, expect_self]

theorem comp_noCond : Comp .cond [] none := fun rest hr => .intro ⟨0, fun m _ => by
  simp only [step, parseCond, List.nil_append, hr.eat]⟩

theorem comp_someCond {u : Toks} {e} (h : Comp (.lvl 0) u e) :
    Comp .cond (.leftCurly :: (u ++ [.rightCurly])) (some e) := fun rest hr => by
  obtain ⟨k, h⟩ := CExpr.expr h (rest := .rightCurly :: rest) (.cons _ (by decide))
  refine .intro ⟨k, fun m hm => ?_⟩
  simp only [step, parseCond, List.append_assoc, List.cons_append, List.nil_append, eat_self, h m hm, pok_bind, expect_self]

theorem comp_noDflt : Comp .dflt [] none := fun rest hr => ⟨0, fun m _ => by
  simp only [parseDflt, List.nil_append, hr.eat (w := .question) (by decide)]⟩

theorem comp_someDflt {u : Toks} {e} (h : Comp (.lvl 0) u e) :
    Comp .dflt (.question :: u) (some e) := fun rest hr => by
  obtain ⟨k, h⟩ := CExpr.expr h hr
  refine ⟨k, fun m hm => ?_⟩
  simp only [parseDflt, List.cons_append, eat_self, h m hm, pok_bind]

/-! ### Types -/

theorem runs_type {t t' : Toks} {ty r} (h1 : Ev (fun rec => parseRaw rec t) (ty, t'))
    (h2 : Runs (.typeLoop ty) t' r) : Runs .type t r := by
  obtain ⟨n1, h1⟩ := h1
  obtain ⟨n2, h2⟩ := h2
  refine .intro ⟨n1 + n2, fun m hm => ?_⟩
  simp only [step, parseType, h1 m (by omega), pok_bind]
  exact h2 m (by omega)

theorem comp_scalar {k : EScalar} {t : Token} (h : scalarTok k = some t) : Comp .type [t] (.scalar k) :=
  fun rest r hr hl => runs_type ⟨0, fun m _ => by
    have h1 : t ≠ .container := by rintro rfl; have := scalarOf_tok h; cases this
    have h2 : t ≠ .enum := by rintro rfl; have := scalarOf_tok h; cases this
    have h3 : t ≠ .bitfield := by rintro rfl; have := scalarOf_tok h; cases this
    have : parseRaw (P m) (t :: rest) = parseSimple (P m) (t :: rest) := by
      unfold parseRaw; split <;> simp_all
    simp only [List.cons_append, List.nil_append, this, parseSimple, parseScalar_tok h]⟩ hl

theorem comp_f32 : Comp .type [.f32] .f32 := fun _ _ _ hl => runs_type ⟨0, fun _ _ => rfl⟩ hl
theorem comp_f64 : Comp .type [.f64] .f64 := fun _ _ _ hl => runs_type ⟨0, fun _ _ => rfl⟩ hl
theorem comp_bool : Comp .type [.bool] .bool := fun _ _ _ hl => runs_type ⟨0, fun _ _ => rfl⟩ hl

theorem comp_typeRef {n : String} {u : Toks} {as} (h : Comp .optArgs u as) : Comp .type (.ident n :: u) (.ref n as) :=
  fun rest r hr hl => by
  obtain ⟨k, h⟩ := h rest hr
  refine runs_type ⟨k, fun m hm => ?_⟩ hl
  simp only [List.cons_append, parseRaw, parseSimple, parseScalar, scalarOf, h m hm, pok_bind]

theorem comp_array {u v : Toks} {t : Ty} {l : Bool × Option Expression} (h1 : Comp .type u t) (h2 : Comp .len v l) :
    Comp .type (u ++ .leftSquare :: (v ++ [.rightSquare])) (.array t l.1 l.2) := fun rest r hr hl => by
  simp only [List.append_assoc, List.cons_append, List.nil_append]
  refine h1 _ _ (.cons _ (by decide)) ?_
  obtain ⟨k1, h2⟩ := h2 rest
  obtain ⟨k2, hl⟩ := hl
  refine .intro ⟨k1 + k2, fun m hm => ?_⟩
  simp only [step, parseTypeLoop, eat_self, h2 m (by omega), pok_bind, expect_self]
  exact hl m (by omega)

theorem runs_typeLoop_end {ty : Ty} {r : Toks} (h : NoHead .leftSquare r) : Runs (.typeLoop ty) r (ty, r) :=
  .intro ⟨0, fun m _ => by simp only [step, parseTypeLoop, h.eat]⟩

theorem Comp.type_end {u : Toks} {ty : Ty} (h : Comp .type u ty) {rest : Toks} (h1 : NoHead .leftParen rest)
    (h2 : NoHead .leftSquare rest) : Runs .type (u ++ rest) (ty, rest) := h _ _ h1 (runs_typeLoop_end h2)

theorem Stop.noParen {k : Nat} {r : Toks} (h : Stop k r) : NoHead .leftParen r := by
  intro r' h'; subst h'
  obtain ⟨x, r'', h', hx⟩ := h
  cases h'; simp [continues] at hx

theorem comp_cast {u v : Toks} {e : Expression} {t : Ty} (h1 : Comp (.lvl 11) u e) (h2 : Comp .type v t) :
    Comp (.lvl 11) (u ++ .cast :: v) (.cast e t) := by
  refine CExpr.of11 fun rest r hr hl => ?_
  rw [List.append_assoc]
  exact CExpr.castL h1 (.cons _ (by decide))
    (runs_castLoop_cast (h2.type_end hr.noParen (Stop.noSquare (hr.mono (by omega)))) hl)

theorem comp_lenDots : Comp .len [.dotDot] (true, none) := fun rest => .intro ⟨0, fun m _ => by
  simp [step, parseLen, eat_self, parseLenExpr, peekTok, pok_bind]⟩

theorem First.peek {k : Nat} {u : Toks} (h : First (.lvl k) u) {w : Token} (hw : exprStart w = false) (r : Toks) :
    peekTok w (u ++ r) = .ok false := by
  obtain ⟨x, u', rfl, hx, -⟩ := h
  have : (x == w) = false := by rw [beq_eq_false_iff_ne]; rintro rfl; rw [hx] at hw; cases hw
  simp only [List.cons_append, peekTok, this]

theorem First.eat {k : Nat} {u : Toks} (h : First (.lvl k) u) {w : Token} (hw : exprStart w = false) (r : Toks) :
    eatTok w (u ++ r) = none := by
  obtain ⟨x, u', rfl, hx, -⟩ := h
  have : x ≠ w := by rintro rfl; rw [hx] at hw; cases hw
  simp only [List.cons_append, eatTok, if_neg this]

theorem comp_lenDotsExpr {u : Toks} {e} (g : Gr (.lvl 0) u e) (h : Comp (.lvl 0) u e) :
    Comp .len (.dotDot :: u) (true, some e) := fun rest => by
  obtain ⟨k, h⟩ := CExpr.expr h (rest := .rightSquare :: rest) (.cons _ (by decide))
  refine .intro ⟨k, fun m hm => ?_⟩
  simp only [step, parseLen, List.cons_append, eat_self, Option.getD_some, parseLenExpr,
    (gr_first g).peek (w := .rightSquare) rfl, pok_bind, h m hm]
  rfl

theorem comp_lenExpr {u : Toks} {e} (g : Gr (.lvl 0) u e) (h : Comp (.lvl 0) u e) :
    Comp .len u (false, some e) := fun rest => by
  obtain ⟨k, h⟩ := CExpr.expr h (rest := .rightSquare :: rest) (.cons _ (by decide))
  refine .intro ⟨k, fun m hm => ?_⟩
  simp only [step, parseLen, (gr_first g).eat (w := .dotDot) rfl, Option.getD_none, parseLenExpr,
    (gr_first g).peek (w := .rightSquare) rfl, pok_bind, h m hm]
  rfl

theorem comp_container {u v : Toks} {l fs is} (h1 : Comp .bracket u l) (h2 : Comp .items v is) :
    Comp .type (.container :: (u ++ (flagToks fs ++ .leftCurly :: (v ++ [.rightCurly])))) (.container l fs is) :=
  fun rest r hr hl => by
  refine runs_type ?_ hl
  obtain ⟨k1, h1⟩ := h1 (flagToks fs ++ .leftCurly :: (v ++ .rightCurly :: rest))
    (noHead_flags (by decide) fs (.cons _ (by decide)))
  obtain ⟨k2, h2⟩ := h2 [] rest
  refine ⟨k1 + k2 + 1, fun m hm => ?_⟩
  cases m with
  | zero => omega
  | succ m =>
    simp only [List.append_assoc, List.cons_append, List.nil_append, parseRaw, P, step, parseContainer, expect_self,
      pok_bind, h1 m (by omega), flags_complete fs (r := .leftCurly :: (v ++ .rightCurly :: rest)) (.cons _ (by decide)),
      h2 m (by omega)]


/-! ### Container items -/

theorem eat_ne {w x : Token} (h : x ≠ w) (r : Toks) : eatTok w (x :: r) = none := by simp [eatTok, h]

theorem peek_ne {w x : Token} (h : x ≠ w) (r : Toks) : peekTok w (x :: r) = .ok false := by simp [peekTok, h]

theorem peek_self (w : Token) (r : Toks) : peekTok w (w :: r) = .ok true := by simp [peekTok]

theorem comp_itemField {n : String} {u : Toks} {f} (h : Comp .field u f) :
    Comp .item (.ident n :: .colon :: u) (.field n f) := fun acc => by
  constructor
  · intro rest r hl
    obtain ⟨k1, h⟩ := h .comma rest (by decide)
    obtain ⟨k2, hl⟩ := hl
    refine .intro ⟨k1 + k2, fun m hm => ?_⟩
    simp only [step, parseContainerLoop, List.cons_append, peek_ne (w := .rightCurly) (x := .ident n) nofun,
      Bool.false_eq_true, if_false, eat_ne (w := .dot) (x := .ident n) nofun, expectIdent, pok_bind, expect_self, h m (by omega), eat_self]
    exact hl m (by omega)
  · intro rest
    obtain ⟨k1, h⟩ := h .rightCurly rest (by decide)
    refine .intro ⟨k1, fun m hm => ?_⟩
    simp only [step, parseContainerLoop, List.cons_append, peek_ne (w := .rightCurly) (x := .ident n) nofun,
      Bool.false_eq_true, if_false, eat_ne (w := .dot) (x := .ident n) nofun, expectIdent, pok_bind, expect_self, h m (by omega),
      eat_ne (w := .comma) (x := .rightCurly) nofun]

theorem comp_itemPad {u : Toks} {e} (h : Comp (.lvl 0) u e) :
    Comp .item (.dot :: .ident "pad" :: .colon :: u) (.pad e) := fun acc => by
  constructor
  · intro rest r hl
    obtain ⟨k1, h⟩ := CExpr.expr h (rest := .comma :: rest) (.cons _ (by decide))
    obtain ⟨k2, hl⟩ := hl
    refine .intro ⟨k1 + k2, fun m hm => ?_⟩
    simp only [step, parseContainerLoop, List.cons_append, peek_ne (w := .rightCurly) (x := .dot) nofun,
      Bool.false_eq_true, if_false, eat_self, expectIdent, pok_bind, expect_self, h m (by omega), if_true]
    exact hl m (by omega)
  · intro rest
    obtain ⟨k1, h⟩ := CExpr.expr h (rest := .rightCurly :: rest) (.cons _ (by decide))
    refine .intro ⟨k1, fun m hm => ?_⟩
    simp only [step, parseContainerLoop, List.cons_append, peek_ne (w := .rightCurly) (x := .dot) nofun,
      Bool.false_eq_true, if_false, eat_self, expectIdent, pok_bind, expect_self, h m (by omega), if_true,
      eat_ne (w := .comma) (x := .rightCurly) nofun]

theorem comp_itemsNil : Comp .items [] [] := fun acc rest => .intro ⟨0, fun m _ => by
  simp only [step, parseContainerLoop, List.nil_append, peek_self, pok_bind, if_true, List.append_nil]⟩

theorem comp_itemsLast {u : Toks} {i} (h : Comp .item u i) : Comp .items u [i] := fun acc rest => (h acc).2 rest

theorem comp_itemsCons {u v : Toks} {i is} (h : Comp .item u i) (h2 : Comp .items v is) :
    Comp .items (u ++ .comma :: v) (i :: is) := fun acc rest => by
  rw [List.append_assoc]
  have := (h acc).1 _ _ (h2 (acc ++ [i]) rest)
  simpa using this

/-! ### Enums and bitfields -/

theorem Stop.comma {k : Nat} (h : continues k .comma = false := by decide) (r : Toks) : Stop k (.comma :: r) := .cons _ h

/-- An item of an enum, given how its value is read. -/
theorem enum_item {b : Bool} {n : String} {u : Toks} {v : EnumVal}
    (h : ∀ x rest, x ∈ [Token.comma, .rightCurly] → Ev (fun rec => parseEnumValue rec b (u ++ x :: rest)) (v, x :: rest)) :
    Comp (.enumItem b) (.ident n :: u) (.mk n v) := fun acc hb => by
  subst hb
  refine ⟨fun n' rest r hl => ?_, fun rest => ?_, fun rest => ?_⟩
  · obtain ⟨k1, h⟩ := h .comma (.ident n' :: rest) (by decide)
    obtain ⟨k2, hl⟩ := hl
    refine .intro ⟨k1 + k2, fun m hm => ?_⟩
    simp only [step, parseEnumLoop, List.cons_append, expectIdent, pok_bind, h m (by omega), eat_self,
      peek_ne (w := .rightCurly) (x := .ident n') nofun, Bool.false_eq_true, if_false]
    exact hl m (by omega)
  · obtain ⟨k1, h⟩ := h .rightCurly rest (by decide)
    refine .intro ⟨k1, fun m hm => ?_⟩
    simp only [step, parseEnumLoop, List.cons_append, expectIdent, pok_bind, h m (by omega),
      eat_ne (w := .comma) (x := .rightCurly) nofun]
  · obtain ⟨k1, h⟩ := h .comma (.rightCurly :: rest) (by decide)
    refine .intro ⟨k1, fun m hm => ?_⟩
    simp only [step, parseEnumLoop, List.cons_append, expectIdent, pok_bind, h m (by omega), eat_self, peek_self,
      if_true]

theorem comp_enumImplicit {n : String} : Comp (.enumItem false) [.ident n] (.mk n .none) :=
  enum_item fun x rest hx => ⟨0, fun m _ => by
    have : x ≠ .equal := by rintro rfl; revert hx; decide
    simp only [parseEnumValue, List.nil_append, eat_ne this, Bool.false_eq_true, if_false]⟩

theorem comp_enumDefault {b : Bool} {n : String} : Comp (.enumItem b) [.ident n, .equal, .default] (.mk n .default) :=
  enum_item fun x rest hx => ⟨0, fun m _ => by
    cases b <;> simp [parseEnumValue, eat_self, parseEnumRhs, expect_self, pok_bind]⟩

theorem comp_enumExpr {b : Bool} {n : String} {u : Toks} {e} (g : Gr (.lvl 0) u e) (h : Comp (.lvl 0) u e) :
    Comp (.enumItem b) (.ident n :: .equal :: u) (.mk n (.expr e)) :=
  enum_item fun x rest hx => by
    obtain ⟨k, h⟩ := CExpr.expr h (rest := x :: rest) (.cons _ (by revert x; decide))
    refine ⟨k, fun m hm => ?_⟩
    cases b <;> simp [parseEnumValue, eat_self, parseEnumRhs, expect_self, pok_bind,
      (gr_first g).eat (w := .default) rfl, h m hm]

theorem comp_enumLast {b : Bool} {u : Toks} {i} (h : Comp (.enumItem b) u i) : Comp (.enumItems b) u [i] :=
  fun acc rest hb => (h acc hb).2.1 rest

theorem comp_enumTrail {b : Bool} {u : Toks} {i} (h : Comp (.enumItem b) u i) :
    Comp (.enumItems b) (u ++ [.comma]) [i] := fun acc rest hb => by
  rw [List.append_assoc]; exact (h acc hb).2.2 rest

theorem comp_enumCons {b : Bool} {u v : Toks} {i is} (h : Comp (.enumItem b) u i) (g : Gr (.enumItems false) v is)
    (h2 : Comp (.enumItems false) v is) : Comp (.enumItems b) (u ++ .comma :: v) (i :: is) := fun acc rest hb => by
  rw [List.append_assoc]
  have h2 := h2 (acc ++ [i]) rest (by simp)
  obtain ⟨n, v', rfl⟩ := gr_first g
  have := (h acc hb).1 _ _ _ h2
  simpa using this

theorem comp_enum {k : EScalar} {t : Token} {u : Toks} {is} (hk : scalarTok k = some t)
    (h : Comp (.enumItems true) u is) : Comp .type (.enum :: t :: .leftCurly :: (u ++ [.rightCurly])) (.enum k is) :=
  fun rest r hr hl => by
  refine runs_type ?_ hl
  obtain ⟨k1, h⟩ := h [] rest rfl
  refine ⟨k1 + 1, fun m hm => ?_⟩
  cases m with
  | zero => omega
  | succ m =>
    simp only [List.append_assoc, List.cons_append, List.nil_append, parseRaw, P, step, parseEnum, expect_self,
      pok_bind, parseScalar_tok hk, h m (by omega)]

/-- An item of a bitfield, given how its value is read. -/
theorem bit_item {b : Bool} {n : String} {u : Toks} {v : Option Expression}
    (h : ∀ x rest, x ∈ [Token.comma, .rightCurly] → Ev (fun rec => parseBitValue rec b (u ++ x :: rest)) (v, x :: rest)) :
    Comp (.bitItem b) (.ident n :: u) (.mk n v) := fun acc hb => by
  have hb' : decide (acc.length = 0) = b := by subst hb; cases acc <;> simp
  refine ⟨fun n' rest r hl => ?_, fun rest => ?_, fun rest => ?_⟩
  · obtain ⟨k1, h⟩ := h .comma (.ident n' :: rest) (by decide)
    obtain ⟨k2, hl⟩ := hl
    refine .intro ⟨k1 + k2, fun m hm => ?_⟩
    simp only [step, parseBitLoop, List.cons_append, expectIdent, pok_bind, hb', h m (by omega), eat_self,
      peek_ne (w := .rightCurly) (x := .ident n') nofun, Bool.false_eq_true, if_false]
    exact hl m (by omega)
  · obtain ⟨k1, h⟩ := h .rightCurly rest (by decide)
    refine .intro ⟨k1, fun m hm => ?_⟩
    simp only [step, parseBitLoop, List.cons_append, expectIdent, pok_bind, hb', h m (by omega),
      eat_ne (w := .comma) (x := .rightCurly) nofun]
  · obtain ⟨k1, h⟩ := h .comma (.rightCurly :: rest) (by decide)
    refine .intro ⟨k1, fun m hm => ?_⟩
    simp only [step, parseBitLoop, List.cons_append, expectIdent, pok_bind, hb', h m (by omega), eat_self, peek_self,
      if_true]

theorem comp_bitImplicit {n : String} : Comp (.bitItem false) [.ident n] (.mk n none) :=
  bit_item fun x rest hx => ⟨0, fun m _ => by
    have : x ≠ .equal := by rintro rfl; revert hx; decide
    simp only [parseBitValue, List.nil_append, eat_ne this, Bool.false_eq_true, if_false]⟩

theorem comp_bitExpr {b : Bool} {n : String} {u : Toks} {e} (h : Comp (.lvl 0) u e) :
    Comp (.bitItem b) (.ident n :: .equal :: u) (.mk n (some e)) :=
  bit_item fun x rest hx => by
    obtain ⟨k, h⟩ := CExpr.expr h (rest := x :: rest) (.cons _ (by revert x; decide))
    refine ⟨k, fun m hm => ?_⟩
    cases b <;> simp [parseBitValue, eat_self, expect_self, pok_bind, h m hm]

theorem comp_bitLast {b : Bool} {u : Toks} {i} (h : Comp (.bitItem b) u i) : Comp (.bitItems b) u [i] :=
  fun acc rest hb => (h acc hb).2.1 rest

theorem comp_bitTrail {b : Bool} {u : Toks} {i} (h : Comp (.bitItem b) u i) :
    Comp (.bitItems b) (u ++ [.comma]) [i] := fun acc rest hb => by
  rw [List.append_assoc]; exact (h acc hb).2.2 rest

theorem comp_bitCons {b : Bool} {u v : Toks} {i is} (h : Comp (.bitItem b) u i) (g : Gr (.bitItems false) v is)
    (h2 : Comp (.bitItems false) v is) : Comp (.bitItems b) (u ++ .comma :: v) (i :: is) := fun acc rest hb => by
  rw [List.append_assoc]
  have h2 := h2 (acc ++ [i]) rest (by simp)
  obtain ⟨n, v', rfl⟩ := gr_first g
  have := (h acc hb).1 _ _ _ h2
  simpa using this

theorem comp_bitfield {k : EScalar} {t : Token} {u : Toks} {is} (hk : scalarTok k = some t)
    (h : Comp (.bitItems true) u is) :
    Comp .type (.bitfield :: t :: .leftCurly :: (u ++ [.rightCurly])) (.bitfield k is) :=
  fun rest r hr hl => by
  refine runs_type ?_ hl
  obtain ⟨k1, h⟩ := h [] rest rfl
  refine ⟨k1 + 1, fun m hm => ?_⟩
  cases m with
  | zero => omega
  | succ m =>
    simp only [List.append_assoc, List.cons_append, List.nil_append, parseRaw, P, step, parseBitfield, expect_self,
      pok_bind, parseScalar_tok hk, h m (by omega)]

/-! ### Fields -/

theorem NoHead.append {w : Token} {u r : Toks} (hu : NoHead w u) (hr : NoHead w r) : NoHead w (u ++ r) := by
  cases u with
  | nil => exact hr
  | cons x u => intro r' h'; cases h'; exact hu _ rfl

theorem NoHead.cond {w : Token} (hw : w ≠ .leftCurly) {u : Toks} (h : First .cond u) : NoHead w u := by
  rcases h with rfl | ⟨u', rfl⟩
  · intro r' h'; cases h'
  · exact .cons _ (Ne.symm hw)

theorem NoHead.trans {w : Token} (hw : w ≠ .arrow) {u : Toks} (h : First .transforms u) : NoHead w u := by
  rcases h with rfl | ⟨u', rfl⟩
  · intro r' h'; cases h'
  · exact .cons _ (Ne.symm hw)

theorem noHead_end {w x : Token} (hw : w ∉ [Token.comma, .rightCurly, .semicolon])
    (hx : x ∈ [Token.comma, .rightCurly, .semicolon]) (r : Toks) : NoHead w (x :: r) :=
  .cons _ (by rintro rfl; exact hw hx)

theorem comp_transform {n : String} {u v : Toks} {as c} (h1 : Comp .optArgs u as) (g2 : Gr .cond v c)
    (h2 : Comp .cond v c) : Comp .transform (.arrow :: .ident n :: (u ++ v)) (.mk n as c) :=
  fun acc rest r hp hc hl => by
  obtain ⟨k1, h1⟩ := h1 (v ++ rest) (.append (.cond (by decide) (gr_first g2)) hp)
  obtain ⟨k2, h2⟩ := h2 rest hc
  obtain ⟨k3, hl⟩ := hl
  refine .intro ⟨k1 + k2 + k3, fun m hm => ?_⟩
  simp only [step, parseTransLoop, List.cons_append, List.append_assoc, eat_self, expectIdent, pok_bind,
    h1 m (by omega), h2 m (by omega)]
  exact hl m (by omega)

theorem comp_transNil : Comp .transforms [] [] := fun acc x rest hx => .intro ⟨0, fun m _ => by
  simp only [step, parseTransLoop, List.nil_append, (noHead_end (w := .arrow) (by decide) hx rest).eat, List.append_nil]⟩

theorem comp_transCons {u v : Toks} {t ts} (h1 : Comp .transform u t) (g2 : Gr .transforms v ts)
    (h2 : Comp .transforms v ts) : Comp .transforms (u ++ v) (t :: ts) := fun acc x rest hx => by
  rw [List.append_assoc]
  have := h1 acc (v ++ x :: rest) _ (.append (.trans (by decide) (gr_first g2)) (noHead_end (by decide) hx rest))
    (.append (.trans (by decide) (gr_first g2)) (noHead_end (by decide) hx rest)) (h2 (acc ++ [t]) x rest hx)
  simpa using this

theorem noHead_tail {w : Token} (hw : w ∉ [Token.leftCurly, .arrow, .comma, .rightCurly, .semicolon]) {v y : Toks} {c ts}
    (g2 : Gr .cond v c) (g3 : Gr .transforms y ts) {x : Token} (hx : x ∈ [Token.comma, .rightCurly, .semicolon])
    (rest : Toks) : NoHead w (v ++ (y ++ x :: rest)) := by
  simp only [List.mem_cons, List.not_mem_nil, or_false, not_or] at hw
  refine .append (.cond hw.1 (gr_first g2)) (.append (.trans hw.2.1 (gr_first g3)) (noHead_end ?_ hx rest))
  simp [hw.2.2]

theorem comp_field {u w x : Toks} {t : Ty} {fs : List String} {c ts} (h1 : Comp .type u t) (g2 : Gr .cond w c)
    (h2 : Comp .cond w c) (g3 : Gr .transforms x ts) (h3 : Comp .transforms x ts) :
    Comp .field (u ++ (flagToks fs ++ (w ++ x))) (.mk t fs none c ts) := fun y rest hy => by
  have f (w' : Token) (hw : w' ∉ [Token.plus, .leftCurly, .arrow, .comma, .rightCurly, .semicolon]) :
      NoHead w' (flagToks fs ++ (w ++ (x ++ y :: rest))) := by
    simp only [List.mem_cons, List.not_mem_nil, or_false, not_or] at hw
    exact noHead_flags hw.1 fs (noHead_tail (by simp [hw.2]) g2 g3 hy rest)
  obtain ⟨k1, h1⟩ := h1.type_end (f .leftParen (by decide)) (f .leftSquare (by decide))
  obtain ⟨k2, h2⟩ := h2 (x ++ y :: rest) (.append (.trans (by decide) (gr_first g3)) (noHead_end (by decide) hy rest))
  obtain ⟨k3, h3⟩ := h3 [] y rest hy
  refine .intro ⟨k1 + k2 + k3 + 1, fun m hm => ?_⟩
  have hc : P m .calcd (flagToks fs ++ (w ++ (x ++ y :: rest))) = .ok (none, flagToks fs ++ (w ++ (x ++ y :: rest))) := by
    cases m with
    | zero => omega
    | succ m => simp only [P, step, parseCalc, (f .equal (by decide)).eat]
  simp only [step, parseField, List.append_assoc, h1 m (by omega), pok_bind, hc,
    flags_complete fs (noHead_tail (w := .plus) (by decide) g2 g3 hy rest), h2 m (by omega), h3 m (by omega), List.nil_append]

theorem comp_fieldCalc {u v w x : Toks} {t : Ty} {e c ts} (h1 : Comp .type u t) (he : Comp (.lvl 0) v e)
    (g2 : Gr .cond w c) (h2 : Comp .cond w c) (g3 : Gr .transforms x ts) (h3 : Comp .transforms x ts) :
    Comp .field (u ++ .equal :: (v ++ (w ++ x))) (.mk t [] (some e) c ts) := fun y rest hy => by
  have hs : Stop 0 (w ++ (x ++ y :: rest)) := by
    rcases gr_first g2 with rfl | ⟨w', rfl⟩
    · rcases gr_first g3 with rfl | ⟨x', rfl⟩
      · exact .cons _ (by revert y; decide)
      · exact .cons _ (by decide)
    · exact .cons _ (by decide)
  obtain ⟨k1, h1⟩ := h1.type_end (rest := .equal :: (v ++ (w ++ (x ++ y :: rest)))) (.cons _ (by decide)) (.cons _ (by decide))
  obtain ⟨k4, he⟩ := CExpr.expr he hs
  obtain ⟨k2, h2⟩ := h2 (x ++ y :: rest) (.append (.trans (by decide) (gr_first g3)) (noHead_end (by decide) hy rest))
  obtain ⟨k3, h3⟩ := h3 [] y rest hy
  refine .intro ⟨k1 + k2 + k3 + k4 + 1, fun m hm => ?_⟩
  have hc : P m .calcd (.equal :: (v ++ (w ++ (x ++ y :: rest)))) = .ok (some e, w ++ (x ++ y :: rest)) := by
    cases m with
    | zero => omega
    | succ m => simp only [P, step, parseCalc, eat_self, he m (by omega), pok_bind]
  have hf := flags_complete [] (noHead_tail (w := .plus) (by decide) g2 g3 hy rest)
  simp only [flagToks, List.flatMap_nil, List.nil_append] at hf
  simp only [step, parseField, List.append_assoc, List.cons_append, h1 m (by omega), pok_bind, hc,
    hf, h2 m (by omega), h3 m (by omega), List.nil_append]

/-! ### Declarations -/

theorem comp_param {n : String} {u v : Toks} {t : Ty} {d} (h1 : Comp .type u t) (g2 : Gr .dflt v d)
    (h2 : Comp .dflt v d) : Comp .param (.ident n :: .colon :: (u ++ v)) ⟨n, t, d⟩ := fun acc => by
  have key : ∀ x rest, x ∈ [Token.comma, .rightParen] → ∃ k, ∀ m, k ≤ m →
      P m .type (u ++ (v ++ x :: rest)) = .ok (t, v ++ x :: rest) ∧
      parseDflt (P m) (v ++ x :: rest) = .ok (d, x :: rest) := by
    intro x rest hx
    have hn : ∀ w, w ∉ [Token.question, .comma, .rightParen] → NoHead w (v ++ x :: rest) := by
      intro w hw
      simp only [List.mem_cons, List.not_mem_nil, or_false, not_or] at hw hx
      have hxw : x ≠ w := by rcases hx with rfl | rfl; exact Ne.symm hw.2.1; exact Ne.symm hw.2.2
      cases g2 with
      | noDflt => exact .cons _ hxw
      | someDflt => exact .cons _ (Ne.symm hw.1)
    obtain ⟨k1, h1⟩ := h1.type_end (hn .leftParen (by decide)) (hn .leftSquare (by decide))
    obtain ⟨k2, h2⟩ := h2 (x :: rest) (.cons _ (by clear hn h1; revert x; decide))
    exact ⟨k1 + k2, fun m hm => ⟨h1 m (by omega), h2 m (by omega)⟩⟩
  constructor
  · intro rest r hl
    obtain ⟨k1, h⟩ := key .comma rest (by decide)
    obtain ⟨k2, hl⟩ := hl
    refine .intro ⟨k1 + k2, fun m hm => ?_⟩
    obtain ⟨ha, hb⟩ := h m (by omega)
    simp only [step, parseTypeArgsLoop, List.cons_append, List.append_assoc,
      eat_ne (w := .rightParen) (x := .ident n) nofun, expectIdent, pok_bind, expect_self, ha, hb, eat_self]
    exact hl m (by omega)
  · intro rest
    obtain ⟨k1, h⟩ := key .rightParen rest (by decide)
    refine .intro ⟨k1, fun m hm => ?_⟩
    obtain ⟨ha, hb⟩ := h m (by omega)
    simp only [step, parseTypeArgsLoop, List.cons_append, List.append_assoc,
      eat_ne (w := .rightParen) (x := .ident n) nofun, expectIdent, pok_bind, expect_self, ha, hb,
      eat_ne (w := .comma) (x := .rightParen) nofun]

theorem comp_paramNil : Comp .paramList [] [] := fun acc rest => .intro ⟨0, fun m _ => by
  simp only [step, parseTypeArgsLoop, List.nil_append, eat_self, List.append_nil]⟩

theorem comp_paramCons {u v : Toks} {p ps} (h : Comp .param u p) (h2 : Comp .paramList v ps) :
    Comp .paramList (u ++ .comma :: v) (p :: ps) := fun acc rest => by
  rw [List.append_assoc]
  have := (h acc).1 _ _ (h2 (acc ++ [p]) rest)
  simpa using this

theorem comp_noParams : Comp .params [] [] := fun rest => ⟨0, fun m _ => by
  simp only [parseParams, List.nil_append, eat_ne (w := .leftParen) (x := .equal) nofun]⟩

theorem comp_someParams {u : Toks} {ps} (h : Comp .paramList u ps) :
    Comp .params (.leftParen :: (u ++ [.rightParen])) ps := fun rest => by
  obtain ⟨k, h⟩ := h [] (.equal :: rest)
  refine ⟨k, fun m hm => ?_⟩
  simp only [parseParams, List.append_assoc, List.cons_append, List.nil_append, eat_self]
  exact h m hm

theorem comp_typeDecl {n : String} {u v : Toks} {ps f} (h1 : Comp .params u ps) (h2 : Comp .field v f) :
    Comp .body (.type :: .ident n :: (u ++ .equal :: v)) (.type n ps f) := fun rest => by
  obtain ⟨k1, h1⟩ := h1 (v ++ .semicolon :: rest)
  obtain ⟨k2, h2⟩ := h2 .semicolon rest (by decide)
  refine ⟨k1 + k2 + 1, fun m hm => ?_⟩
  cases m with
  | zero => omega
  | succ m =>
    simp only [List.append_assoc, List.cons_append, parseBody, P, step, parseTypeDecl, expect_self, pok_bind,
      expectIdent, h1 m (by omega), h2 m (by omega)]

/-- An item of an import, given how its alias is read. -/
theorem import_item {n : String} {u : Toks} {a : Option String}
    (h : ∀ x rest, x ∈ [Token.comma, .from_] → parseAlias (u ++ x :: rest) = .ok (a, x :: rest)) :
    Comp .importItem (.ident n :: u) ⟨n, a⟩ := fun acc => by
  refine ⟨fun n' rest r hl => ?_, fun rest => ?_, fun rest => ?_⟩
  · have h := h .comma (.ident n' :: rest) (by decide)
    obtain ⟨k2, hl⟩ := hl
    refine .intro ⟨k2, fun m hm => ?_⟩
    simp only [step, parseImportLoop, List.cons_append, expectIdent, pok_bind, h, eat_self,
      peek_ne (w := .from_) (x := .ident n') nofun, Bool.false_eq_true, if_false]
    exact hl m (by omega)
  · have h := h .from_ rest (by decide)
    refine .intro ⟨0, fun m hm => ?_⟩
    simp only [step, parseImportLoop, List.cons_append, expectIdent, pok_bind, h,
      eat_ne (w := .comma) (x := .from_) nofun]
  · have h := h .comma (.from_ :: rest) (by decide)
    refine .intro ⟨0, fun m hm => ?_⟩
    simp only [step, parseImportLoop, List.cons_append, expectIdent, pok_bind, h, eat_self, peek_self,
      if_true]

theorem comp_importPlain {n : String} : Comp .importItem [.ident n] ⟨n, none⟩ :=
  import_item fun x rest hx => by
    have : x ≠ .as_ := by rintro rfl; revert hx; decide
    simp only [parseAlias, List.nil_append, eat_ne this]

theorem comp_importAlias {n a : String} : Comp .importItem [.ident n, .as_, .ident a] ⟨n, some a⟩ :=
  import_item fun x rest hx => by
    simp only [parseAlias, List.cons_append, List.nil_append, eat_self, expectIdent, pok_bind]

theorem comp_importCons {u v : Toks} {i is} (h : Comp .importItem u i) (g : Gr .importItems v is)
    (h2 : Comp .importItems v is) : Comp .importItems (u ++ .comma :: v) (i :: is) := fun acc rest => by
  rw [List.append_assoc]
  have h2 := h2 (acc ++ [i]) rest
  obtain ⟨n, v', rfl⟩ := gr_first g
  have := (h acc).1 _ _ _ h2
  simpa using this

theorem comp_importDecl {u : Toks} {is src} (h : Comp .importItems u is) :
    Comp .body (.import_ :: (u ++ [.from_, .string src])) (.import_ is src) := fun rest => by
  obtain ⟨k, h⟩ := h [] (.string src :: .semicolon :: rest)
  refine ⟨k + 1, fun m hm => ?_⟩
  cases m with
  | zero => omega
  | succ m =>
    simp only [List.append_assoc, List.cons_append, List.nil_append, parseBody, P, step, parseImportDecl, expect_self,
      pok_bind, h m (by omega), expectString]

theorem comp_ffiDecl {n : String} {k : FfiKind} : Comp .body [.importFfi, .ident n, .as_, ffiTok k] (.ffi n k) :=
  fun rest => ⟨0, fun m _ => by
    cases k <;> simp [parseBody, parseFfiDecl, expect_self, pok_bind, expectIdent, eatAny, ffiTok, ffiKind]⟩

theorem comp_constDecl {n : String} {u v : Toks} {t e} (h1 : Comp .type u t) (h2 : Comp (.lvl 0) v e) :
    Comp .body (.const :: .ident n :: .colon :: (u ++ .equal :: v)) (.const n t e) := fun rest => by
  obtain ⟨k1, h1⟩ := h1.type_end (rest := .equal :: (v ++ .semicolon :: rest)) (.cons _ (by decide)) (.cons _ (by decide))
  obtain ⟨k2, h2⟩ := CExpr.expr h2 (rest := .semicolon :: rest) (.cons _ (by decide))
  refine ⟨k1 + k2 + 1, fun m hm => ?_⟩
  cases m with
  | zero => omega
  | succ m =>
    simp only [List.append_assoc, List.cons_append, parseBody, P, step, parseConstDecl, expect_self, pok_bind,
      expectIdent, h1 m (by omega), h2 m (by omega)]

theorem comp_decl {u : Toks} {d} (h : Comp .body u d) : Comp .decl (u ++ [.semicolon]) d := fun rest => by
  obtain ⟨k, h⟩ := h rest
  refine .intro ⟨k, fun m hm => ?_⟩
  simp only [step, parseDecl, List.append_assoc, List.cons_append, List.nil_append, h m hm, pok_bind, expect_self]

theorem comp_programNil : Comp .program [] [] := fun acc => .intro ⟨0, fun m _ => by
  simp only [step, parseProgramLoop, List.append_nil]⟩

theorem comp_programCons {u v : Toks} {d ds} (g : Gr .decl u d) (h : Comp .decl u d) (h2 : Comp .program v ds) :
    Comp .program (u ++ v) (d :: ds) := fun acc => by
  obtain ⟨k1, h⟩ := h v
  obtain ⟨k2, h2⟩ := h2 (acc ++ [d])
  obtain ⟨x, u', rfl, -⟩ := gr_first g
  refine .intro ⟨k1 + k2, fun m hm => ?_⟩
  have h := h m (by omega)
  have h2 := h2 m (by omega)
  rw [List.cons_append] at h ⊢
  simp only [step, parseProgramLoop, h, pok_bind, h2, List.append_assoc, List.cons_append, List.nil_append]

/-- Completeness. -/
theorem gr_complete {s : Sym} {u : Toks} {v : s.Val} (h : Gr s u v) : Comp s u v := by
  induction h with
  | up g ih => exact CExpr.up ih (gr_first g)
  | ternary _ _ _ h1 h2 h3 => exact CExpr.ternary h1 h2 h3
  | binary _ _ h1 h2 => exact CExpr.binary h1 h2
  | cast _ _ h1 h2 => exact comp_cast h1 h2
  | unary _ h => exact CExpr.unaryOp h
  | index _ _ h1 h2 => exact CExpr.index h1 h2
  | member _ h => exact CExpr.member h
  | int => exact comp_int
  | intTyped h => exact comp_intTyped h
  | str => exact comp_str
  | true => exact comp_true
  | false => exact comp_false
  | ref => exact comp_ref
  | enumAccess => exact comp_enumAccess
  | call _ h => exact comp_call h
  | paren _ h => exact comp_paren h
  | argsNil => exact comp_argsNil
  | argsLast g h => exact comp_argsLast g h
  | argsCons g _ h h2 => exact comp_argsCons g h h2
  | noArgs => exact comp_noArgs
  | someArgs _ h => exact comp_someArgs h
  | noBracket => exact comp_noBracket
  | someBracket _ h => exact comp_someBracket h
  | noCond => exact comp_noCond
  | someCond _ h => exact comp_someCond h
  | noDflt => exact comp_noDflt
  | someDflt _ h => exact comp_someDflt h
  | scalar h => exact comp_scalar h
  | f32 => exact comp_f32
  | f64 => exact comp_f64
  | bool => exact comp_bool
  | typeRef _ h => exact comp_typeRef h
  | array _ _ h1 h2 => exact comp_array h1 h2
  | lenDots => exact comp_lenDots
  | lenDotsExpr g h => exact comp_lenDotsExpr g h
  | lenExpr g h => exact comp_lenExpr g h
  | container _ _ h1 h2 => exact comp_container h1 h2
  | itemField _ h => exact comp_itemField h
  | itemPad _ h => exact comp_itemPad h
  | itemsNil => exact comp_itemsNil
  | itemsLast _ h => exact comp_itemsLast h
  | itemsCons _ _ h h2 => exact comp_itemsCons h h2
  | enum hk _ h => exact comp_enum hk h
  | enumImplicit => exact comp_enumImplicit
  | enumDefault => exact comp_enumDefault
  | enumExpr g h => exact comp_enumExpr g h
  | enumLast _ h => exact comp_enumLast h
  | enumTrail _ h => exact comp_enumTrail h
  | enumCons _ g h h2 => exact comp_enumCons h g h2
  | bitfield hk _ h => exact comp_bitfield hk h
  | bitImplicit => exact comp_bitImplicit
  | bitExpr _ h => exact comp_bitExpr h
  | bitLast _ h => exact comp_bitLast h
  | bitTrail _ h => exact comp_bitTrail h
  | bitCons _ g h h2 => exact comp_bitCons h g h2
  | field _ g2 g3 h1 h2 h3 => exact comp_field h1 g2 h2 g3 h3
  | fieldCalc _ _ g2 g3 h1 he h2 h3 => exact comp_fieldCalc h1 he g2 h2 g3 h3
  | transform _ g2 h1 h2 => exact comp_transform h1 g2 h2
  | transNil => exact comp_transNil
  | transCons _ g2 h1 h2 => exact comp_transCons h1 g2 h2
  | param _ g2 h1 h2 => exact comp_param h1 g2 h2
  | paramNil => exact comp_paramNil
  | paramLast _ h => exact fun acc rest => (h acc).2 rest
  | paramCons _ _ h h2 => exact comp_paramCons h h2
  | noParams => exact comp_noParams
  | someParams _ h => exact comp_someParams h
  | typeDecl _ _ h1 h2 => exact comp_typeDecl h1 h2
  | importPlain => exact comp_importPlain
  | importAlias => exact comp_importAlias
  | importLast _ h => exact fun acc rest => (h acc).2.1 rest
  | importTrail _ h => exact fun acc rest => by rw [List.append_assoc]; exact (h acc).2.2 rest
  | importCons _ g h h2 => exact comp_importCons h g h2
  | importDecl _ h => exact comp_importDecl h
  | ffiDecl => exact comp_ffiDecl
  | constDecl _ _ h1 h2 => exact comp_constDecl h1 h2
  | decl _ h => exact comp_decl h
  | programNil => exact comp_programNil
  | programCons g _ h h2 => exact comp_programCons g h h2

end Verif
