import Verif.ParserComplete
import Verif.PrintSpec
import Verif.Props.Tokens
/-!
# Parser: C31, C32, C33
-/
namespace Verif.Props

open Ast

/-! ## C33: the parser accepts the grammar, ends and does not panic -/

/-- **C33** (1). The recursion ends on every list of tokens. -/
theorem parse_terminates (toks : List Token) : parseProgram toks ≠ .error .diverge := by
  intro h
  unfold parseProgram at h
  cases hp : P (32 * toks.length + 32) (.programLoop []) toks with
  | ok r => rw [hp] at h; cases h
  | error e =>
    rw [hp] at h
    cases h
    have := (P_safe _ _ _ _ hp).2.2.1 rfl
    simp only [cost, rank] at this
    omega

/-- **C33** (2). No list of tokens makes the parser panic. -/
theorem parse_no_panic (toks : List Token) : parseProgram toks ≠ .error .panic := by
  intro h
  unfold parseProgram at h
  cases hp : P (32 * toks.length + 32) (.programLoop []) toks with
  | ok r => rw [hp] at h; cases h
  | error e =>
    rw [hp] at h
    cases h
    exact (P_safe _ _ _ _ hp).1 rfl

/-- **C33** (3). A token reported as unexpected is one of the given ones. -/
theorem parse_unexpected {toks : List Token} {t : Token} (h : parseProgram toks = .error (.unexpected t)) : t ∈ toks := by
  unfold parseProgram at h
  cases hp : P (32 * toks.length + 32) (.programLoop []) toks with
  | ok r => rw [hp] at h; cases h
  | error e =>
    rw [hp] at h
    cases h
    exact (P_safe _ _ _ _ hp).2.1 _ rfl

theorem parse_eq_of_P {n : Nat} {toks : List Token} {r : List Ast.Decl × Toks}
    (h : P n (.programLoop []) toks = .ok r) : parseProgram toks = .ok r.1 := by
  have hx : P (32 * toks.length + 32) (.programLoop []) toks = .ok r := by
    rcases Nat.le_total n (32 * toks.length + 32) with hn | hn
    · rcases P_mono hn (.programLoop []) toks with hd | hd
      · rw [h] at hd; cases hd
      · rw [← hd, h]
    · rcases P_mono hn (.programLoop []) toks with hd | hd
      · have := (P_safe _ _ _ _ hd).2.2.1 rfl
        simp only [cost, rank] at this
        omega
      · rw [hd, h]
  unfold parseProgram
  rw [hx]
  rfl

/-- **C33** (4). The parser returns a program exactly if the tokens, all of them, spell it in the grammar. -/
theorem parse_iff_grammar {toks : List Token} {p : Program} : parseProgram toks = .ok p ↔ Gr .program toks p := by
  constructor
  · intro h
    unfold parseProgram at h
    cases hp : P (32 * toks.length + 32) (.programLoop []) toks with
    | error e => rw [hp] at h; cases h
    | ok r =>
      rw [hp] at h
      cases h
      obtain ⟨v, r⟩ := r
      obtain ⟨u, hu, ds, hv, hg, hr⟩ := P_sound _ (.programLoop []) _ _ _ hp
      subst hr
      rw [List.append_nil] at hu
      subst hu
      simp only [List.nil_append] at hv
      subst hv
      exact hg
  · intro h
    obtain ⟨n, hn⟩ := (show Comp .program toks p from gr_complete h) []
    exact parse_eq_of_P (hn n (Nat.le_refl _))

/-- **C33** (5). The grammar is unambiguous. -/
theorem grammar_unambiguous {toks : List Token} {p q : Program} (h : Gr .program toks p) (h' : Gr .program toks q) : p = q := by
  have h1 := parse_iff_grammar.mpr h
  rw [parse_iff_grammar.mpr h'] at h1
  cases h1; rfl

/-- **C33** (6). `parse` of a source text returns a program exactly if the tokens of the source, without comments, spell it;
the other possible results are the tokenizer's errors and the parser's. -/
theorem parse_source {src : Text} {p : Program} : parse src = .ok p ↔
    ∃ toks, tokensOf src true = some toks ∧ Gr .program toks p := by
  unfold parse tokensOf
  cases tokenize src true with
  | error e => simp
  | ok toks => simp [parse_iff_grammar]

/-! ## C31: precedence -/

theorem gr_down {k l : Nat} (h : k ≤ l) {u : List Token} {e : Expression} (g : Gr (.lvl l) u e) : Gr (.lvl k) u e := by
  obtain ⟨d, rfl⟩ := Nat.exists_eq_add_of_le h
  clear h
  induction d with
  | zero => exact g
  | succ d ih => exact ih (Gr.up g)

theorem wrap_gr {k : Nat} (hk : k ≤ 14) {u : List Token} {e : Expression} (g : Gr (.lvl (level e)) u e) :
    Gr (.lvl k) (wrap k e u) e := by
  unfold wrap
  split
  · exact gr_down hk (.paren (gr_down (Nat.zero_le _) g))
  · exact gr_down (by omega) g

/-- Below its own level an expression is within parentheses. -/
def InParens : (s : Sym) → List Token → s.Val → Prop
  | .lvl k, u, e => level e < k → ∃ v, u = .leftParen :: (v ++ [.rightParen]) ∧ Gr (.lvl 0) v e
  | _, _, _ => True

theorem gr_parens {s : Sym} {u : List Token} {v : s.Val} (g : Gr s u v) : InParens s u v := by
  induction g with
  | up _ ih => exact fun h => ih (by omega)
  | paren g => exact fun _ => ⟨_, rfl, g⟩
  | ternary | binary | cast | unary | index | member | int | intTyped | str | true | false | ref | enumAccess | call =>
    exact fun h => absurd h (Nat.lt_irrefl _)
  | _ => trivial

/-- **C31** (1). The parentheses of `printE` are needed: where an operand must bind at least as much as `k`, an expression
whose operator binds less is spelt only within parentheses. -/
theorem parens_needed {k : Nat} {u : List Token} {e : Expression} (g : Gr (.lvl k) u e) (h : level e < k) :
    ∃ v, u = .leftParen :: (v ++ [.rightParen]) ∧ Gr (.lvl 0) v e := gr_parens g h

/-! ## Printed trees are spelt by their tokens -/

theorem prec_le (op : BinOp) : prec op + 1 ≤ 14 := by cases op <;> decide

mutual
theorem printE_gr : (e : Expression) → SpeltE e → Gr (.lvl (level e)) (printE e) e
  | .ternary c a b, h => by
    simp only [SpeltE] at h
    simp only [printE, level]
    exact .ternary (wrap_gr (by omega) (printE_gr c h.1)) (gr_down (Nat.zero_le _) (printE_gr a h.2.1))
      (wrap_gr (by omega) (printE_gr b h.2.2))
  | .binary op a b, h => by
    simp only [SpeltE] at h
    simp only [printE, level]
    have := prec_le op
    exact .binary (wrap_gr (by omega) (printE_gr a h.1)) (wrap_gr (by omega) (printE_gr b h.2))
  | .cast e t, h => by
    simp only [SpeltE] at h
    simp only [printE, level]
    exact .cast (wrap_gr (by omega) (printE_gr e h.1)) (printT_gr t h.2)
  | .unary op e, h => by
    simp only [SpeltE] at h
    simp only [printE, level]
    exact .unary (wrap_gr (by omega) (printE_gr e h))
  | .index a i, h => by
    simp only [SpeltE] at h
    simp only [printE, level]
    exact .index (wrap_gr (by omega) (printE_gr a h.1)) (gr_down (Nat.zero_le _) (printE_gr i h.2))
  | .member a m, h => by
    simp only [SpeltE] at h
    simp only [printE, level]
    exact .member (wrap_gr (by omega) (printE_gr a h))
  | .enumAccess n m, _ => by simp only [printE, level]; exact .enumAccess
  | .int s none, _ => by simp only [printE, level]; exact .int
  | .int s (some k), _ => by
    simp only [printE, level]
    cases k <;> exact Gr.intTyped (k := ⟨_, .big⟩) rfl
  | .ref n, _ => by simp only [printE, level]; exact .ref
  | .str s, _ => by simp only [printE, level]; exact .str
  | .bool true, _ => by simp only [printE, level]; exact .true
  | .bool false, _ => by simp only [printE, level]; exact .false
  | .call n as, h => by
    simp only [SpeltE] at h
    simp only [printE, level]
    exact .call (printArgs_gr as h)

theorem printArgs_gr : (es : List Expression) → SpeltArgs es → Gr .args (printArgs es) es
  | [], _ => by simp only [printArgs]; exact .argsNil
  | [e], h => by
    simp only [SpeltArgs] at h
    simp only [printArgs]; exact .argsLast (gr_down (Nat.zero_le _) (printE_gr e h.1))
  | e :: e' :: es, h => by
    rw [SpeltArgs] at h
    simp only [printArgs]
    exact .argsCons (gr_down (Nat.zero_le _) (printE_gr e h.1)) (printArgs_gr (e' :: es) h.2)

theorem printCond_gr : (e : Option Expression) → SpeltOpt e → Gr .cond (printOpt [.leftCurly] [.rightCurly] e) e
  | none, _ => by simp only [printOpt]; exact .noCond
  | some e, h => by
    simp only [SpeltOpt] at h
    simp only [printOpt]; exact .someCond (gr_down (Nat.zero_le _) (printE_gr e h))

theorem printBracket_gr : (e : Option Expression) → SpeltOpt e → Gr .bracket (printOpt [.leftSquare] [.rightSquare] e) e
  | none, _ => by simp only [printOpt]; exact .noBracket
  | some e, h => by
    simp only [SpeltOpt] at h
    simp only [printOpt]; exact .someBracket (gr_down (Nat.zero_le _) (printE_gr e h))

theorem printDflt_gr : (e : Option Expression) → SpeltOpt e → Gr .dflt (printOpt [.question] [] e) e
  | none, _ => by simp only [printOpt]; exact .noDflt
  | some e, h => by
    simp only [SpeltOpt] at h
    simp only [printOpt, List.append_nil]; exact .someDflt (gr_down (Nat.zero_le _) (printE_gr e h))

theorem printLen_gr : (x : Bool) → (e : Option Expression) → SpeltOpt e → (x = true ∨ e ≠ none) →
    Gr .len ((if x then [.dotDot] else []) ++ printOpt [] [] e) (x, e)
  | true, none, _, _ => by simp only [printOpt]; exact .lenDots
  | true, some e, h, _ => by
    simp only [SpeltOpt] at h
    simp only [printOpt, List.append_nil]; exact .lenDotsExpr (gr_down (Nat.zero_le _) (printE_gr e h))
  | false, none, _, h => by simp at h
  | false, some e, h, _ => by
    simp only [SpeltOpt] at h
    simp only [printOpt, List.append_nil]; exact .lenExpr (gr_down (Nat.zero_le _) (printE_gr e h))

theorem printT_gr : (t : Ty) → SpeltT t → Gr .type (printT t) t
  | .container l fs is, h => by
    simp only [SpeltT] at h
    simp only [printT]
    exact .container (printBracket_gr l h.1) (printItems_gr is h.2)
  | .enum k is, h => by
    simp only [SpeltT] at h
    obtain ⟨t, ht⟩ := Option.ne_none_iff_exists'.mp h.1
    simp only [printT, ht]
    exact .enum ht (printEnum_gr true is h.2.2 h.2.1)
  | .bitfield k is, h => by
    simp only [SpeltT] at h
    obtain ⟨t, ht⟩ := Option.ne_none_iff_exists'.mp h.1
    simp only [printT, ht]
    exact .bitfield ht (printBits_gr true is h.2.2 h.2.1)
  | .scalar k, h => by
    simp only [SpeltT] at h
    obtain ⟨t, ht⟩ := Option.ne_none_iff_exists'.mp h
    simp only [printT, ht]
    exact .scalar ht
  | .array t x l, h => by
    simp only [SpeltT] at h
    simp only [printT]
    have := Gr.array (printT_gr t h.1) (printLen_gr x l h.2.1 h.2.2)
    simpa only [List.append_assoc] using this
  | .f32, _ => by simp only [printT]; exact .f32
  | .f64, _ => by simp only [printT]; exact .f64
  | .bool, _ => by simp only [printT]; exact .bool
  | .ref n [], _ => by simp only [printT]; exact .typeRef .noArgs
  | .ref n (e :: es), h => by
    rw [SpeltT] at h
    simp only [printT]
    exact .typeRef (.someArgs (printArgs_gr (e :: es) h))

theorem printItems_gr : (is : List Item) → SpeltItems is → Gr .items (printItems is) is
  | [], _ => by simp only [printItems]; exact .itemsNil
  | [i], h => by
    simp only [SpeltItems] at h
    simp only [printItems]; exact .itemsLast (printItem_gr i h.1)
  | i :: j :: is, h => by
    rw [SpeltItems] at h
    simp only [printItems]
    exact .itemsCons (printItem_gr i h.1) (printItems_gr (j :: is) h.2)

theorem printItem_gr : (i : Item) → SpeltItem i → Gr .item (printItem i) i
  | .field n f, h => by
    simp only [SpeltItem] at h
    simp only [printItem]; exact .itemField (printF_gr f h)
  | .pad e, h => by
    simp only [SpeltItem] at h
    simp only [printItem]; exact .itemPad (gr_down (Nat.zero_le _) (printE_gr e h))

theorem printEnum_gr : (b : Bool) → (is : List EnumItem) → SpeltEnum b is → is ≠ [] → Gr (.enumItems b) (printEnum is) is
  | _, [], _, h => absurd rfl h
  | b, [i], h, _ => by
    simp only [SpeltEnum] at h
    simp only [printEnum]; exact .enumLast (printEnumItem_gr b i h.1)
  | b, i :: j :: is, h, _ => by
    rw [SpeltEnum] at h
    simp only [printEnum]
    exact .enumCons (printEnumItem_gr b i h.1) (printEnum_gr false (j :: is) h.2 nofun)

theorem printEnumItem_gr : (b : Bool) → (i : EnumItem) → SpeltEnumItem b i → Gr (.enumItem b) (printEnumItem i) i
  | b, .mk n v, h => by
    simp only [SpeltEnumItem] at h
    simp only [printEnumItem]; exact printEnumVal_gr b n v h

theorem printEnumVal_gr : (b : Bool) → (n : String) → (v : Ast.EnumVal) → SpeltEnumVal b v →
    Gr (.enumItem b) (.ident n :: printEnumVal v) (.mk n v)
  | b, n, .none, h => by
    simp only [SpeltEnumVal] at h
    subst h
    simp only [printEnumVal]; exact .enumImplicit
  | b, n, .default, _ => by simp only [printEnumVal]; exact .enumDefault
  | b, n, .expr e, h => by
    simp only [SpeltEnumVal] at h
    simp only [printEnumVal]; exact .enumExpr (gr_down (Nat.zero_le _) (printE_gr e h))

theorem printBits_gr : (b : Bool) → (is : List BitItem) → SpeltBits b is → is ≠ [] → Gr (.bitItems b) (printBits is) is
  | _, [], _, h => absurd rfl h
  | b, [i], h, _ => by
    simp only [SpeltBits] at h
    simp only [printBits]; exact .bitLast (printBit_gr b i h.1)
  | b, i :: j :: is, h, _ => by
    rw [SpeltBits] at h
    simp only [printBits]
    exact .bitCons (printBit_gr b i h.1) (printBits_gr false (j :: is) h.2 nofun)

theorem printBit_gr : (b : Bool) → (i : BitItem) → SpeltBit b i → Gr (.bitItem b) (printBit i) i
  | b, .mk n v, h => by
    simp only [SpeltBit] at h
    simp only [printBit]; exact printBitVal_gr b n v h.1 h.2

theorem printBitVal_gr : (b : Bool) → (n : String) → (v : Option Expression) → SpeltOpt v → (b = true → v ≠ none) →
    Gr (.bitItem b) (.ident n :: printOpt [.equal] [] v) (.mk n v)
  | true, n, none, _, h => absurd rfl (h rfl)
  | false, n, none, _, _ => by simp only [printOpt]; exact .bitImplicit
  | b, n, some e, h, _ => by
    simp only [SpeltOpt] at h
    simp only [printOpt, List.append_nil]; exact .bitExpr (gr_down (Nat.zero_le _) (printE_gr e h))

theorem printF_gr : (f : Field) → SpeltF f → Gr .field (printF f) f
  | .mk t fs c k ts, h => by
    simp only [SpeltF] at h
    simp only [printF]
    exact printField_gr c fs h.2.1 h.2.2.2.2 (printT_gr t h.1) (printCond_gr k h.2.2.1) (printXs_gr ts h.2.2.2.1)

theorem printField_gr : (c : Option Expression) → (fs : List String) → SpeltOpt c → (c ≠ none → fs = []) →
    ∀ {t k ts u w x}, Gr .type u t → Gr .cond w k → Gr .transforms x ts →
    Gr .field (u ++ (printOpt [.equal] [] c ++ (flagToks fs ++ (w ++ x)))) (.mk t fs c k ts)
  | none, fs, _, _, _, _, _, _, _, _, h1, h2, h3 => by simp only [printOpt]; exact .field h1 h2 h3
  | some e, fs, h, hf, _, _, _, _, _, _, h1, h2, h3 => by
    have hf := hf nofun
    subst hf
    simp only [SpeltOpt] at h
    simp only [printOpt, List.append_nil, flagToks, List.flatMap_nil, List.nil_append]
    exact .fieldCalc h1 (gr_down (Nat.zero_le _) (printE_gr e h)) h2 h3

theorem printXs_gr : (xs : List Transform) → SpeltXs xs → Gr .transforms (printXs xs) xs
  | [], _ => by simp only [printXs]; exact .transNil
  | x :: xs, h => by
    simp only [SpeltXs] at h
    simp only [printXs]; exact .transCons (printX_gr x h.1) (printXs_gr xs h.2)

theorem printX_gr : (x : Transform) → SpeltX x → Gr .transform (printX x) x
  | .mk n [] c, h => by
    simp only [SpeltX] at h
    simp only [printX]
    exact .transform .noArgs (printCond_gr c h.2)
  | .mk n (e :: es) c, h => by
    rw [SpeltX] at h
    simp only [printX]
    have := Gr.transform (n := n) (.someArgs (printArgs_gr (e :: es) h.1)) (printCond_gr c h.2)
    simpa only [List.append_assoc, List.cons_append, List.nil_append] using this
end

theorem printParam_gr {p : TypeArg} (h : SpeltT p.type ∧ SpeltOpt p.default) : Gr .param (printParam p) p :=
  .param (printT_gr _ h.1) (printDflt_gr _ h.2)

theorem printParamList_gr : (ps : List TypeArg) → (∀ p ∈ ps, SpeltT p.type ∧ SpeltOpt p.default) →
    Gr .paramList (sepComma (ps.map printParam)) ps
  | [], _ => .paramNil
  | [p], h => .paramLast (printParam_gr (h p (by simp)))
  | p :: q :: ps, h => .paramCons (printParam_gr (h p (by simp))) (printParamList_gr (q :: ps) fun x hx => h x (by simp [hx]))

theorem printImports_gr : (is : List ImportItem) → is ≠ [] → Gr .importItems (sepComma (is.map printImport)) is
  | [], h => absurd rfl h
  | [⟨_, none⟩], _ => .importLast .importPlain
  | [⟨_, some _⟩], _ => .importLast .importAlias
  | ⟨_, none⟩ :: j :: is, _ => .importCons .importPlain (printImports_gr (j :: is) nofun)
  | ⟨_, some _⟩ :: j :: is, _ => .importCons .importAlias (printImports_gr (j :: is) nofun)

theorem printDecl_gr {d : Ast.Decl} (h : SpeltDecl d) : Gr .decl (printDecl d) d := by
  cases d with
  | type n ps f =>
    have hp : Gr .params (printParams ps) ps := by
      cases ps with
      | nil => exact .noParams
      | cons p ps => exact .someParams (printParamList_gr (p :: ps) h.1)
    have := Gr.decl (Gr.typeDecl (n := n) hp (printF_gr f h.2))
    simpa only [printDecl, List.append_assoc, List.cons_append, List.nil_append] using this
  | import_ is src =>
    have := Gr.decl (Gr.importDecl (src := src) (printImports_gr is h))
    simpa only [printDecl, List.append_assoc, List.cons_append, List.nil_append] using this
  | ffi n k => exact Gr.decl (Gr.ffiDecl (n := n) (k := k))
  | const n t e =>
    have := Gr.decl (Gr.constDecl (n := n) (printT_gr t h.1) (gr_down (Nat.zero_le _) (printE_gr e h.2)))
    simpa only [printDecl, List.append_assoc, List.cons_append, List.nil_append] using this

theorem printProgram_gr {p : Program} (h : ∀ d ∈ p, SpeltDecl d) : Gr .program (printProgram p) p := by
  induction p with
  | nil => exact .programNil
  | cons d p ih =>
    have := Gr.programCons (printDecl_gr (h d (by simp))) (ih fun x hx => h x (by simp [hx]))
    simpa only [printProgram, List.flatMap_cons] using this

/-- **C32** (1). Every program that can be written is read back from its tokens. -/
theorem program_roundtrip {p : Program} (h : ∀ d ∈ p, SpeltDecl d) : parseProgram (printProgram p) = .ok p :=
  parse_iff_grammar.mpr (printProgram_gr h)


/-! ## Which programs the parser returns -/

/-- What the grammar spells can be written. -/
def Writable : (s : Sym) → s.Val → Prop
  | .lvl _, e => SpeltE e
  | .args, es | .optArgs, es => SpeltArgs es
  | .bracket, e | .cond, e | .dflt, e => SpeltOpt e
  | .type, t => SpeltT t
  | .len, l => SpeltOpt l.2 ∧ (l.1 = true ∨ l.2 ≠ none)
  | .item, i => SpeltItem i
  | .items, is => SpeltItems is
  | .enumItem b, i => SpeltEnumItem b i
  | .enumItems b, is => is ≠ [] ∧ SpeltEnum b is
  | .bitItem b, i => SpeltBit b i
  | .bitItems b, is => is ≠ [] ∧ SpeltBits b is
  | .field, f => SpeltF f
  | .transform, x => SpeltX x
  | .transforms, xs => SpeltXs xs
  | .param, p => SpeltT p.type ∧ SpeltOpt p.default
  | .paramList, ps | .params, ps => ∀ p ∈ ps, SpeltT p.type ∧ SpeltOpt p.default
  | .importItem, _ => True
  | .importItems, is => is ≠ []
  | .body, d | .decl, d => SpeltDecl d
  | .program, ds => ∀ d ∈ ds, SpeltDecl d

theorem gr_writable {s : Sym} {u : List Token} {v : s.Val} (g : Gr s u v) : Writable s v := by
  induction g
  case up ih => exact ih
  case ternary h1 h2 h3 => simp only [Writable, SpeltE]; exact ⟨h1, h2, h3⟩
  case binary h1 h2 => simp only [Writable, SpeltE]; exact ⟨h1, h2⟩
  case cast h1 h2 => simp only [Writable, SpeltE]; exact ⟨h1, h2⟩
  case unary h => simp only [Writable, SpeltE]; exact h
  case index h1 h2 => simp only [Writable, SpeltE]; exact ⟨h1, h2⟩
  case member h => simp only [Writable, SpeltE]; exact h
  case call h => simp only [Writable, SpeltE]; exact h
  case paren h => exact h
  case argsNil | noArgs => simp only [Writable, SpeltArgs]
  case argsLast h => simp only [Writable, SpeltArgs]; exact ⟨h, trivial⟩
  case argsCons h1 h2 => simp only [Writable, SpeltArgs]; exact ⟨h1, h2⟩
  case someArgs h => exact h
  case noBracket | noCond | noDflt => simp only [Writable, SpeltOpt]
  case someBracket h | someCond h | someDflt h => simp only [Writable, SpeltOpt]; exact h
  case scalar h => simp [Writable, SpeltT, h]
  case typeRef h => simp only [Writable, SpeltT]; exact h
  case array h1 h2 => simp only [Writable, SpeltT]; exact ⟨h1, h2⟩
  case lenDots => simp [Writable, SpeltOpt]
  case lenDotsExpr h => simp only [Writable, SpeltOpt]; exact ⟨h, .inl trivial⟩
  case lenExpr h => simp only [Writable, SpeltOpt]; exact ⟨h, .inr nofun⟩
  case container h1 h2 => simp only [Writable, SpeltT]; exact ⟨h1, h2⟩
  case itemField h => simp only [Writable, SpeltItem]; exact h
  case itemPad h => simp only [Writable, SpeltItem]; exact h
  case itemsNil => simp only [Writable, SpeltItems]
  case itemsLast h => simp only [Writable, SpeltItems]; exact ⟨h, trivial⟩
  case itemsCons h1 h2 => simp only [Writable, SpeltItems]; exact ⟨h1, h2⟩
  case enum ht _ h => simp only [Writable, SpeltT]; exact ⟨by simp [ht], h⟩
  case bitfield ht _ h => simp only [Writable, SpeltT]; exact ⟨by simp [ht], h⟩
  case enumImplicit => simp only [Writable, SpeltEnumItem, SpeltEnumVal]
  case enumDefault => simp only [Writable, SpeltEnumItem, SpeltEnumVal]
  case enumExpr h => simp only [Writable, SpeltEnumItem, SpeltEnumVal]; exact h
  case enumLast h | enumTrail h => simp only [Writable, SpeltEnum]; exact ⟨nofun, h, trivial⟩
  case enumCons h1 h2 => simp only [Writable, SpeltEnum]; exact ⟨nofun, h1, h2.2⟩
  case bitImplicit => simp [Writable, SpeltBit, SpeltOpt]
  case bitExpr h => simp only [Writable, SpeltBit, SpeltOpt]; exact ⟨h, fun _ => nofun⟩
  case bitLast h | bitTrail h => simp only [Writable, SpeltBits]; exact ⟨nofun, h, trivial⟩
  case bitCons h1 h2 => simp only [Writable, SpeltBits]; exact ⟨nofun, h1, h2.2⟩
  case field h1 h2 h3 => simp only [Writable, SpeltF, SpeltOpt]; exact ⟨h1, trivial, h2, h3, fun h => absurd rfl h⟩
  case fieldCalc h1 h2 h3 h4 => simp only [Writable, SpeltF, SpeltOpt]; exact ⟨h1, h2, h3, h4, fun _ => trivial⟩
  case transform h1 h2 => simp only [Writable, SpeltX]; exact ⟨h1, h2⟩
  case transNil => simp only [Writable, SpeltXs]
  case transCons h1 h2 => simp only [Writable, SpeltXs]; exact ⟨h1, h2⟩
  case param h1 h2 => exact ⟨h1, h2⟩
  case paramNil | noParams => intro p hp; cases hp
  case paramLast h => intro p hp; rw [List.mem_singleton] at hp; subst hp; exact h
  case paramCons h1 h2 =>
    intro p hp
    rcases List.mem_cons.mp hp with rfl | hp
    · exact h1
    · exact h2 p hp
  case someParams h => exact h
  case typeDecl h1 h2 => exact ⟨h1, h2⟩
  case importLast | importTrail | importCons => exact nofun
  case importDecl h => exact h
  case constDecl h1 h2 => exact ⟨h1, h2⟩
  case decl h => exact h
  case programNil => intro p hp; cases hp
  case programCons h1 h2 =>
    intro p hp
    rcases List.mem_cons.mp hp with rfl | hp
    · exact h1
    · exact h2 p hp
  all_goals simp [Writable, SpeltE, SpeltT, SpeltDecl]

/-- **C32** (2). The programs that can be written are exactly those that the parser returns for some tokens. -/
theorem writable_iff_parsed {p : Program} : (∃ toks, parseProgram toks = .ok p) ↔ ∀ d ∈ p, SpeltDecl d := by
  constructor
  · rintro ⟨toks, h⟩
    exact gr_writable (parse_iff_grammar.mp h)
  · intro h
    exact ⟨_, program_roundtrip h⟩

/-- **C32** (3). Reprinting what was parsed and parsing again changes nothing. -/
theorem reparse {toks : List Token} {p : Program} (h : parseProgram toks = .ok p) :
    parseProgram (printProgram p) = .ok p := program_roundtrip (writable_iff_parsed.mp ⟨toks, h⟩)

theorem flags_no_comment (fs : List String) : ∀ t ∈ flagToks fs, t.isComment = false := by
  intro t ht
  simp only [flagToks, List.mem_flatMap, List.mem_cons, List.not_mem_nil, or_false] at ht
  obtain ⟨s, -, rfl | rfl⟩ := ht <;> rfl

theorem scalarTok_no_comment {k : EScalar} {t : Token} (h : scalarTok k = some t) : t.isComment = false := by
  obtain ⟨s, e⟩ := k
  cases s <;> cases e <;> simp [scalarTok] at h <;> subst h <;> rfl

/-- No token of a phrase is a comment. -/
theorem gr_no_comment {s : Sym} {u : List Token} {v : s.Val} (g : Gr s u v) : ∀ t ∈ u, t.isComment = false := by
  have hop : ∀ op, (opTok op).isComment = false := by intro op; cases op <;> rfl
  have hun : ∀ op, (unTok op).isComment = false := by intro op; cases op <;> rfl
  have hffi : ∀ k, (ffiTok k).isComment = false := by intro k; cases k <;> rfl
  induction g
  all_goals
    intro t ht
    try simp only [List.mem_append, List.mem_cons, List.not_mem_nil, or_false] at ht
  all_goals
    grind [Token.isComment, flags_no_comment, scalarTok_no_comment]

/-- **C32** (4). The same for source text: tokens written with spaces between them, if the names and numbers of the program
are ones that a source can contain and its strings hold neither quotes nor backslashes. -/
theorem program_source_roundtrip {p : Program} (h : ∀ d ∈ p, SpeltDecl d) (hp : ∀ t ∈ printProgram p, Printable t) :
    parse (printAll (printProgram p)) = .ok p := by
  refine parse_source.mpr ⟨_, ?_, printProgram_gr h⟩
  have h1 := print_read_partial hp
  rw [tokensOf_lexed] at h1 ⊢
  revert h1
  cases lexed (printAll (printProgram p)) with
  | none => simp
  | some l =>
    simp only [Option.map_some, Option.some.injEq]
    intro h1
    simp at h1
    subst h1
    simp
    intro a ha
    simpa using gr_no_comment (printProgram_gr h) a ha

/-- **C31** (2). Every expression that can be written is read back from its tokens. -/
theorem expression_roundtrip {n : String} {t : Ty} {e : Expression} (ht : SpeltT t) (he : SpeltE e) :
    parseProgram (.const :: .ident n :: .colon :: (printT t ++ .equal :: (printE e ++ [.semicolon]))) =
      .ok [.const n t e] := by
  have := program_roundtrip (p := [.const n t e]) (by simp only [List.mem_singleton, forall_eq]; exact ⟨ht, he⟩)
  simpa [printProgram, printDecl] using this

/-- Spec: `const x: u8 = e;` -/
def constToks (e : List Token) : List Token := [.const, .ident "x", .colon, .u8, .equal] ++ (e ++ [.semicolon])

/-- **C31** (3). Of two binary operators the left one is applied first unless the right one binds more. -/
theorem binary_assoc {op1 op2 : BinOp} {a b c : String} :
    parseProgram (constToks [.ident a, opTok op1, .ident b, opTok op2, .ident c]) = .ok [.const "x" (.scalar ⟨.u8, .big⟩)
      (if prec op2 ≤ prec op1 then .binary op2 (.binary op1 (.ref a) (.ref b)) (.ref c)
       else .binary op1 (.ref a) (.binary op2 (.ref b) (.ref c)))] := by
  have h1 := prec_le op1
  have h2 := prec_le op2
  split
  · rename_i h
    have := expression_roundtrip (n := "x") (t := .scalar ⟨.u8, .big⟩)
      (e := .binary op2 (.binary op1 (.ref a) (.ref b)) (.ref c)) (by simp [SpeltT, scalarTok]) (by simp [SpeltE])
    simpa [printE, printT, scalarTok, wrap, level, constToks, Nat.not_lt.mpr h, Nat.not_lt.mpr h1, Nat.not_lt.mpr h2,
      Nat.not_lt.mpr (Nat.le_of_succ_le h1), Nat.not_lt.mpr (Nat.le_of_succ_le h2)] using this
  · rename_i h
    have h3 : prec op1 + 1 ≤ prec op2 := by omega
    have := expression_roundtrip (n := "x") (t := .scalar ⟨.u8, .big⟩)
      (e := .binary op1 (.ref a) (.binary op2 (.ref b) (.ref c))) (by simp [SpeltT, scalarTok]) (by simp [SpeltE])
    simpa [printE, printT, scalarTok, wrap, level, constToks, Nat.not_lt.mpr h3, Nat.not_lt.mpr h1, Nat.not_lt.mpr h2,
      Nat.not_lt.mpr (Nat.le_of_succ_le h1), Nat.not_lt.mpr (Nat.le_of_succ_le h2)] using this

/-- **C31** (4). A prefix operator is applied before a binary one, and after `.member`, `[index]` and calls. -/
theorem prefix_binds {op : UnOp} {op2 : BinOp} {a b m : String} :
    parseProgram (constToks [unTok op, .ident a, .dot, .ident m, opTok op2, .ident b]) =
      .ok [.const "x" (.scalar ⟨.u8, .big⟩) (.binary op2 (.unary op (.member (.ref a) m)) (.ref b))] := by
  have h2 := prec_le op2
  have h3 : prec op2 ≤ 12 := by cases op2 <;> decide
  have := expression_roundtrip (n := "x") (t := .scalar ⟨.u8, .big⟩)
    (e := .binary op2 (.unary op (.member (.ref a) m)) (.ref b)) (by simp [SpeltT, scalarTok]) (by simp [SpeltE])
  simpa [printE, printT, scalarTok, wrap, level, constToks, Nat.not_lt.mpr h3, Nat.not_lt.mpr h2] using this

/-- **C31** (5), a limit: the last part of a ternary is no ternary, so `a ? b : c ? d : e` is rejected. -/
theorem nested_ternary_finding : parseProgram (constToks [.ident "a", .question, .ident "b", .colon, .ident "c", .question,
    .ident "d", .colon, .ident "e"]) = .error (.unexpected .question) := by rfl

/-- **C32** (5), a limit: flags after the value of a calculated field are operands of a sum. -/
theorem calculated_flag_finding : parseProgram [.type, .ident "t", .equal, .u8, .equal, .ident "a", .plus, .ident "auto",
      .semicolon] =
    .ok [.type "t" [] (.mk (.scalar ⟨.u8, .big⟩) [] (some (.binary .add (.ref "a") (.ref "auto"))) none [])] := by rfl

/-- **C32** (6), a limit: the byte order in the type of an integer literal is dropped: `1u16le` is `1u16`. -/
theorem literal_endian_finding {s : String} {k : Scalar} {t t' : Token} (h : scalarTok ⟨k, .little⟩ = some t)
    (h' : scalarTok ⟨k, .big⟩ = some t') :
    parseProgram (constToks [.int s, t]) = parseProgram (constToks [.int s, t']) := by
  have key : ∀ {e : Endian} {t : Token}, scalarTok ⟨k, e⟩ = some t → parseProgram (constToks [.int s, t]) =
      .ok [.const "x" (.scalar ⟨.u8, .big⟩) (.int s (some k))] := by
    intro e t h
    have := Gr.programCons (Gr.decl (Gr.constDecl (n := "x") (Gr.scalar (k := ⟨.u8, .big⟩) rfl)
      (gr_down (Nat.zero_le _) (Gr.intTyped (s := s) h)))) Gr.programNil
    exact parse_iff_grammar.mpr this
  rw [key h, key h']

/-! ## Examples -/

/-- A program with every kind of declaration. -/
def sampleProgram : Program := [
  .import_ [⟨"a", none⟩, ⟨"b", some "c"⟩] (ascii "lib"),
  .ffi "gz" .transform,
  .const "k" (.scalar ⟨.u32, .little⟩) (.binary .mul (.binary .add (.int "1" none) (.ref "z")) (.int "0x10" (some .u8))),
  .type "t" [⟨"n", .scalar ⟨.u8, .big⟩, some (.bool true)⟩]
    (.mk (.container (some (.ref "n")) ["flag"] [
      .field "x" (.mk (.array (.ref "b" [.str (ascii "s"), .call "blen" [.ref "x"]]) true none) ["auto"] none
        (some (.unary .not (.index (.ref "q") (.int "0" none)))) [.mk "gz" [] none, .mk "gz" [.int "2" none] (some (.ref "y"))]),
      .pad (.int "4" none),
      .field "e" (.mk (.enum ⟨.i16, .big⟩ [.mk "A" (.expr (.int "3" none)), .mk "B" .none, .mk "C" .default]) [] none none []),
      .field "f" (.mk (.bitfield ⟨.u8, .big⟩ [.mk "A" (some (.int "1" none)), .mk "B" none]) [] none none []),
      .field "g" (.mk .bool [] (some (.ternary (.ref "x") (.member (.ref "y") "z") (.enumAccess "E" "A"))) none [])]) [] none none [])]

/-- The hypothesis of C32 (1) holds for it. -/
theorem sample_wf : ∀ d ∈ sampleProgram, SpeltDecl d := by
  simp [sampleProgram, SpeltDecl, SpeltE, SpeltT, SpeltF, SpeltOpt, SpeltItems, SpeltItem, SpeltArgs, SpeltXs, SpeltX, SpeltEnum, SpeltEnumItem, SpeltEnumVal,
    SpeltBits, SpeltBit, scalarTok]

example : parseProgram (printProgram sampleProgram) = .ok sampleProgram := program_roundtrip sample_wf

/-- C31 (1): the sum is below the level of a factor, and the printer writes parentheses there. -/
example : printE (.binary .mul (.binary .add (.int "1" none) (.ref "z")) (.int "2" none)) =
    [.leftParen, .int "1", .plus, .ident "z", .rightParen, .mul, .int "2"] := by rfl

/-- Errors occur: C33 (3) is not vacuous. -/
example : parseProgram [.type, .semicolon] = .error (.unexpected .semicolon) := by rfl

set_option maxRecDepth 4000 in
/-- C32 (4) on a source. -/
example : parse (ascii "type a = u8; // comment\nconst b: i32 = 1 + 2 * 3;") =
    .ok [.type "a" [] (.mk (.scalar ⟨.u8, .big⟩) [] none none []),
      .const "b" (.scalar ⟨.i32, .big⟩) (.binary .add (.int "1" none) (.binary .mul (.int "2" none) (.int "3" none)))] := by
  have h : tokensOf (ascii "type a = u8; // comment\nconst b: i32 = 1 + 2 * 3;") true = some
      [.type, .ident "a", .equal, .u8, .semicolon, .const, .ident "b", .colon, .i32, .equal, .int "1", .plus, .int "2", .mul,
        .int "3", .semicolon] := by decide +kernel
  exact parse_source.mpr ⟨_, h, parse_iff_grammar.mp (by rfl)⟩

end Verif.Props
