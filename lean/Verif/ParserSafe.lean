import Verif.ParserSound
/-!
# Parser: errors and depth
-/
namespace Verif

open Ast Props

/-- Depth needed by calls that consume nothing. -/
def rank : NT → Nat
  | .expr => 16
  | .lvl l => 5 + (10 - l)
  | .cast => 4
  | .unary => 3
  | .index => 2
  | .primary => 1
  | .argsLoop _ => 17
  | .type => 2
  | .container | .enum | .bitfield => 1
  | .len => 17
  | .field => 3
  | .decl => 1
  | .programLoop _ => 2
  | _ => 0

/-- Depth that suffices for a call. -/
def cost (g : NT) (t : Toks) : Nat := 32 * t.length + rank g

/-- `t` is left of `T` after at least `k` tokens. -/
structure Sub (T t : Toks) (k : Nat) : Prop where
  mem : ∀ x ∈ t, x ∈ T
  len : t.length + k ≤ T.length

theorem Sub.refl (T : Toks) : Sub T T 0 := ⟨fun _ h => h, by simp⟩

theorem Sub.suffix {T u r : Toks} {k : Nat} (h : Sub T (u ++ r) k) : Sub T r k :=
  ⟨fun x hx => h.mem x (by simp [hx]), by have := h.len; simp at this; omega⟩

theorem Sub.cons {T r : Toks} {a : Token} {k : Nat} (h : Sub T (a :: r) k) : Sub T r (k + 1) :=
  ⟨fun x hx => h.mem x (by simp [hx]), by have := h.len; simp at this; omega⟩

theorem Sub.head {T r : Toks} {a : Token} {k : Nat} (h : Sub T (a :: r) k) : a ∈ T := h.mem a (by simp)

theorem Sub.eat {T t r : Toks} {w : Token} {k : Nat} (h : Sub T t k) (he : eatTok w t = some r) :
    Sub T r (k + 1) := by have := eatTok_some he; subst this; exact h.cons

theorem Sub.eatAny {T t r : Toks} {ws} {x : Token} {k : Nat} (h : Sub T t k)
    (he : eatAny ws t = some (x, r)) : Sub T r (k + 1) := by
  obtain ⟨rfl, -⟩ := eatAny_some he; exact h.cons

/-- An error is no panic, names a token of `T`, and is no lack of depth if the depth is `c`. -/
def Safe {α : Type} (n : Nat) (T : Toks) (c : Nat) (x : PRes α) : Prop :=
  ∀ e, x = .error e → e ≠ .panic ∧ (∀ tok, e = .unexpected tok → tok ∈ T) ∧ (e = .diverge → n ≤ c) ∧
    ∀ te, e ≠ .token te

section
variable {n c : Nat} {T t : Toks}

theorem Safe.ok {α : Type} {a : α} : Safe n T c (.ok a) := by intro e h; cases h

theorem Safe.bind {α β : Type} {x : PRes α} {f : α → PRes β} (h : Safe n T c x)
    (hf : ∀ a, x = .ok a → Safe n T c (f a)) : Safe n T c (x >>= f) := by
  cases x with
  | error e => intro e' he; cases he; exact h _ rfl
  | ok a => exact hf a rfl

theorem Safe.eof {α : Type} : Safe n T c (α := α) (.error .eof) := by
  intro e h; cases h; exact ⟨nofun, nofun, nofun, nofun⟩

theorem Safe.unexpected {α : Type} {x : Token} (h : x ∈ T) : Safe n T c (α := α) (.error (.unexpected x)) := by
  intro e he; cases he; exact ⟨nofun, fun _ h' => by cases h'; exact h, nofun, nofun⟩

theorem Safe.other {α : Type} {e : PErr} (h1 : e ≠ .panic) (h2 : ∀ tok, e ≠ .unexpected tok) (h3 : e ≠ .diverge)
    (h4 : ∀ te, e ≠ .token te) :
    Safe n T c (α := α) (.error e) := by
  intro e he; cases he; exact ⟨h1, fun _ h' => absurd h' (h2 _), fun h' => absurd h' h3, h4⟩

theorem Safe.expect' {w : Token} {k : Nat} (hs : Sub T t k) : Safe n T c (expectTok w t) := by
  unfold expectTok
  split
  · split
    · exact .ok
    · exact .unexpected hs.head
  · exact .eof

theorem Safe.expect {β : Type} {w : Token} {k : Nat} {f : Toks → PRes β} (hs : Sub T t k)
    (hf : ∀ r, Sub T r (k + 1) → Safe n T c (f r)) : Safe n T c (expectTok w t >>= f) :=
  .bind (.expect' hs) fun r hr => hf r (by have := expectTok_ok hr; subst this; exact hs.cons)

theorem Safe.ident {β : Type} {k : Nat} {f : String × Toks → PRes β} (hs : Sub T t k)
    (hf : ∀ s r, Sub T r (k + 1) → Safe n T c (f (s, r))) : Safe n T c (expectIdent t >>= f) := by
  refine .bind ?_ fun ⟨s, r⟩ hr => hf s r (by have := expectIdent_ok hr; subst this; exact hs.cons)
  unfold expectIdent
  split
  · exact .ok
  · exact .unexpected hs.head
  · exact .eof

theorem Safe.string {β : Type} {k : Nat} {f : Text × Toks → PRes β} (hs : Sub T t k)
    (hf : ∀ s r, Sub T r (k + 1) → Safe n T c (f (s, r))) : Safe n T c (expectString t >>= f) := by
  refine .bind ?_ fun ⟨s, r⟩ hr => hf s r (by have := expectString_ok hr; subst this; exact hs.cons)
  unfold expectString
  split
  · exact .ok
  · exact .unexpected hs.head
  · exact .eof

theorem Safe.peek {β : Type} {w : Token} {f : Bool → PRes β}
    (hf : ∀ b, Safe n T c (f b)) : Safe n T c (peekTok w t >>= f) := by
  refine .bind ?_ fun b _ => hf b
  unfold peekTok
  split
  · exact .ok
  · exact .eof

theorem Safe.flags {β : Type} {k : Nat} {f : List String × Toks → PRes β} (hs : Sub T t k)
    (hf : ∀ s r, Sub T r k → Safe n T c (f (s, r))) : Safe n T c (parseFlags t >>= f) := by
  refine .bind ?_ fun ⟨s, r⟩ hr => hf s r (by have := parseFlags_ok hr; subst this; exact hs.suffix)
  clear hf
  induction t using parseFlags.induct generalizing k with
  | case1 s ts ih =>
    rw [parseFlags]
    exact .bind (ih hs.cons.cons) fun _ _ => .ok
  | case2 t ts h' => rw [parseFlags]; exact .unexpected hs.cons.head; exact h'
  | case3 => exact .eof
  | case4 ts h1 h2 h3 => rw [parseFlags] <;> first | exact .ok | assumption
end

variable {n : Nat} {rec : Rec} (snd : Snd rec)
  (saf : ∀ g t e, rec g t = .error e → e ≠ .panic ∧ (∀ tok, e = .unexpected tok → tok ∈ t) ∧
    (e = .diverge → n ≤ cost g t) ∧ ∀ te, e ≠ .token te)
include saf

theorem Safe.tail {g g' : NT} {T t : Toks} {k : Nat} (hs : Sub T t k) (hc : rank g' < 32 * k + rank g) :
    Safe (n + 1) T (cost g T) (rec g' t) := by
  intro e he
  obtain ⟨h1, h2, h3, h4⟩ := saf _ _ _ he
  refine ⟨h1, fun tok ht => hs.mem _ (h2 tok ht), fun hd => ?_, h4⟩
  have := h3 hd
  have := hs.len
  unfold cost at *
  omega

include snd

theorem Safe.call {β : Type} {g g' : NT} {T t : Toks} {k : Nat} {f : Out g' × Toks → PRes β} (hs : Sub T t k)
    (hc : rank g' < 32 * k + rank g) (hf : ∀ v r, Sub T r k → Safe (n + 1) T (cost g T) (f (v, r))) :
    Safe (n + 1) T (cost g T) (rec g' t >>= f) :=
  .bind (.tail saf hs hc) fun ⟨v, r⟩ hr => hf v r (by
    obtain ⟨u, rfl, -⟩ := snd _ _ _ _ hr; exact hs.suffix)

omit snd saf in
theorem Safe.sub {α β : Type} {n c k : Nat} {T t : Toks} {x : PRes (α × Toks)} {f : α × Toks → PRes β}
    (hs : Sub T t k) (hx : Safe n T c x) (hu : ∀ v r, x = .ok (v, r) → ∃ u, t = u ++ r)
    (hf : ∀ v r, Sub T r k → Safe n T c (f (v, r))) : Safe n T c (x >>= f) :=
  .bind hx fun ⟨v, r⟩ hr => hf v r (by obtain ⟨u, rfl⟩ := hu v r hr; exact hs.suffix)

/-- One step of the traversal of a function body. -/
local macro "safe1" : tactic => `(tactic| first
  | exact Safe.ok
  | exact Safe.eof
  | exact Safe.tail saf (by assumption) (by simp [rank]; try omega)
  | (refine Safe.call snd saf (by assumption) (by simp [rank]; try omega) fun _ _ _ => ?_; try dsimp only)
  | (refine Safe.expect (by assumption) fun _ _ => ?_)
  | (refine Safe.ident (by assumption) fun _ _ _ => ?_; try dsimp only)
  | (refine Safe.string (by assumption) fun _ _ _ => ?_; try dsimp only)
  | (refine Safe.peek fun _ => ?_)
  | (refine Safe.flags (by assumption) fun _ _ _ => ?_; try dsimp only)
  | exact Safe.unexpected (Sub.head (by assumption))
  | exact Safe.other nofun nofun nofun nofun
  | (split <;> try (have := Sub.eat (he := ‹eatTok _ _ = some _›) (by assumption)))
  )

omit snd in
theorem operand_safe {g : NT} {l : Nat} {T t : Toks} {k : Nat} (hs : Sub T t k)
    (hc : k = 0 → g = .lvl l) : Safe (n + 1) T (cost g T) (parseOperand rec l t) := by
  unfold parseOperand
  have hc' : ∀ r, r < 5 + (10 - l) → r < 32 * k + rank g := by
    intro r hr
    by_cases hk : k = 0
    · rw [hc hk]; simp [rank]; omega
    · omega
  split
  · exact .tail saf hs (hc' _ (by simp [rank]; omega))
  · exact .tail saf hs (hc' _ (by simp [rank]; omega))

theorem simple_safe {T t : Toks} {k : Nat} (hs : Sub T t k) :
    Safe (n + 1) T (cost .type T) (parseSimple rec t) := by
  unfold parseSimple
  split
  · exact .ok
  · rename_i t1 h1
    have := parseScalar_none h1; subst this
    split
    · exact .ok
    · exact .ok
    · exact .ok
    · have := hs.cons
      repeat safe1
    · exact .unexpected hs.head
    · exact .eof

theorem raw_safe {T t : Toks} (hs : Sub T t 0) : Safe (n + 1) T (cost .type T) (parseRaw rec t) := by
  unfold parseRaw
  split
  · exact .tail saf hs (by simp [rank])
  · exact .tail saf hs (by simp [rank])
  · exact .tail saf hs (by simp [rank])
  · exact simple_safe snd saf hs

theorem lenExpr_safe {T t : Toks} {k : Nat} (hs : Sub T t k) :
    Safe (n + 1) T (cost .len T) (parseLenExpr rec t) := by
  unfold parseLenExpr
  repeat safe1

theorem bracket_safe {g : NT} {T t : Toks} {k : Nat} (hs : Sub T t k) :
    Safe (n + 1) T (cost g T) (parseBracket rec t) := by
  unfold parseBracket
  repeat safe1

theorem enumRhs_safe {g : NT} {T t : Toks} {k : Nat} (hs : Sub T t (k + 1)) :
    Safe (n + 1) T (cost g T) (parseEnumRhs rec t) := by
  unfold parseEnumRhs
  repeat safe1

theorem enumValue_safe {g : NT} {b : Bool} {T t : Toks} {k : Nat} (hs : Sub T t k) :
    Safe (n + 1) T (cost g T) (parseEnumValue rec b t) := by
  unfold parseEnumValue
  repeat first | exact enumRhs_safe snd saf (by assumption) | safe1

theorem bitValue_safe {g : NT} {b : Bool} {T t : Toks} {k : Nat} (hs : Sub T t k) :
    Safe (n + 1) T (cost g T) (parseBitValue rec b t) := by
  unfold parseBitValue
  repeat safe1

omit snd in
theorem params_safe {g : NT} {T t : Toks} {k : Nat} (hs : Sub T t k) :
    Safe (n + 1) T (cost g T) (parseParams rec t) := by
  unfold parseParams
  repeat safe1

theorem dflt_safe {g : NT} {T t : Toks} {k : Nat} (hs : Sub T t k) :
    Safe (n + 1) T (cost g T) (parseDflt rec t) := by
  unfold parseDflt
  repeat safe1

omit snd saf in
theorem alias_safe {c : Nat} {T t : Toks} {k : Nat} (hs : Sub T t k) : Safe (n + 1) T c (parseAlias t) := by
  unfold parseAlias
  split
  · rename_i h
    refine .ident (hs.eat h) fun _ _ _ => .ok
  · exact .ok

omit snd saf in
theorem ffiDecl_safe {c : Nat} {T t : Toks} {k : Nat} (hs : Sub T t k) : Safe (n + 1) T c (parseFfiDecl t) := by
  unfold parseFfiDecl
  refine .expect hs fun t1 s1 => ?_
  refine .ident s1 fun nm t2 s2 => ?_
  dsimp only
  refine .expect s2 fun t3 s3 => ?_
  split
  · rename_i x t4 h
    obtain ⟨-, hx⟩ := eatAny_some h
    refine .bind ?_ fun _ _ => .ok
    simp only [List.mem_cons, List.not_mem_nil, or_false] at hx
    rcases hx with rfl | rfl | rfl <;> exact .ok
  · split
    · exact .unexpected s3.head
    · exact .eof

omit snd in
theorem body_safe {T t : Toks} (hs : Sub T t 0) : Safe (n + 1) T (cost .decl T) (parseBody rec t) := by
  unfold parseBody
  split
  · exact .tail saf hs (by simp [rank])
  · exact .tail saf hs (by simp [rank])
  · exact ffiDecl_safe hs
  · exact .tail saf hs (by simp [rank])
  · exact .unexpected hs.head
  · exact .eof

omit snd saf in
theorem levelOp_total {l : Nat} {x : Token} (h : x ∈ levelToks l) : levelOp l x ≠ none := by
  unfold levelToks at h
  split at h <;> simp only [List.mem_cons, List.not_mem_nil, or_false] at h
  all_goals first
    | exact h.elim
    | (subst h; decide)
    | (rcases h with rfl | rfl <;> decide)
    | (rcases h with rfl | rfl | rfl <;> decide)
    | (rcases h with rfl | rfl | rfl | rfl <;> decide)

omit snd saf in
theorem applyUnary_safe {c : Nat} {T t : Toks} (e : Expression) :
    Safe (n + 1) T c (applyUnary (unaryToks t).1 e) := by
  induction t with
  | nil => exact .ok
  | cons a t ih =>
    rw [unaryToks]
    split
    · rename_i h
      rw [applyUnary]
      refine .bind ih fun _ _ => .bind ?_ fun _ _ => .ok
      simp only [List.mem_cons, List.not_mem_nil, or_false] at h
      rcases h with rfl | rfl | rfl <;> exact .ok
    · exact .ok

theorem step_safe (g : NT) (t : Toks) : Safe (n + 1) t (cost g t) (step rec g t) := by
  have s0 := Sub.refl t
  cases g
  case expr => dsimp only [step]; unfold parseExpr; repeat safe1
  case lvl l =>
    dsimp only [step]; unfold parseLvl
    refine .sub s0 (operand_safe saf s0 fun _ => rfl) (fun v r h => ?_) fun v r s => ?_
    · obtain ⟨u, h, -⟩ := operand_sound snd h; exact ⟨u, h⟩
    · exact .tail saf s (by simp [rank]; omega)
  case lvlLoop l e =>
    dsimp only [step]; unfold parseLvlLoop
    split
    · rename_i op t1 h
      have s1 := s0.eatAny h
      refine .sub s1 (operand_safe saf s1 fun h => by omega) (fun v r h => ?_) fun v r s => ?_
      · obtain ⟨u, h, -⟩ := operand_sound snd h; exact ⟨u, h⟩
      · dsimp only
        split
        · exact .tail saf s (by simp [rank])
        · rename_i h'
          exact absurd h' (levelOp_total (eatAny_some h).2)
    · exact .ok
  case cast => dsimp only [step]; unfold parseCast; repeat safe1
  case castLoop e =>
    dsimp only [step]; unfold parseCastLoop
    split
    · have s1 := s0.eatAny (by assumption)
      repeat safe1
    · have s1 := s0.eatAny (by assumption)
      repeat safe1
    · rename_i x h1 h2 h
      obtain ⟨x, t'⟩ := x
      have := (eatAny_some h).2
      simp only [List.mem_cons, List.not_mem_nil, or_false] at this
      rcases this with rfl | rfl
      · exact absurd rfl (h1 _)
      · exact absurd rfl (h2 _)
    · exact .ok
  case unary =>
    dsimp only [step]; unfold parseUnary
    have s1 : Sub t (unaryToks t).2 0 := by
      have h := unaryToks_append t
      have h' := s0
      rw (occs := .pos [2]) [h] at h'
      exact h'.suffix
    refine .call snd saf s1 (by simp [rank]) fun _ _ _ => .bind (applyUnary_safe _) fun _ _ => .ok
  case index => dsimp only [step]; unfold parseIndex; repeat safe1
  case indexLoop e =>
    dsimp only [step]; unfold parseIndexLoop
    split
    · have s1 := s0.eatAny (by assumption)
      repeat safe1
    · have s1 := s0.eatAny (by assumption)
      repeat safe1
    · rename_i x h1 h2 h
      obtain ⟨x, t'⟩ := x
      have := (eatAny_some h).2
      simp only [List.mem_cons, List.not_mem_nil, or_false] at this
      rcases this with rfl | rfl
      · exact absurd rfl (h1 _)
      · exact absurd rfl (h2 _)
    · exact .ok
  case primary =>
    dsimp only [step]; unfold parsePrimary
    split
    · exact .eof
    · exact .ok
    · exact .ok
    · exact .ok
    · exact .ok
    · have s1 := s0.cons
      repeat safe1
    · have s1 := s0.cons
      repeat safe1
    · exact .unexpected s0.head
  case args => dsimp only [step]; unfold parseArgs; repeat safe1
  case argsLoop acc => dsimp only [step]; unfold parseArgsLoop; repeat safe1
  case type =>
    dsimp only [step]; unfold parseType
    refine .sub s0 (raw_safe snd saf s0) (fun v r h => ?_) fun v r s => ?_
    · obtain ⟨u, h, -⟩ := raw_sound snd h; exact ⟨u, h⟩
    · repeat safe1
  case typeLoop out => dsimp only [step]; unfold parseTypeLoop; repeat safe1
  case len =>
    dsimp only [step]; unfold parseLen
    have s1 : Sub t ((eatTok .dotDot t).getD t) 0 := by
      cases h : eatTok .dotDot t with
      | none => exact s0
      | some r => exact ⟨(s0.eat h).mem, by have := (s0.eat h).len; simp; omega⟩
    refine .sub s1 (lenExpr_safe snd saf s1) (fun v r h => ?_) fun v r s => ?_
    · obtain ⟨u, h, -⟩ := lenExpr_sound snd h; exact ⟨u, h⟩
    · dsimp only
      split
      · exact .other nofun nofun nofun nofun
      · exact .ok
  case container =>
    dsimp only [step]; unfold parseContainer
    refine .expect s0 fun t1 s1 => ?_
    refine .sub s1 (bracket_safe snd saf s1) (fun v r h => ?_) fun v r s => ?_
    · obtain ⟨u, h, -⟩ := bracket_sound snd h; exact ⟨u, h⟩
    · dsimp only
      repeat safe1
  case containerLoop acc => dsimp only [step]; unfold parseContainerLoop; repeat safe1
  case enum =>
    dsimp only [step]; unfold parseEnum
    refine .expect s0 fun t1 s1 => ?_
    split
    · exact .other nofun nofun nofun nofun
    · rename_i h
      obtain ⟨x, rfl, -⟩ := parseScalar_some h
      have s2 := s1.cons
      repeat safe1
  case enumLoop acc =>
    dsimp only [step]; unfold parseEnumLoop
    refine .ident s0 fun nm t1 s1 => ?_
    dsimp only
    refine .sub s1 (enumValue_safe snd saf s1) (fun v r h => ?_) fun v r s => ?_
    · obtain ⟨u, h, -⟩ := enumValue_sound snd h ""; exact ⟨u, h⟩
    · dsimp only
      repeat safe1
  case bitfield =>
    dsimp only [step]; unfold parseBitfield
    refine .expect s0 fun t1 s1 => ?_
    split
    · exact .other nofun nofun nofun nofun
    · rename_i h
      obtain ⟨x, rfl, -⟩ := parseScalar_some h
      have s2 := s1.cons
      repeat safe1
  case bitLoop acc =>
    dsimp only [step]; unfold parseBitLoop
    refine .ident s0 fun nm t1 s1 => ?_
    dsimp only
    refine .sub s1 (bitValue_safe snd saf s1) (fun v r h => ?_) fun v r s => ?_
    · obtain ⟨u, h, -⟩ := bitValue_sound snd h ""; exact ⟨u, h⟩
    · dsimp only
      repeat safe1
  case field => dsimp only [step]; unfold parseField; repeat safe1
  case cond => dsimp only [step]; unfold parseCond; repeat safe1
  case calcd => dsimp only [step]; unfold parseCalc; repeat safe1
  case transLoop acc => dsimp only [step]; unfold parseTransLoop; repeat safe1
  case typeDecl =>
    dsimp only [step]; unfold parseTypeDecl
    refine .expect s0 fun t1 s1 => .ident s1 fun nm t2 s2 => ?_
    dsimp only
    refine .sub s2 (params_safe saf s2) (fun v r h => ?_) fun v r s => ?_
    · obtain ⟨u, h, -⟩ := params_sound snd h; exact ⟨u, h⟩
    · dsimp only
      repeat safe1
  case typeArgsLoop acc =>
    dsimp only [step]; unfold parseTypeArgsLoop
    split
    · exact .ok
    · refine .ident s0 fun nm t1 s1 => ?_
      refine .expect s1 fun t2 s2 => ?_
      refine .call snd saf s2 (by simp [rank]) fun ty t3 s3 => ?_
      dsimp only
      refine .sub s3 (dflt_safe snd saf s3) (fun v r h => ?_) fun v r s => ?_
      · obtain ⟨u, h, -⟩ := dflt_sound snd h; exact ⟨u, h⟩
      · dsimp only
        repeat safe1
  case importDecl => dsimp only [step]; unfold parseImportDecl; repeat safe1
  case importLoop acc =>
    dsimp only [step]; unfold parseImportLoop
    refine .ident s0 fun nm t1 s1 => ?_
    dsimp only
    refine .sub s1 (alias_safe s1) (fun v r h => ?_) fun v r s => ?_
    · obtain ⟨u, h, -⟩ := alias_sound h ""; exact ⟨u, h⟩
    · dsimp only
      repeat safe1
  case constDecl => dsimp only [step]; unfold parseConstDecl; repeat safe1
  case decl =>
    dsimp only [step]; unfold parseDecl
    refine .sub s0 (body_safe saf s0) (fun v r h => ?_) fun v r s => ?_
    · obtain ⟨u, h, -⟩ := body_sound snd h; exact ⟨u, h⟩
    · dsimp only
      repeat safe1
  case programLoop acc =>
    dsimp only [step]; unfold parseProgramLoop
    split
    · exact .ok
    · rename_i a t'
      refine .bind (.tail saf s0 (by simp [rank])) fun ⟨d, r⟩ hr => ?_
      obtain ⟨u, hu, -, hne⟩ := snd .decl _ _ _ hr
      dsimp only
      have s1 : Sub (a :: t') r 1 := by
        cases u with
        | nil => exact absurd rfl hne
        | cons b u =>
          rw [hu]
          exact (Sub.refl (b :: (u ++ r))).cons.suffix
      exact .tail saf s1 (by simp [rank])

omit saf snd in
theorem P_safe (n : Nat) (g : NT) (t : Toks) (e : PErr) (h : P n g t = .error e) :
    e ≠ .panic ∧ (∀ tok, e = .unexpected tok → tok ∈ t) ∧ (e = .diverge → n ≤ cost g t) ∧
      ∀ te, e ≠ .token te := by
  induction n generalizing g t e with
  | zero => cases h; exact ⟨nofun, nofun, fun _ => Nat.zero_le _, nofun⟩
  | succ n ih => exact step_safe (P_sound n) ih g t e h

end Verif
