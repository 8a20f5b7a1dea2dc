import Verif.Sem.ElabProgram
import Verif.Props.Dups
/-!
# C40: names are resolved lexically; C49: the graph is the tree with names resolved
-/
namespace Verif.Props
open Verif Sem

/-! ## Specification -/

/-- The expression mentions the name, other than inside a type it casts to. -/
inductive NamedIn (n : String) : Ast.Expression → Prop
  | here : NamedIn n (.ref n)
  | left {op l r} : NamedIn n l → NamedIn n (.binary op l r)
  | right {op l r} : NamedIn n r → NamedIn n (.binary op l r)
  | unary {op e} : NamedIn n e → NamedIn n (.unary op e)
  | cast {e t} : NamedIn n e → NamedIn n (.cast e t)
  | array {a i} : NamedIn n a → NamedIn n (.index a i)
  | index {a i} : NamedIn n i → NamedIn n (.index a i)
  | cond {c t f} : NamedIn n c → NamedIn n (.ternary c t f)
  | then_ {c t f} : NamedIn n t → NamedIn n (.ternary c t f)
  | else_ {c t f} : NamedIn n f → NamedIn n (.ternary c t f)
  | arg {fn args e} : e ∈ args → NamedIn n e → NamedIn n (.call fn args)
  | member {e m} : NamedIn n e → NamedIn n (.member e m)

/-- The expression occurs directly in the type: as a length or as an argument of the type it
refers to. -/
inductive TypeUses (e : Ast.Expression) : Ast.Ty → Prop
  | containerLength {flags items} : TypeUses e (.container (some e) flags items)
  | arrayLength {t x} : TypeUses e (.array t x (some e))
  | element {t x len} : TypeUses e t → TypeUses e (.array t x len)
  | argument {n args} : e ∈ args → TypeUses e (.ref n args)

/-- The expression occurs directly in a field, other than as its calculated value. -/
inductive FieldUses (e : Ast.Expression) : Ast.Field → Prop
  | type {t flags cal cond xs} : TypeUses e t → FieldUses e (.mk t flags cal cond xs)
  | condition {t flags cal xs} : FieldUses e (.mk t flags cal (some e) xs)
  | transform {t flags cal cond xs n args c} : .mk n args c ∈ xs → e ∈ args →
      FieldUses e (.mk t flags cal cond xs)
  | transformCondition {t flags cal cond xs n args} : .mk n args (some e) ∈ xs →
      FieldUses e (.mk t flags cal cond xs)

/-- The names of the fields among some items. -/
def fieldsIn : List Ast.Item → List String
  | [] => []
  | .field n _ :: rest => n :: fieldsIn rest
  | .pad _ :: rest => fieldsIn rest

/-! ## What names denote -/

theorem fieldVisible_unique {sc : Scope} {n : String} {f g : FId} (h1 : FieldVisible sc n f)
    (h2 : FieldVisible sc n g) : f = g := by
  induction h1 with
  | here h =>
    cases h2 with
    | here h' => rw [h] at h'; exact Option.some.inj h'
    | outer h' _ => rw [h] at h'; cases h'
  | outer h _ ih =>
    cases h2 with
    | here h' => rw [h] at h'; cases h'
    | outer _ h' => exact ih h'

theorem inputVisible_unique {sc : Scope} {n : String} {f g : AType} (h1 : InputVisible sc n f)
    (h2 : InputVisible sc n g) : f = g := by
  induction h1 with
  | here h =>
    cases h2 with
    | here h' => rw [h] at h'; exact Option.some.inj h'
    | outer h' _ => rw [h] at h'; cases h'
  | outer h _ ih =>
    cases h2 with
    | here h' => rw [h] at h'; cases h'
    | outer _ h' => exact ih h'

/-- A name denotes at most one thing in a scope. -/
theorem name_denotes_one {p : Prog} {sc : Scope} {n : String} {a b : AExpr}
    (h1 : Denotes p sc n a) (h2 : Denotes p sc n b) : a = b := by
  cases h1 with
  | field h =>
    cases h2 with
    | field h' => rw [fieldVisible_unique h h']
    | input h' _ => exact absurd h (h' _)
    | const h' _ _ => exact absurd h (h' _)
  | input h hi =>
    cases h2 with
    | field h' => exact absurd h' (h _)
    | input _ h' => rw [inputVisible_unique hi h']
    | const _ h' _ => exact absurd hi (h' _)
  | const h hi hc =>
    cases h2 with
    | field h' => exact absurd h' (h _)
    | input _ h' => exact absurd h' (hi _)
    | const _ _ h' => rw [hc] at h'; cases h'; rfl

/-- Resolving a name yields what it denotes, and leaves everything else alone. -/
theorem name_resolves_iff (p : Prog) (sc : Scope) (n : String) (s s' : St) (e : AExpr) :
    convRef p sc n s = .ok (e, s') ↔ Denotes p sc n e ∧ s' = s := by
  rw [convRef_ok, eq_comm (a := s)]

/-- A name that denotes nothing is an error that names it. -/
theorem unresolved_is_error (p : Prog) (sc : Scope) (n : String) (s : St)
    (h : ∀ e, ¬ Denotes p sc n e) : convRef p sc n s = .error (.asg (.unresolvedVar n)) := by
  have hok : ∀ e s', convRef p sc n s ≠ .ok (e, s') := fun e s' he => h e (convRef_ok.1 he).1
  unfold convRef at hok ⊢
  cases hf : resolveField sc n with
  | some f => simp only [hf] at hok; exact absurd rfl (hok _ _)
  | none =>
    simp only [hf] at hok ⊢
    cases hi : resolveInput sc n with
    | some t => simp only [hi] at hok; exact absurd rfl (hok _ _)
    | none =>
      simp only [hi] at hok ⊢
      cases hc : IMap.get p.consts n with
      | some c => simp only [hc] at hok; exact absurd rfl (hok _ _)
      | none => rfl

theorem fieldVisible_empty {sc : Scope} {n : String} {f : FId} :
    FieldVisible (⟨[], []⟩ :: sc) n f ↔ FieldVisible sc n f := by
  constructor
  · intro h
    cases h with
    | here h => cases h
    | outer _ h => exact h
  · intro h; exact .outer rfl h

theorem inputVisible_empty {sc : Scope} {n : String} {t : AType} :
    InputVisible (⟨[], []⟩ :: sc) n t ↔ InputVisible sc n t := by
  constructor
  · intro h
    cases h with
    | here h => cases h
    | outer _ h => exact h
  · intro h; exact .outer rfl h

/-- The frame every field gets for itself does not matter. -/
theorem denotes_empty {p : Prog} {sc : Scope} {n : String} {e : AExpr} :
    Denotes p (⟨[], []⟩ :: sc) n e ↔ Denotes p sc n e := by
  constructor
  · intro h
    cases h with
    | field h => exact .field (fieldVisible_empty.1 h)
    | input h1 h2 =>
      exact .input (fun f hf => h1 f (fieldVisible_empty.2 hf)) (inputVisible_empty.1 h2)
    | const h1 h2 h3 =>
      exact .const (fun f hf => h1 f (fieldVisible_empty.2 hf))
        (fun f hf => h2 f (inputVisible_empty.2 hf)) h3
  · intro h
    cases h with
    | field h => exact .field (fieldVisible_empty.2 h)
    | input h1 h2 =>
      exact .input (fun f hf => h1 f (fieldVisible_empty.1 hf)) (inputVisible_empty.2 h2)
    | const h1 h2 h3 =>
      exact .const (fun f hf => h1 f (fieldVisible_empty.1 hf))
        (fun f hf => h2 f (inputVisible_empty.1 hf)) h3

theorem fieldVisible_frame {sc : Scope} {m : List (String × FId)} {n : String} {f : FId} :
    FieldVisible (⟨m, []⟩ :: sc) n f ↔
      IMap.get m n = some f ∨ IMap.get m n = none ∧ FieldVisible sc n f := by
  constructor
  · intro h
    cases h with
    | here h => exact .inl h
    | outer h h' => exact .inr ⟨h, h'⟩
  · rintro (h | ⟨h, h'⟩)
    · exact .here h
    · exact .outer h h'

theorem inputVisible_frame {sc : Scope} {m : List (String × FId)} {n : String} {t : AType} :
    InputVisible (⟨m, []⟩ :: sc) n t ↔ InputVisible sc n t := by
  constructor
  · intro h
    cases h with
    | here h => cases h
    | outer _ h => exact h
  · intro h; exact .outer rfl h

/-- Among some sibling fields, a name denotes the sibling if there is one, else what it denotes
outside. -/
theorem denotes_siblings {p : Prog} {sc : Scope} {m : List (String × FId)} {n : String}
    {e : AExpr} : Denotes p (⟨m, []⟩ :: sc) n e ↔
      (∃ f, IMap.get m n = some f ∧ e = .fieldRef f) ∨ IMap.get m n = none ∧ Denotes p sc n e := by
  constructor
  · intro h
    cases h with
    | field h =>
      rcases fieldVisible_frame.1 h with h | ⟨h, h'⟩
      · exact .inl ⟨_, h, rfl⟩
      · exact .inr ⟨h, .field h'⟩
    | input h1 h2 =>
      cases hm : IMap.get m n with
      | some f => exact absurd (.here hm) (h1 f)
      | none => exact .inr ⟨rfl, .input (fun f hf => h1 f (.outer hm hf)) (inputVisible_frame.1 h2)⟩
    | const h1 h2 h3 =>
      cases hm : IMap.get m n with
      | some f => exact absurd (.here hm) (h1 f)
      | none =>
        exact .inr ⟨rfl, .const (fun f hf => h1 f (.outer hm hf))
          (fun f hf => h2 f (inputVisible_frame.2 hf)) h3⟩
  · rintro (⟨f, h, rfl⟩ | ⟨h, h'⟩)
    · exact .field (.here h)
    · cases h' with
      | field h' => exact .field (.outer h h')
      | input h1 h2 =>
        refine .input (fun f hf => ?_) (inputVisible_frame.2 h2)
        rcases fieldVisible_frame.1 hf with h' | h'
        · rw [h] at h'; cases h'
        · exact h1 f h'.2
      | const h1 h2 h3 =>
        refine .const (fun f hf => ?_) (fun f hf => h2 f (inputVisible_frame.1 hf)) h3
        rcases fieldVisible_frame.1 hf with h' | h'
        · rw [h] at h'; cases h'
        · exact h1 f h'.2

/-- At the top level there are only constants. -/
theorem denotes_top {p : Prog} {n : String} {e : AExpr} :
    Denotes p topScope n e ↔ ∃ c, IMap.get p.consts n = some c ∧ e = .constRef c := by
  unfold topScope
  constructor
  · intro h
    cases h with
    | field h => cases h with
      | here h => cases h
      | outer _ h => cases h
    | input _ h => cases h with
      | here h => cases h
      | outer _ h => cases h
    | const _ _ h => exact ⟨_, h, rfl⟩
  · rintro ⟨c, h, rfl⟩
    refine .const (fun f h => ?_) (fun t h => ?_) h
    · cases h with
      | here h => cases h
      | outer _ h => cases h
    · cases h with
      | here h => cases h
      | outer _ h => cases h

/-! ## Everything mentioned denotes something -/

theorem uses_elabArgs {p : Prog} {h : Heap} {sc : Scope} {e : Ast.Expression} :
    ∀ {es : List Ast.Expression} {es' : List AExpr}, ElabArgs p h sc es es' → e ∈ es →
      ∃ e', ElabE p h sc e e'
  | _, _, .cons he hes, hin => by
    rcases List.mem_cons.1 hin with rfl | hin
    · exact ⟨_, he⟩
    · exact uses_elabArgs hes hin

theorem elabE_core {p : Prog} {h : Heap} {sc : Scope} {e : Ast.Expression} {e' : AExpr}
    (he : ElabE p h sc e e') : ∃ x, ElabC p h sc e x := by
  cases he with
  | exact he => exact ⟨_, he⟩
  | widened he => exact ⟨_, he⟩

theorem mentions_denotes {p : Prog} {h : Heap} {sc : Scope} {n : String} {e : Ast.Expression}
    (hm : NamedIn n e) : ∀ {e' : AExpr}, ElabE p h sc e e' → ∃ x, Denotes p sc n x := by
  induction hm with
  | here =>
    intro e' he
    obtain ⟨x, he⟩ := elabE_core he
    cases he with | ref hd => exact ⟨_, hd⟩
  | left _ ih =>
    intro e' he
    obtain ⟨x, he⟩ := elabE_core he
    cases he with | binary hl _ => exact ih hl
  | right _ ih =>
    intro e' he
    obtain ⟨x, he⟩ := elabE_core he
    cases he with | binary _ hr => exact ih hr
  | unary _ ih =>
    intro e' he
    obtain ⟨x, he⟩ := elabE_core he
    cases he with | unary he => exact ih he
  | cast _ ih =>
    intro e' he
    obtain ⟨x, he⟩ := elabE_core he
    cases he with | cast he _ => exact ih he
  | array _ ih =>
    intro e' he
    obtain ⟨x, he⟩ := elabE_core he
    cases he with | index he _ => exact ih he
  | index _ ih =>
    intro e' he
    obtain ⟨x, he⟩ := elabE_core he
    cases he with | index _ he => exact ih he
  | cond _ ih =>
    intro e' he
    obtain ⟨x, he⟩ := elabE_core he
    cases he with | ternary he _ _ => exact ih he
  | then_ _ ih =>
    intro e' he
    obtain ⟨x, he⟩ := elabE_core he
    cases he with | ternary _ he _ => exact ih he
  | else_ _ ih =>
    intro e' he
    obtain ⟨x, he⟩ := elabE_core he
    cases he with | ternary _ _ he => exact ih he
  | arg hin _ ih =>
    intro e' he
    obtain ⟨x, he⟩ := elabE_core he
    cases he with
    | call _ ha =>
      obtain ⟨y, hy⟩ := uses_elabArgs ha hin
      exact ih hy
  | member _ ih =>
    intro e' he
    obtain ⟨x, he⟩ := elabE_core he
    cases he with | member he _ => exact ih he

theorem uses_elabTy {p : Prog} {h : Heap} {sc : Scope} {e : Ast.Expression} {t : Ast.Ty}
    (hu : TypeUses e t) : ∀ {t' : AType}, ElabTy p h sc t t' → ∃ e', ElabE p h sc e e' := by
  induction hu with
  | containerLength =>
    intro t' ht
    cases ht with
    | container hl _ _ _ _ _ _ => cases hl with | some hl => exact ⟨_, hl⟩
  | arrayLength =>
    intro t' ht
    cases ht with
    | array _ hl => cases hl with | some hl => exact ⟨_, hl⟩
  | element _ ih =>
    intro t' ht
    cases ht with
    | array he _ => exact ih he
  | argument hin =>
    intro t' ht
    cases ht with
    | ref _ ha => exact uses_elabArgs ha hin

theorem uses_elabXforms {p : Prog} {h : Heap} {sc : Scope} {n : String}
    {args : List Ast.Expression} {c : Option Ast.Expression} :
    ∀ {xs : List Ast.Transform} {xs' : List AXform}, ElabXforms p h sc xs xs' →
      .mk n args c ∈ xs → ∃ args' c', ElabArgs p h sc args args' ∧ ElabOpt p h sc c c'
  | _, _, .cons _ ha hc hr, hin => by
    rcases List.mem_cons.1 hin with e | hin
    · cases e; exact ⟨_, _, ha, hc⟩
    · exact uses_elabXforms hr hin

theorem uses_elabMid {p : Prog} {h : Heap} {sc : Scope} {e : Ast.Expression} {f : Ast.Field}
    (hu : FieldUses e f) {x : AField} (hf : ElabMid p h sc f x) : ∃ e', ElabE p h sc e e' := by
  cases hf with
  | mk _ ht hc hx =>
    cases hu with
    | type hu => exact uses_elabTy hu ht
    | condition =>
      generalize x.condition = c at hc
      cases hc with | some hc => exact ⟨_, hc⟩
    | transform h1 h2 =>
      obtain ⟨_, _, ha, _⟩ := uses_elabXforms hx h1
      exact uses_elabArgs ha h2
    | transformCondition h1 =>
      obtain ⟨_, _, _, ha⟩ := uses_elabXforms hx h1
      cases ha with | some ha => exact ⟨_, ha⟩

/-! ## Fields see the fields before them -/

theorem fieldCells_names : ∀ {items : List Ast.Item} {cells : List FId},
    cells.length = items.length → (fieldCells items cells).map Prod.fst = fieldsIn items
  | [], [], _ => rfl
  | .field n _ :: rest, f :: cells, h => by
    rw [fieldCells, fieldsIn, List.map_cons, fieldCells_names (by simpa using h)]
  | .pad _ :: rest, f :: cells, h => by
    rw [fieldCells, fieldsIn, fieldCells_names (by simpa using h)]

/-- The field after `pre` is converted with exactly the fields of `pre` in scope. -/
theorem elabItems_at {p : Prog} {h : Heap} {sc : Scope} {n : String} {fld : Ast.Field}
    {post : List Ast.Item} : ∀ {pre : List Ast.Item} {before : List (String × FId)} {k : Nat}
      {cells : List FId}, ElabItems p h sc before (pre ++ .field n fld :: post) k cells →
      ∃ x, ElabMid p h
        (⟨[], []⟩ :: ⟨before ++ fieldCells pre (cells.take pre.length), []⟩ :: sc) fld x
  | [], before, k, cells, hi => by
    cases hi with
    | field _ _ _ _ hm _ => exact ⟨_, by simpa [fieldCells] using hm⟩
  | .field m g :: pre, before, k, _, .field _ _ _ _ _ hr => by
    obtain ⟨x, hx⟩ := elabItems_at hr
    exact ⟨x, by simpa [fieldCells] using hx⟩
  | .pad e :: pre, before, k, _, .pad _ _ _ _ _ _ _ _ _ hr => by
    obtain ⟨x, hx⟩ := elabItems_at hr
    exact ⟨x, by simpa [fieldCells] using hx⟩

theorem elabItems_pad {p : Prog} {h : Heap} {sc : Scope} {e : Ast.Expression}
    {post : List Ast.Item} : ∀ {pre : List Ast.Item} {before : List (String × FId)} {k : Nat}
      {cells : List FId}, ElabItems p h sc before (pre ++ .pad e :: post) k cells →
      ∃ e', ElabE p h (⟨before ++ fieldCells pre (cells.take pre.length), []⟩ :: sc) e e'
  | [], before, k, cells, hi => by
    cases hi with
    | pad _ _ _ _ _ _ _ _ he _ => exact ⟨_, by simpa [fieldCells] using he⟩
  | .field m g :: pre, before, k, _, .field _ _ _ _ _ hr => by
    obtain ⟨x, hx⟩ := elabItems_pad hr
    exact ⟨x, by simpa [fieldCells] using hx⟩
  | .pad e :: pre, before, k, _, .pad _ _ _ _ _ _ _ _ _ hr => by
    obtain ⟨x, hx⟩ := elabItems_pad hr
    exact ⟨x, by simpa [fieldCells] using hx⟩

theorem elabCalcs_at {p : Prog} {h : Heap} {sc : Scope} {n : String} {ty : Ast.Ty}
    {flags : List String} {cal cond : Option Ast.Expression} {xs : List Ast.Transform}
    {post : List Ast.Item} : ∀ {pre : List Ast.Item} {cells : List FId},
      ElabCalcs p h sc (pre ++ .field n (.mk ty flags cal cond xs) :: post) cells →
      ∃ c, ElabOpt p h (⟨[], []⟩ :: sc) cal c
  | [], cells, hi => by
    cases hi with
    | field _ hc _ => exact ⟨_, hc⟩
  | .field m (.mk _ _ _ _ _) :: pre, _, .field _ _ hr => elabCalcs_at hr
  | .pad e :: pre, _, .pad hr => elabCalcs_at hr

theorem elabItems_length {p : Prog} {h : Heap} : ∀ {items : List Ast.Item} {sc : Scope}
    {before : List (String × FId)} {k : Nat} {cells : List FId},
    ElabItems p h sc before items k cells → cells.length = items.length
  | _, _, _, _, _, .nil => rfl
  | _, _, _, _, _, .field _ _ _ _ _ hr => by simp [elabItems_length hr]
  | _, _, _, _, _, .pad _ _ _ _ _ _ _ _ _ hr => by simp [elabItems_length hr]

theorem get_none_of_not_mem {m : List (String × FId)} {n : String}
    (h : n ∉ m.map Prod.fst) : IMap.get m n = none := IMap.get_none_iff.2 h

/-! ## C40 -/

/-- A converted module is the syntax tree with every name replaced by what it denotes where it
stands, and nothing else changed (`ElabDecl` is the whole account). -/
theorem names_resolved_lexically (env : Env) (n : Nat) (ast : Ast.Program) (p : Prog) (h : Heap)
    (loads : List String) (hc : convert env n ast = .ok (p, h, loads)) :
    ∀ d ∈ ast, ElabDecl p h d := by
  unfold convert at hc
  rw [rmap_ok] at hc
  obtain ⟨⟨⟨p', l'⟩, s'⟩, hr, he⟩ := hc
  cases he
  unfold fromAst at hr
  rw [StateT.run] at hr
  simp only [bind_run_ok, pure_run_ok] at hr
  obtain ⟨c, s1, -, q, s2, h2, e, rfl⟩ := hr
  cases e
  exact fromAstImported_elab h2

/-- Inside a container, wherever it stands: a name used by a field, other than in its calculated
value, is that of an earlier sibling or denotes something outside the container. Later siblings
and the field itself do not count. -/
theorem field_sees_earlier_siblings {p : Prog} {h : Heap} {sc : Scope} {len : Option Ast.Expression}
    {flags : List String} {pre post : List Ast.Item} {n m : String} {fld : Ast.Field}
    {e : Ast.Expression} {t : AType}
    (ht : ElabTy p h sc (.container len flags (pre ++ .field n fld :: post)) t)
    (hu : FieldUses e fld) (hm : NamedIn m e) :
    m ∈ fieldsIn pre ∨ ∃ x, Denotes p sc m x := by
  cases ht with
  | container _ _ _ hlen _ hi _ =>
    rename_i cells _ _ _ _ _
    obtain ⟨x, hx⟩ := elabItems_at hi
    obtain ⟨e', he⟩ := uses_elabMid hu hx
    obtain ⟨d, hd⟩ := mentions_denotes hm he
    rw [denotes_empty, List.nil_append, denotes_siblings] at hd
    rcases hd with ⟨f, hf, -⟩ | ⟨-, hd⟩
    · left
      have hl : (cells.take pre.length).length = pre.length := by
        rw [List.length_take, hlen, List.length_append]; omega
      rw [← fieldCells_names hl]
      exact List.mem_map_of_mem (f := Prod.fst) (IMap.mem_of_get hf)
    · exact .inr ⟨_, hd⟩

/-- The same for the length of a padding. -/
theorem padding_sees_earlier_siblings {p : Prog} {h : Heap} {sc : Scope}
    {len : Option Ast.Expression} {flags : List String} {pre post : List Ast.Item} {m : String}
    {e : Ast.Expression} {t : AType}
    (ht : ElabTy p h sc (.container len flags (pre ++ .pad e :: post)) t) (hm : NamedIn m e) :
    m ∈ fieldsIn pre ∨ ∃ x, Denotes p sc m x := by
  cases ht with
  | container _ _ _ hlen _ hi _ =>
    rename_i cells _ _ _ _ _
    obtain ⟨e', he⟩ := elabItems_pad hi
    obtain ⟨d, hd⟩ := mentions_denotes hm he
    rw [List.nil_append, denotes_siblings] at hd
    rcases hd with ⟨f, hf, -⟩ | ⟨-, hd⟩
    · left
      have hl : (cells.take pre.length).length = pre.length := by
        rw [List.length_take, hlen, List.length_append]; omega
      rw [← fieldCells_names hl]
      exact List.mem_map_of_mem (f := Prod.fst) (IMap.mem_of_get hf)
    · exact .inr ⟨_, hd⟩

/-- A calculated value may use all siblings. -/
theorem calculated_sees_all_siblings {p : Prog} {h : Heap} {sc : Scope}
    {len : Option Ast.Expression} {flags fl : List String} {pre post : List Ast.Item}
    {n m : String} {ty : Ast.Ty} {cond : Option Ast.Expression} {xs : List Ast.Transform}
    {e : Ast.Expression} {t : AType}
    (ht : ElabTy p h sc
      (.container len flags (pre ++ .field n (.mk ty fl (some e) cond xs) :: post)) t)
    (hm : NamedIn m e) :
    m ∈ fieldsIn (pre ++ .field n (.mk ty fl (some e) cond xs) :: post) ∨
      ∃ x, Denotes p sc m x := by
  cases ht with
  | container _ _ _ hlen _ _ hi =>
    obtain ⟨c, hx⟩ := elabCalcs_at hi
    cases hx with
    | some he =>
      obtain ⟨d, hd⟩ := mentions_denotes hm he
      rw [denotes_empty, denotes_siblings] at hd
      rcases hd with ⟨f, hf, -⟩ | ⟨-, hd⟩
      · left
        rw [← fieldCells_names hlen]
        exact List.mem_map_of_mem (f := Prod.fst) (IMap.mem_of_get hf)
      · exact .inr ⟨_, hd⟩

theorem insertAll_keys {α} {n : String} : ∀ {l m : List (String × α)},
    n ∈ (insertAll m l).map Prod.fst ↔ n ∈ m.map Prod.fst ∨ n ∈ l.map Prod.fst
  | [], m => by simp [insertAll]
  | x :: l, m => by
    have := insertAll_keys (n := n) (l := l) (m := IMap.insert m x.1 x.2)
    rw [insertAll, List.foldl_cons, ← insertAll, this, IMap.mem_keys_insert]
    simp only [List.map_cons, List.mem_cons]
    constructor
    · rintro ((h | h) | h)
      · exact .inr (.inl h)
      · exact .inl h
      · exact .inr (.inr h)
    · rintro (h | h | h)
      · exact .inl (.inr h)
      · exact .inl (.inl h)
      · exact .inr h

theorem elabParams_names {p : Prog} {h : Heap} {outer : Scope} :
    ∀ {inputs : List (String × AType)} {args : List Ast.TypeArg} {as : List AArg},
      ElabParams p h outer inputs args as → as.map AArg.name = args.map Ast.TypeArg.name
  | _, _, _, .nil => rfl
  | _, _, _, .cons _ _ hr => by simp [elabParams_names hr]

/-- At the top of a type declaration a name denotes a type argument, else a constant. -/
theorem denotes_params {p : Prog} {as : List AArg} {n : String} {e : AExpr}
    (hd : Denotes p (paramFrame as :: topScope) n e) :
    (∃ a ∈ as, a.name = n) ∨ ∃ c, IMap.get p.consts n = some c ∧ e = .constRef c := by
  have hcase : ∀ {t}, InputVisible (paramFrame as :: topScope) n t → ∃ a ∈ as, a.name = n := by
    intro t ht
    cases ht with
    | here ht =>
      have hk := List.mem_map_of_mem (f := Prod.fst) (IMap.mem_of_get ht)
      unfold paramFrame at hk
      simp only at hk
      rw [insertAll_keys] at hk
      rcases hk with hk | hk
      · simp at hk
      · rw [List.map_map] at hk
        obtain ⟨a, ha, rfl⟩ := List.mem_map.1 hk
        exact ⟨a, ha, rfl⟩
    | outer _ ht =>
      unfold topScope at ht
      cases ht with
      | here h => cases h
      | outer _ h => cases h
  cases hd with
  | field hf =>
    cases hf with
    | here hf => cases hf
    | outer _ hf =>
      unfold topScope at hf
      cases hf with
      | here h => cases h
      | outer _ h => cases h
  | input _ hi => exact .inl (hcase hi)
  | const _ _ hc => exact .inr ⟨_, hc, rfl⟩

/-- The whole claim for the container of a type declaration: whatever a field uses is an earlier
sibling, an argument of the type, or a constant. -/
theorem declared_field_sees (env : Env) (n : Nat) (ast : Ast.Program) (p : Prog) (h : Heap)
    (loads : List String) (hc : convert env n ast = .ok (p, h, loads))
    {tn fn m : String} {args : List Ast.TypeArg} {len : Option Ast.Expression}
    {flags fl : List String} {pre post : List Ast.Item} {fld : Ast.Field}
    {cal cond : Option Ast.Expression} {xs : List Ast.Transform}
    (hd : .type tn args (.mk (.container len flags (pre ++ .field fn fld :: post)) fl cal cond xs)
      ∈ ast) {e : Ast.Expression} (hu : FieldUses e fld) (hm : NamedIn m e) :
    m ∈ fieldsIn pre ∨ (∃ a ∈ args, a.name = m) ∨ ∃ c, IMap.get p.consts m = some c := by
  have := names_resolved_lexically env n ast p h loads hc _ hd
  cases this with
  | type _ _ _ _ hp hmid _ =>
    cases hmid with
    | mk _ ht _ _ =>
      rcases field_sees_earlier_siblings ht hu hm with h1 | ⟨x, hx⟩
      · exact .inl h1
      · refine .inr ?_
        rcases denotes_params hx with ⟨a, ha, rfl⟩ | ⟨c, hc, -⟩
        · left
          have : a.name ∈ args.map Ast.TypeArg.name := by
            rw [← elabParams_names hp]; exact List.mem_map_of_mem ha
          obtain ⟨b, hb, hbn⟩ := List.mem_map.1 this
          exact ⟨b, hb, hbn⟩
        · exact .inr ⟨c, hc⟩

/-- Constants see only constants. -/
theorem constant_sees_constants (env : Env) (n : Nat) (ast : Ast.Program) (p : Prog) (h : Heap)
    (loads : List String) (hc : convert env n ast = .ok (p, h, loads)) {cn m : String} {ty : Ast.Ty}
    {v : Ast.Expression} (hd : .const cn ty v ∈ ast) (hm : NamedIn m v) :
    ∃ c, IMap.get p.consts m = some c := by
  have := names_resolved_lexically env n ast p h loads hc _ hd
  cases this with
  | const _ _ he =>
    obtain ⟨x, hx⟩ := mentions_denotes hm he
    obtain ⟨c, hc, -⟩ := denotes_top.1 hx
    exact ⟨c, hc⟩

/-! ### Examples -/

/-- `type a = container { x: u8, y: container { z: u8 {x}, x: u8 }, w: u8 {y_later} … }` and the
like. -/
def condOn (t : Ast.Ty) (n : String) : Ast.Field :=
  .mk t [] none (some (.binary .eq (.ref n) (.int "1" none))) []

def shadowProgram : Ast.Program :=
  [.const "k" (.scalar Scalar.u8.toE) (.int "3" none),
   .type "a" [⟨"k", .scalar Scalar.u8.toE, none⟩] (plainField (.container none []
     [.field "x" (plainField (.scalar Scalar.u8.toE)),
      .field "y" (condOn (.container none []
        [.field "z" (condOn (.scalar Scalar.u8.toE) "x"),
         .field "x" (condOn (.scalar Scalar.u8.toE) "k"),
         .field "w" (condOn (.scalar Scalar.u8.toE) "x")]) "x")]))]

example : errorOf shadowProgram = none := by decide +kernel

/-- Later siblings and the field itself are not in scope. -/
example : errorOf [.type "a" [] (plainField (.container none []
     [.field "x" (.mk .bool [] none (some (.ref "y")) []),
      .field "y" (plainField .bool)]))] = some (.asg (.unresolvedVar "y")) := by
  decide +kernel

example : errorOf [.type "a" [] (plainField (.container none []
     [.field "x" (.mk .bool [] none (some (.ref "x")) [])]))] =
      some (.asg (.unresolvedVar "x")) := by
  decide +kernel

/-- As the operand of an operator an unresolved name is still an error, but not one that names it:
the failure to convert the left operand is dropped (`convert/expression/binary.rs`). -/
theorem unresolved_operand_finding :
    errorOf [.type "a" [] (plainField (.container none []
     [.field "x" (condOn (.scalar Scalar.u8.toE) "nowhere")]))] = some (.asg .unexpectedType) := by
  decide +kernel

/-- … except in calculated values. -/
example : errorOf [.type "a" [] (plainField (.container none []
     [.field "x" (.mk (.scalar Scalar.u8.toE) [] (some (.ref "y")) none []),
      .field "y" (plainField (.scalar Scalar.u8.toE))]))] = none := by
  decide +kernel

/-- The cell a condition of the form `name == …` was resolved to. -/
def condCell (x : AField) : Option FId :=
  match x.condition with
  | some (.binary _ (.fieldRef f) _) => some f
  | _ => none

/-- In `shadowProgram`: `y` and `z` refer to the outer `x` (cell 1), the inner `x` to the argument
`k` rather than the constant, `w` to the inner `x` (cell 4). -/
example : (match convert (preludeEnv []) 0 shadowProgram with
    | .ok (_, h, _) => h.map fun x => (x.name, condCell x)
    | .error _ => []) =
    [("a", none), ("x", none), ("y", some 1), ("z", some 1), ("x", none), ("w", some 4)] := by
  decide +kernel

end Verif.Props
