import Verif.Sem.Passes
import Verif.Sem.PreludeEnv
/-!
# C45: imports bind the requested names
-/
namespace Verif.Props
open Verif Sem

/-- What a name can be imported as. -/
inductive Imported
  | type (f : FId)
  | const (c : AConst)
  | transform (t : List FfiArg)

/-- What the name `n` of a module stands for when it is imported: its type of that name, else its
constant, else its transform. -/
inductive Exports (m : Prog) (n : String) : Imported → Prop
  | type {f} : IMap.get m.types n = some f → Exports m n (.type f)
  | const {c} : IMap.get m.types n = none → IMap.get m.consts n = some c → Exports m n (.const c)
  | transform {t} : IMap.get m.types n = none → IMap.get m.consts n = none →
      IMap.get m.transforms n = some t → Exports m n (.transform t)

/-- The name `n` is bound to the thing in a module. -/
def Bound (p : Prog) (n : String) : Imported → Prop
  | .type f => IMap.get p.types n = some f
  | .const c => IMap.get p.consts n = some c
  | .transform t => IMap.get p.transforms n = some t

/-- The name an item introduces: its alias if it has one. -/
def localName (i : Ast.ImportItem) : String :=
  match i.alias with
  | some a => a
  | none => i.name

theorem localName_eq (i : Ast.ImportItem) : importedName i = localName i := by
  unfold importedName localName; cases i.alias <;> rfl

/-- Bind a thing. -/
def bindOne (p : Prog) (n : String) : Imported → Prog
  | .type f => { p with types := IMap.insert p.types n f }
  | .const c => { p with consts := IMap.insert p.consts n c }
  | .transform t => { p with transforms := IMap.insert p.transforms n t }

theorem exports_unique {m : Prog} {n : String} {x y : Imported} (hx : Exports m n x)
    (hy : Exports m n y) : x = y := by
  cases hx <;> cases hy <;> simp_all

theorem bindItems_cons {mn : String} {m : Prog} {i : Ast.ImportItem} {rest : List Ast.ImportItem}
    {p : Prog} :
    (∃ x, Exports m i.name x ∧
      bindItems mn m (i :: rest) p = bindItems mn m rest (bindOne p (localName i) x)) ∨
    ((∀ x, ¬ Exports m i.name x) ∧
      bindItems mn m (i :: rest) p = .error (.asg (.importUnresolved i.name mn))) := by
  rw [bindItems, localName_eq]
  cases h1 : IMap.get m.types i.name with
  | some f => exact .inl ⟨_, .type h1, rfl⟩
  | none =>
    cases h2 : IMap.get m.consts i.name with
    | some c => exact .inl ⟨_, .const h1 h2, rfl⟩
    | none =>
      cases h3 : IMap.get m.transforms i.name with
      | some t => exact .inl ⟨_, .transform h1 h2 h3, rfl⟩
      | none =>
        refine .inr ⟨?_, rfl⟩
        rintro x (h | ⟨_, h⟩ | ⟨_, _, h⟩) <;> simp_all

/-- C45. An import succeeds iff the module has every requested name; otherwise it is an error that
names the first missing one. -/
theorem import_succeeds_iff (mn : String) (m p : Prog) (items : List Ast.ImportItem) :
    (∃ p', bindItems mn m items p = .ok p') ↔ ∀ i ∈ items, ∃ x, Exports m i.name x := by
  induction items generalizing p with
  | nil => exact ⟨fun _ _ h => (by cases h), fun _ => ⟨p, rfl⟩⟩
  | cons i rest ih =>
    rcases bindItems_cons (mn := mn) (m := m) (i := i) (rest := rest) (p := p) with
      ⟨x, hx, he⟩ | ⟨hx, he⟩
    · rw [he, ih]
      constructor
      · intro h j hj
        rcases List.mem_cons.1 hj with rfl | hj
        · exact ⟨x, hx⟩
        · exact h j hj
      · exact fun h j hj => h j (List.mem_cons_of_mem _ hj)
    · rw [he]
      constructor
      · rintro ⟨_, h⟩; cases h
      · intro h; obtain ⟨x, h⟩ := h i List.mem_cons_self; exact absurd h (hx x)

theorem import_missing (mn : String) (m p : Prog) (pre post : List Ast.ImportItem)
    (i : Ast.ImportItem) (hpre : ∀ j ∈ pre, ∃ x, Exports m j.name x)
    (hi : ∀ x, ¬ Exports m i.name x) :
    bindItems mn m (pre ++ i :: post) p = .error (.asg (.importUnresolved i.name mn)) := by
  induction pre generalizing p with
  | nil =>
    rcases bindItems_cons (mn := mn) (m := m) (i := i) (rest := post) (p := p) with
      ⟨x, hx, _⟩ | ⟨_, he⟩
    · exact absurd hx (hi x)
    · exact he
  | cons j pre ih =>
    rcases bindItems_cons (mn := mn) (m := m) (i := j) (rest := pre ++ i :: post) (p := p) with
      ⟨x, hx, he⟩ | ⟨hx, he⟩
    · rw [List.cons_append, he]
      exact ih _ fun k hk => hpre k (List.mem_cons_of_mem _ hk)
    · obtain ⟨x, h⟩ := hpre j List.mem_cons_self; exact absurd h (hx x)

/-- Names that are not introduced keep their meaning, and functions are never touched. -/
theorem import_binds_nothing_else (mn : String) (m p p' : Prog) (items : List Ast.ImportItem)
    (h : bindItems mn m items p = .ok p') (n : String) (hn : ∀ i ∈ items, localName i ≠ n) :
    IMap.get p'.types n = IMap.get p.types n ∧ IMap.get p'.consts n = IMap.get p.consts n ∧
    IMap.get p'.transforms n = IMap.get p.transforms n ∧ p'.functions = p.functions := by
  induction items generalizing p with
  | nil => cases h; exact ⟨rfl, rfl, rfl, rfl⟩
  | cons i rest ih =>
    rcases bindItems_cons (mn := mn) (m := m) (i := i) (rest := rest) (p := p) with
      ⟨x, hx, he⟩ | ⟨hx, he⟩
    · rw [he] at h
      obtain ⟨h1, h2, h3, h4⟩ := ih _ h fun j hj => hn j (List.mem_cons_of_mem _ hj)
      rw [h1, h2, h3, h4]
      have := hn i List.mem_cons_self
      cases x <;> simp [bindOne, IMap.get_insert_ne this]
    · rw [he] at h; cases h

theorem bound_other {mn : String} {m p p' : Prog} {items : List Ast.ImportItem}
    (h : bindItems mn m items p = .ok p') {n : String} (hn : ∀ i ∈ items, localName i ≠ n)
    {x : Imported} (hb : Bound p n x) : Bound p' n x := by
  obtain ⟨h1, h2, h3, -⟩ := import_binds_nothing_else mn m p p' items h n hn
  cases x <;> simp_all [Bound]

/-- C45. After a successful import every item's local name denotes what the module exports under the
item's name (unless a later item of the same import takes the same local name). -/
theorem import_binds (mn : String) (m p p' : Prog) (pre post : List Ast.ImportItem)
    (i : Ast.ImportItem) (h : bindItems mn m (pre ++ i :: post) p = .ok p')
    (hlast : ∀ j ∈ post, localName j ≠ localName i) :
    ∃ x, Exports m i.name x ∧ Bound p' (localName i) x := by
  induction pre generalizing p with
  | nil =>
    rcases bindItems_cons (mn := mn) (m := m) (i := i) (rest := post) (p := p) with
      ⟨x, hx, he⟩ | ⟨hx, he⟩
    · rw [List.nil_append, he] at h
      refine ⟨x, hx, bound_other h hlast ?_⟩
      cases x <;> simp [Bound, bindOne, IMap.get_insert_self]
    · rw [List.nil_append, he] at h; cases h
  | cons j pre ih =>
    rcases bindItems_cons (mn := mn) (m := m) (i := j) (rest := pre ++ i :: post) (p := p) with
      ⟨x, hx, he⟩ | ⟨hx, he⟩
    · rw [List.cons_append, he] at h; exact ih _ h
    · rw [List.cons_append, he] at h; cases h

theorem bound_extends {p q : Prog} (e : Extends p q) {n : String} {x : Imported}
    (hb : Bound p n x) : Bound q n x := by
  cases x
  · exact e.types _ _ hb
  · exact e.consts _ _ hb
  · exact e.transforms _ _ hb

theorem convImport_ok {env : Env} {mods : List (String × Prog)} {items : List Ast.ImportItem}
    {src : Text} {p p' : Prog} {s s' : St}
    (h : convImport env mods items src p s = .ok (p', s')) :
    ∃ name cached, env.normalize src = .ok name ∧ IMap.get mods name = some cached ∧
      bindItems name cached items p = .ok p' ∧ s = s' := by
  unfold convImport at h
  simp only [bind_run_ok, liftR_ok, lookup_ok] at h
  obtain ⟨name, s1, ⟨h1, rfl⟩, c, s2, ⟨h2, rfl⟩, h3, rfl⟩ := h
  exact ⟨name, c, h1, h2, h3, rfl⟩

/-- All local names a list of declarations introduces by imports. -/
def importNames : Ast.Program → List String
  | [] => []
  | .import_ items _ :: rest => items.map localName ++ importNames rest
  | _ :: rest => importNames rest

theorem passImports_others {env : Env} {mods : List (String × Prog)} :
    ∀ {ast : Ast.Program} {p p' : Prog} {s s' : St},
      passImports env mods ast p s = .ok (p', s') → ∀ n, n ∉ importNames ast →
        IMap.get p'.types n = IMap.get p.types n ∧ IMap.get p'.consts n = IMap.get p.consts n ∧
        IMap.get p'.transforms n = IMap.get p.transforms n ∧ p'.functions = p.functions := by
  intro ast
  induction ast with
  | nil =>
    intro p p' s s' h n _
    rw [passImports, pure_run_ok] at h
    rw [h.1]; exact ⟨rfl, rfl, rfl, rfl⟩
  | cons d rest ih =>
    intro p p' s s' h n hn
    cases d with
    | import_ items src =>
      rw [passImports] at h
      simp only [bind_run_ok] at h
      obtain ⟨q, s1, h1, h2⟩ := h
      obtain ⟨name, c, -, -, hb, -⟩ := convImport_ok h1
      simp only [importNames, List.mem_append, not_or, List.mem_map, not_exists, not_and] at hn
      obtain ⟨a1, a2, a3, a4⟩ := ih h2 n hn.2
      obtain ⟨b1, b2, b3, b4⟩ := import_binds_nothing_else _ _ _ _ _ hb n hn.1
      exact ⟨a1.trans b1, a2.trans b2, a3.trans b3, a4.trans b4⟩
    | type _ _ _ => exact ih h n hn
    | const _ _ _ => exact ih h n hn
    | ffi _ _ => exact ih h n hn

theorem passImports_binds {env : Env} {mods : List (String × Prog)} :
    ∀ {before after : Ast.Program} {pre post : List Ast.ImportItem} {i : Ast.ImportItem}
      {src : Text} {p p' : Prog} {s s' : St},
      passImports env mods (before ++ .import_ (pre ++ i :: post) src :: after) p s = .ok (p', s') →
      (∀ j ∈ post, localName j ≠ localName i) → localName i ∉ importNames after →
      ∃ name m x, env.normalize src = .ok name ∧ IMap.get mods name = some m ∧
        Exports m i.name x ∧ Bound p' (localName i) x := by
  intro before
  induction before with
  | nil =>
    intro after pre post i src p p' s s' h h1 h2
    rw [List.nil_append, passImports] at h
    simp only [bind_run_ok] at h
    obtain ⟨q, s1, hc, hr⟩ := h
    obtain ⟨name, m, hn, hm, hb, -⟩ := convImport_ok hc
    obtain ⟨x, hx, hbx⟩ := import_binds name m p q pre post i hb h1
    refine ⟨name, m, x, hn, hm, hx, ?_⟩
    obtain ⟨a1, a2, a3, -⟩ := passImports_others hr _ h2
    cases x <;> simp_all [Bound]
  | cons d before ih =>
    intro after pre post i src p p' s s' h h1 h2
    cases d with
    | import_ items src' =>
      rw [List.cons_append, passImports] at h
      simp only [bind_run_ok] at h
      obtain ⟨q, s1, -, hr⟩ := h
      exact ih hr h1 h2
    | type _ _ _ => exact ih h h1 h2
    | const _ _ _ => exact ih h h1 h2
    | ffi _ _ => exact ih h h1 h2

/-- C45, for whole modules. In a module that converts, each imported local name denotes in the
finished module what the imported module exports under the item's name (the last import of a local
name counts). -/
theorem imported_name_denotes (env : Env) (mods : List (String × Prog))
    (before after : Ast.Program) (pre post : List Ast.ImportItem) (i : Ast.ImportItem) (src : Text)
    (p : Prog) (s s' : St)
    (h : (fromAstImported env mods (before ++ .import_ (pre ++ i :: post) src :: after)).run s
      = .ok (p, s'))
    (h1 : ∀ j ∈ post, localName j ≠ localName i) (h2 : localName i ∉ importNames after) :
    ∃ name m x, env.normalize src = .ok name ∧ IMap.get mods name = some m ∧
      Exports m i.name x ∧ Bound p (localName i) x := by
  obtain ⟨p1, s1, p2, s2, p3, s3, ids, s4, scs, s5, s6, -, hi, hc, hd, -⟩ := fromAstImported_ok h
  obtain ⟨name, m, x, hn, hm, hx, hb⟩ := passImports_binds hi h1 h2
  exact ⟨name, m, x, hn, hm, hx, bound_extends (passDeclare_extends hd).1
    (bound_extends (passConsts_extends hc).1 hb)⟩

/-- Finding: a function cannot be imported. -/
theorem function_import_finding (mn : String) (m p : Prog) (i : Ast.ImportItem)
    (h1 : IMap.get m.types i.name = none) (h2 : IMap.get m.consts i.name = none)
    (h3 : IMap.get m.transforms i.name = none) :
    bindItems mn m [i] p = .error (.asg (.importUnresolved i.name mn)) := by
  refine import_missing mn m p [] [] i (by simp) ?_
  rintro x (h | ⟨_, h⟩ | ⟨_, _, h⟩) <;> simp_all

/-- Finding: importing a name that is already bound is not an error; the older binding is lost. -/
theorem import_overwrites_finding (mn : String) (m p : Prog) (i : Ast.ImportItem) (old new : FId)
    (_hold : IMap.get p.types (localName i) = some old) (hnew : IMap.get m.types i.name = some new) :
    ∃ p', bindItems mn m [i] p = .ok p' ∧ IMap.get p'.types (localName i) = some new := by
  have hx : Exports m i.name (.type new) := .type hnew
  obtain ⟨p', hp'⟩ := (import_succeeds_iff mn m p [i]).2 (by
    intro j hj; simp only [List.mem_singleton] at hj; subst hj; exact ⟨_, hx⟩)
  obtain ⟨y, hy, hb⟩ := import_binds mn m p p' [] [] i hp' (by simp)
  cases exports_unique hx hy
  exact ⟨p', hp', hb⟩

/-- `import a as b, k from m`: a type renamed and a constant. -/
example :
    let m : Prog := ⟨[("a", 7)], [("k", .mk "k" .bool (.bool true))], [], []⟩
    ∃ p', bindItems "m" m [⟨"a", some "b"⟩, ⟨"k", none⟩] ⟨[("z", 1)], [], [], []⟩ = .ok p' ∧
      IMap.get p'.types "b" = some 7 ∧ IMap.get p'.types "a" = none ∧
      (IMap.get p'.consts "k").isSome ∧ IMap.get p'.types "z" = some 1 ∧
      bindItems "m" m [⟨"a", some "b"⟩, ⟨"q", none⟩] p' =
        .error (.asg (.importUnresolved "q" "m")) := ⟨_, rfl, rfl, rfl, rfl, rfl, rfl⟩

end Verif.Props
