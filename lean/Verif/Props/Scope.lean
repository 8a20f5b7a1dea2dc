import Verif.Sem.History
import Verif.Sem.Scoping
import Verif.Props.Generate
import Verif.Props.Closed
/-!
# C54: expressions refer to what is in scope; C40, C49 and C52 for imported types
-/
namespace Verif.Props
open Verif Sem Enc

/-- The modules the resolver finds are sources that parse. -/
def Parsed (env : Sem.Env) : Prop :=
  ∀ name ast, env.load name = .ok (some (some ast)) → ∃ src : Text, parse src = .ok ast

/-- No field of an imported module has the name of a padding. -/
def PadFreeModules (env : Sem.Env) : Prop :=
  ∀ name ast, env.load name = .ok (some (some ast)) → ∀ d ∈ ast, PadFreeDecl d

/-- The resolver protospec comes with, over modules given as source text. -/
def textEnv (modules : List (String × Text)) : Sem.Env :=
  { preludeEnv [] with
    load := fun name => .ok ((IMap.get modules name).map fun src => (parse src).toOption) }

theorem textEnv_parsed (modules : List (String × Text)) : Parsed (textEnv modules) := by
  intro name ast h
  simp only [textEnv, Except.ok.injEq, Option.map_eq_some_iff] at h
  obtain ⟨src, -, h⟩ := h
  refine ⟨src, ?_⟩
  cases hp : parse src with
  | error e => rw [hp] at h; cases h
  | ok a => rw [hp] at h; cases h; rfl

theorem textEnv_closed (modules : List (String × Text)) : EnvClosed (textEnv modules) :=
  let h := preludeEnv_closed []
  ⟨h.same, h.ftFrom, h.ftTo, h.ftToPartial, h.normalize, fun n => by simp [textEnv], h.ffiType, h.ffiTransform,
    h.ffiFunction, h.prelude⟩

theorem spelt {src : Text} {ast : Ast.Program} (h : parse src = .ok ast) : ∀ d ∈ ast, SpeltDecl d := by
  obtain ⟨toks, -, ht⟩ := parse_source.1 h
  exact writable_iff_parsed.1 ⟨_, parse_iff_grammar.2 ht⟩

/-- What is known of a declared type: its account, that its names are distinct, that it is well placed. -/
theorem made_declared {env : Sem.Env} {h : Heap} {ast : Ast.Program} {p : Sem.Prog} (hm : Made env h ast p)
    {name : String} {args : List Ast.TypeArg} {f : Ast.Field} (hd : .type name args f ∈ ast) {id : FId}
    (hg : IMap.get p.types name = some id) : ∃ x : AField, h[id]? = some x ∧ x.name = name ∧
      ElabParams p h topScope [] args x.arguments ∧ ElabMid p h (paramFrame x.arguments :: topScope) f x ∧
      ElabOpt p h (paramFrame x.arguments :: topScope) (calcOf f) x.calculated ∧
      DistinctDecl (.type name args f) ∧ PlacedDecl (.type name args f) := by
  have he := hm.elab _ hd
  cases hm with
  | mk h1 h2 h3 h4 =>
    have hdi := (duplicates_rejected _ _ _ _ _ _ h3).inside _ hd
    have hpl := converted_placed (all_converted h3 _ hd)
    cases he with
    | type g1 g2 g3 g4 g5 g6 g7 =>
      rw [hg] at g1
      cases g1
      exact ⟨_, g2, g3, g5, g6, g7, hdi, hpl⟩

/-! ## All types, also those of other modules -/

/-- C40 and C49 for every type of an accepted program, also those that were imported, directly or by way of
other modules: it is foreign, or the text of a module — that of the program or one the resolver returned —
declares it, and it is what that declaration says, with the names of that module. -/
theorem all_types_resolved (env : Sem.Env) (n : Nat) (ast : Ast.Program) (p : Sem.Prog) (h : Heap) (loads : List String)
    (hc : convert env n ast = .ok (p, h, loads)) (name : String) (id : FId) (ht : (name, id) ∈ p.types) :
    (∃ (x : AField) (t : String), h[id]? = some x ∧ x.type = .foreign t) ∨
    ∃ (text : Ast.Program) (q : Sem.Prog) (m : String) (args : List Ast.TypeArg) (f : Ast.Field) (x : AField),
      (text = ast ∨ ∃ module, env.load module = .ok (some (some text))) ∧ .type m args f ∈ text ∧
      (∀ d ∈ text, ElabDecl q h d) ∧ IMap.get q.types m = some id ∧ h[id]? = some x ∧ x.name = m ∧
      ElabParams q h topScope [] args x.arguments ∧ ElabMid q h (paramFrame x.arguments :: topScope) f x ∧
      ElabOpt q h (paramFrame x.arguments :: topScope) (calcOf f) x.calculated := by
  rcases (convert_made hc).origin name id ht with hf | ⟨text, q, m, args, f, ho, hq, hd, hg⟩
  · exact .inl hf
  · obtain ⟨x, h1, h2, h3, h4, h5, -, -⟩ := made_declared hq hd hg
    exact .inr ⟨text, q, m, args, f, x, ho, hd, hq.elab, hg, h1, h2, h3, h4, h5⟩

/-- The declarations generated for a list of types come from it. -/
theorem lowerTypes_mem {oc : Bool} {h : Heap} {m : Nat} : ∀ {ts : List (String × FId)} {sch : Schema},
    lowerTypes oc h m ts = .ok sch → ∀ d ∈ sch, ∃ (id : FId) (x : AField), (d.name, id) ∈ ts ∧ h[id]? = some x ∧
      (∀ t, x.type ≠ .foreign t) ∧ lowerDecl oc h m id = .ok d
  | [], sch, hl, d, hd => by cases hl; cases hd
  | (name, f) :: rest, sch, hl, d, hd => by
    rw [lowerTypes] at hl
    simp only [gbind_ok, ofR_ok, deref_ok] at hl
    obtain ⟨x, hx, hl⟩ := hl
    split at hl
    · obtain ⟨id, y, h1, h2⟩ := lowerTypes_mem hl d hd
      exact ⟨id, y, List.mem_cons_of_mem _ h1, h2⟩
    · rename_i hne
      split at hl
      · cases hl
      · rename_i hn
        simp only [gbind_ok] at hl
        obtain ⟨d', hd', r, hr, hl⟩ := hl
        cases hl
        rcases List.mem_cons.1 hd with rfl | hd
        · refine ⟨f, x, ?_, hx, fun t ht => hne t ht, hd'⟩
          have : d.name = x.name := by
            unfold lowerDecl at hd'
            rw [deref_some hx] at hd'
            simp only [gbind_ok, ofR_ok, Except.ok.injEq, exists_eq_left'] at hd'
            obtain ⟨ps, -, xs, -, b, -, hd'⟩ := hd'
            split at hd' <;> cases hd'
            rfl
          rw [this, Decidable.of_not_not hn]
          exact List.mem_cons_self
        · obtain ⟨id, y, h1, h2⟩ := lowerTypes_mem hr d hd
          exact ⟨id, y, List.mem_cons_of_mem _ h1, h2⟩

/-- C54. Whatever program is accepted, in all the code that is generated for it (for its own types and for
imported ones) the conditions, transforms, lengths and type arguments refer only to fields declared before in
the same container or in one that encloses it; calculated values only to those and to fields of the same
container. No field of a container is referred to from outside of it. (No field may have the name of a padding:
see `pad_name_finding`.) -/
theorem references_in_scope_partial (env : Sem.Env) (he : EnvClosed env) (hm : PadFreeModules env) (n : Nat)
    (ast : Ast.Program) (hp : ∀ d ∈ ast, PadFreeDecl d) (p : Sem.Prog) (h : Heap) (loads : List String)
    (hc : convert env n ast = .ok (p, h, loads)) (oc : Bool) (m : Nat) (sch : Schema)
    (hl : lowerTypes oc h m p.types = .ok sch) : ∀ d ∈ sch, LexicalDecl d := by
  intro d hd
  obtain ⟨hh, -⟩ := (convert_tight he n ast).2 _ hc
  obtain ⟨id, x, h1, h2, h3, h4⟩ := lowerTypes_mem hl d hd
  rcases (convert_made hc).origin _ id h1 with ⟨y, t, hy, ht⟩ | ⟨text, q, k, args, f, ho, hq, hd, hg⟩
  · rw [h2] at hy
    cases hy
    exact absurd ht (h3 t)
  · obtain ⟨y, g1, g2, g3, g4, g5, g6, g7⟩ := made_declared hq hd hg
    refine lowerDecl_lexical hh g1 g4 g6.2 ?_ h4
    rcases ho with rfl | ⟨md, ho⟩
    · exact (hp _ hd).2
    · exact (hm _ _ ho _ hd).2

/-- C52 for every type of an accepted program, also the imported ones: none of the shapes the generators take for
impossible comes up, no field is missing, and with enough room for the nesting there is enough. -/
theorem generator_shapes_all_partial (env : Sem.Env) (he : EnvClosed env) (hm : Parsed env) (n : Nat) (src : Text)
    (ast : Ast.Program) (p : Sem.Prog) (h : Heap) (loads : List String) (hparse : parse src = .ok ast)
    (hc : convert env n ast = .ok (p, h, loads)) :
    ∃ room, ∀ oc m, lowerTypes oc h m p.types ≠ .error .shape ∧ lowerTypes oc h m p.types ≠ .error .dangling ∧
      (room ≤ m → lowerTypes oc h m p.types ≠ .error .fuel) := by
  obtain ⟨hh, hw⟩ := (convert_tight he n ast).2 _ hc
  have each : ∀ x ∈ p.types, ∃ room, (∃ (y : AField) (t : String), h[x.2]? = some y ∧ y.type = .foreign t) ∨
      ∀ oc m, Sound (room ≤ m) (lowerDecl oc h m x.2) := by
    rintro ⟨k, id⟩ hx
    rcases (convert_made hc).origin _ id hx with hf | ⟨text, q, k, args, f, ho, hq, hd, hg⟩
    · exact ⟨0, .inl hf⟩
    · obtain ⟨y, g1, g2, g3, g4, g5, g6, g7⟩ := made_declared hq hd hg
      have hs : SpeltDecl (.type k args f) := by
        rcases ho with rfl | ⟨md, ho⟩
        · exact spelt hparse _ hd
        · obtain ⟨src', hp'⟩ := hm _ _ ho
          exact spelt hp' _ hd
      exact ⟨sizeOf f, .inr fun oc m => lowerDecl_sound g1 g4 g7.2 hs.2⟩
  have all : ∀ ts : List (String × FId), (∀ x ∈ ts, x ∈ p.types) → ∃ room, ∀ oc m,
      Sound (room ≤ m) (lowerTypes oc h m ts) := by
    intro ts
    induction ts with
    | nil => exact fun _ => ⟨0, fun oc m => .ok⟩
    | cons x ts ih =>
      intro hs
      obtain ⟨k, id⟩ := x
      obtain ⟨r1, e1⟩ := each _ (hs _ List.mem_cons_self)
      obtain ⟨r2, e2⟩ := ih fun x hx => hs x (List.mem_cons_of_mem _ hx)
      refine ⟨r1 + r2, fun oc m => ?_⟩
      have l1 : ∀ {α} {x : G α}, Sound (r1 ≤ m) x → Sound (r1 + r2 ≤ m) x := fun h => ⟨h.1, fun hm => h.2 (by omega)⟩
      have l2 : ∀ {α} {x : G α}, Sound (r2 ≤ m) x → Sound (r1 + r2 ≤ m) x := fun h => ⟨h.1, fun hm => h.2 (by omega)⟩
      rw [lowerTypes]
      refine .bind (.ofR _) fun y hy => ?_
      rw [ofR_ok, deref_ok] at hy
      split
      · exact l2 (e2 oc m)
      · rename_i hne
        split
        · exact .outside
        · rcases e1 with ⟨z, t, hz, ht⟩ | e1
          · simp only at hz
            rw [hy] at hz
            cases hz
            exact absurd ht (hne t)
          · exact .bind (l1 (e1 oc m)) fun _ _ => .bind (l2 (e2 oc m)) fun _ _ => .ok
  obtain ⟨room, hr⟩ := all p.types fun _ h => h
  refine ⟨room, fun oc m => ⟨(hr oc m).1, ?_, (hr oc m).2⟩⟩
  exact (lowerTypes_firm hh oc m p.types hw.types).1

end Verif.Props
