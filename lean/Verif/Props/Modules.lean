import Verif.Sem.Passes
import Verif.Sem.PreludeEnv
/-!
# C44: each module is loaded once, and loading terminates
-/
namespace Verif.Props
open Verif Sem

/-- The declarations import the module: one of them is an import whose source normalizes to it. -/
def ImportsM (env : Env) (ast : Ast.Program) (m : String) : Prop :=
  ∃ items src, .import_ items src ∈ ast ∧ env.normalize src = .ok m

/-- The resolver finds the module and it parses. -/
def ModuleAst (env : Env) (m : String) (ast : Ast.Program) : Prop :=
  env.load m = .ok (some (some ast))

/-- One module imports another one. -/
def StepM (env : Env) (m m' : String) : Prop := ∃ ast, ModuleAst env m ast ∧ ImportsM env ast m'

/-- The module is imported by the declarations or by a module so reached. -/
inductive ReachM (env : Env) (ast : Ast.Program) : String → Prop
  | direct {m} : ImportsM env ast m → ReachM env ast m
  | step {m m'} : ReachM env ast m → StepM env m m' → ReachM env ast m'

/-- The modules are on, or lead into, a cycle: each of them imports one of them. -/
def Cyclic (env : Env) (S : String → Prop) : Prop := ∀ m, S m → ∀ ast, ModuleAst env m ast →
  ∃ m', S m' ∧ ImportsM env ast m'

/-- The names of the modules that are cached. -/
def Cached (c : Cache) (m : String) : Prop := m ∈ c.mods.map Prod.fst

theorem cached_iff {c : Cache} {m : String} : (IMap.get c.mods m).isSome = true ↔ Cached c m :=
  IMap.isSome_iff

theorem loadDecls_cons_ok {env : Env} {lm : String → Cache → M Cache} {d : Ast.Decl}
    {rest : Ast.Program} {c c' : Cache} {s s' : St}
    (h : loadDecls env lm (d :: rest) c s = .ok (c', s')) :
    ((∀ items src, d ≠ .import_ items src) ∧ loadDecls env lm rest c s = .ok (c', s')) ∨
    (∃ items src name, d = .import_ items src ∧ env.normalize src = .ok name ∧
      ((Cached c name ∧ loadDecls env lm rest c s = .ok (c', s')) ∨
       (¬ Cached c name ∧ ∃ c1 s1, lm name c s = .ok (c1, s1) ∧
          loadDecls env lm rest c1 s1 = .ok (c', s')))) := by
  cases d with
  | import_ items src =>
    right
    rw [loadDecls] at h
    simp only [bind_run_ok, liftR_ok] at h
    obtain ⟨name, s1, ⟨hn, rfl⟩, h⟩ := h
    refine ⟨items, src, name, rfl, hn, ?_⟩
    split at h
    · rename_i hc; exact .inl ⟨cached_iff.1 hc, h⟩
    · rename_i hc
      simp only [bind_run_ok] at h
      obtain ⟨c1, s2, h1, h2⟩ := h
      exact .inr ⟨fun hx => hc (cached_iff.2 hx), c1, s2, h1, h2⟩
  | type _ _ _ => exact .inl ⟨by simp, h⟩
  | const _ _ _ => exact .inl ⟨by simp, h⟩
  | ffi _ _ => exact .inl ⟨by simp, h⟩

theorem loadModule_ok {env : Env} {imports : Ast.Program → Cache → M Cache} {name : String}
    {c c' : Cache} {s s' : St} (h : loadModule env imports name c s = .ok (c', s')) :
    ∃ ast c1 s1 asg, ModuleAst env name ast ∧
      imports ast { c with loads := c.loads ++ [name] } s = .ok (c1, s1) ∧
      fromAstImported env c1.mods ast s1 = .ok (asg, s') ∧
      c' = { c1 with mods := IMap.insert c1.mods name asg } := by
  unfold loadModule at h
  simp only [bind_run_ok, liftR_ok, found_ok, pure_run_ok] at h
  obtain ⟨o, s1, ⟨h1, rfl⟩, ast, s2, ⟨h2, rfl⟩, c1, s3, h3, asg, s4, h4, rfl, rfl⟩ := h
  cases h2
  exact ⟨ast, c1, s3, asg, h1, h3, h4, rfl⟩

theorem importsM_cons {env : Env} {items : List Ast.ImportItem} {src : Text} {rest : Ast.Program}
    {name m : String} (hn : env.normalize src = .ok name) :
    ImportsM env (.import_ items src :: rest) m ↔ m = name ∨ ImportsM env rest m := by
  constructor
  · rintro ⟨it, sr, hm, he⟩
    rcases List.mem_cons.1 hm with hx | hx
    · cases hx; rw [hn] at he; cases he; exact .inl rfl
    · exact .inr ⟨it, sr, hx, he⟩
  · rintro (rfl | ⟨it, sr, hm, he⟩)
    · exact ⟨items, src, List.mem_cons_self, hn⟩
    · exact ⟨it, sr, List.mem_cons_of_mem _ hm, he⟩

theorem importsM_cons_other {env : Env} {d : Ast.Decl} {rest : Ast.Program} {m : String}
    (hd : ∀ items src, d ≠ .import_ items src) :
    ImportsM env (d :: rest) m ↔ ImportsM env rest m := by
  constructor
  · rintro ⟨it, sr, hm, he⟩
    rcases List.mem_cons.1 hm with hx | hx
    · exact absurd hx.symm (hd _ _)
    · exact ⟨it, sr, hx, he⟩
  · rintro ⟨it, sr, hm, he⟩; exact ⟨it, sr, List.mem_cons_of_mem _ hm, he⟩

/-- A completed run touches no module that leads into a cycle. -/
theorem avoids_cycles {env : Env} {S : String → Prop} (hS : Cyclic env S) :
    ∀ (n : Nat) (ast : Ast.Program) (c c' : Cache) (s s' : St),
      loadImports env n ast c s = .ok (c', s') → (∀ m, Cached c m → ¬ S m) →
      (∀ m, Cached c' m → ¬ S m) ∧ (∀ m, ImportsM env ast m → ¬ S m) := by
  intro n
  induction n with
  | zero =>
    intro ast
    induction ast with
    | nil =>
      intro c c' s s' h hc
      rw [loadImports, loadDecls, pure_run_ok] at h
      exact ⟨h.1 ▸ hc, fun m hm => by obtain ⟨_, _, hm, _⟩ := hm; cases hm⟩
    | cons d rest ih =>
      intro c c' s s' h hc
      rcases loadDecls_cons_ok h with ⟨hd, h⟩ | ⟨items, src, name, rfl, hn, h⟩
      · obtain ⟨h1, h2⟩ := ih c c' s s' h hc
        exact ⟨h1, fun m hm => h2 m ((importsM_cons_other hd).1 hm)⟩
      · rcases h with ⟨hca, h⟩ | ⟨-, c1, s1, h1, -⟩
        · obtain ⟨h1, h2⟩ := ih c c' s s' h hc
          refine ⟨h1, fun m hm => ?_⟩
          rcases (importsM_cons hn).1 hm with rfl | hm
          · exact hc _ hca
          · exact h2 m hm
        · cases h1
  | succ n ihn =>
    intro ast
    induction ast with
    | nil =>
      intro c c' s s' h hc
      rw [loadImports, loadDecls, pure_run_ok] at h
      exact ⟨h.1 ▸ hc, fun m hm => by obtain ⟨_, _, hm, _⟩ := hm; cases hm⟩
    | cons d rest ih =>
      intro c c' s s' h hc
      rcases loadDecls_cons_ok h with ⟨hd, h⟩ | ⟨items, src, name, rfl, hn, h⟩
      · obtain ⟨h1, h2⟩ := ih c c' s s' h hc
        exact ⟨h1, fun m hm => h2 m ((importsM_cons_other hd).1 hm)⟩
      · rcases h with ⟨hca, h⟩ | ⟨-, c1, s1, h1, h2⟩
        · obtain ⟨h1, h2⟩ := ih c c' s s' h hc
          refine ⟨h1, fun m hm => ?_⟩
          rcases (importsM_cons hn).1 hm with rfl | hm
          · exact hc _ hca
          · exact h2 m hm
        · obtain ⟨ast1, c2, s2, asg, ha, hi, -, rfl⟩ := loadModule_ok h1
          obtain ⟨i1, i2⟩ := ihn _ _ _ _ _ hi hc
          have hname : ¬ S name := by
            intro hs
            obtain ⟨m', hm', hi'⟩ := hS _ hs _ ha
            exact i2 _ hi' hm'
          have hc1 : ∀ m, Cached { c2 with mods := IMap.insert c2.mods name asg } m → ¬ S m := by
            intro m hm
            rcases IMap.mem_keys_insert.1 hm with rfl | hm
            · exact hname
            · exact i1 _ hm
          obtain ⟨h1, h2⟩ := ih _ c' _ s' h2 hc1
          refine ⟨h1, fun m hm => ?_⟩
          rcases (importsM_cons hn).1 hm with rfl | hm
          · exact hname
          · exact h2 m hm

/-- One or more import steps. -/
inductive PathM (env : Env) : String → String → Prop
  | one {m m'} : StepM env m m' → PathM env m m'
  | more {m m' m''} : StepM env m m' → PathM env m' m'' → PathM env m m''

theorem PathM.snoc {env : Env} {a b c : String} (h : PathM env a b) (k : StepM env b c) :
    PathM env a c := by
  induction h with
  | one h => exact .more h (.one k)
  | more h _ ih => exact .more h (ih k)

/-- The modules from which `m` is reached form a cyclic set if `m` reaches itself. -/
theorem cyclic_of_loop {env : Env} {m : String} (h : PathM env m m) :
    Cyclic env (fun x => PathM env x m) := by
  intro x hx ast hast
  have key : ∀ y, StepM env x y → ImportsM env ast y := by
    rintro y ⟨ast', ha, hi⟩
    unfold ModuleAst at ha hast
    rw [hast] at ha; cases ha; exact hi
  cases hx with
  | one hs => exact ⟨m, h, key _ hs⟩
  | more hs hp => exact ⟨_, hp, key _ hs⟩

/-- What one completed run of the imports of `ast` does to the cache, when nothing it can reach is
on a cycle. -/
structure RunM (env : Env) (ast : Ast.Program) (c c' : Cache) (new : List String) : Prop where
  loads : c'.loads = c.loads ++ new
  once : new.Nodup
  fresh : ∀ m ∈ new, ¬ Cached c m
  reached : ∀ m ∈ new, ReachM env ast m
  cached : ∀ m, Cached c' m ↔ Cached c m ∨ m ∈ new
  all : ∀ m, ImportsM env ast m → Cached c' m
  closed : ∀ m ∈ new, ∀ m', StepM env m m' → Cached c' m'

theorem runM_nil {env : Env} {ast : Ast.Program} {c : Cache}
    (h : ∀ m, ImportsM env ast m → Cached c m) : RunM env ast c c [] :=
  ⟨by simp, by simp, by simp, by simp, by simp, h, by simp⟩

theorem reachM_mono {env : Env} {a b : Ast.Program} {m : String}
    (hab : ∀ m, ImportsM env a m → ImportsM env b m) (h : ReachM env a m) : ReachM env b m := by
  induction h with
  | direct h => exact .direct (hab _ h)
  | step _ k ih => exact .step ih k

theorem reachM_inside {env : Env} {a b : Ast.Program} {m0 m : String} (ha : ModuleAst env m0 a)
    (hr : ReachM env b m0) (h : ReachM env a m) : ReachM env b m := by
  induction h with
  | direct h => exact .step hr ⟨a, ha, h⟩
  | step _ k ih => exact .step ih k

theorem reachM_path {env : Env} {a : Ast.Program} {m0 m : String} (ha : ModuleAst env m0 a)
    (h : ReachM env a m) : PathM env m0 m := by
  induction h with
  | direct h => exact .one ⟨a, ha, h⟩
  | step _ k ih => exact .snoc ih k

theorem runM_of_ok {env : Env} : ∀ (n : Nat) (ast : Ast.Program) (c c' : Cache) (s s' : St),
    loadImports env n ast c s = .ok (c', s') →
    (∀ m, ReachM env ast m → ¬ PathM env m m) → ∃ new, RunM env ast c c' new := by
  intro n
  induction n with
  | zero =>
    intro ast
    induction ast with
    | nil =>
      intro c c' s s' h _
      rw [loadImports, loadDecls, pure_run_ok] at h
      rw [h.1]
      exact ⟨[], runM_nil fun m hm => by obtain ⟨_, _, hm, _⟩ := hm; cases hm⟩
    | cons d rest ih =>
      intro c c' s s' h hac
      rcases loadDecls_cons_ok h with ⟨hd, h⟩ | ⟨items, src, name, rfl, hn, h⟩
      · obtain ⟨new, r⟩ := ih c c' s s' h fun m hm =>
          hac m (reachM_mono (fun m h => (importsM_cons_other hd).2 h) hm)
        exact ⟨new, r.loads, r.once, r.fresh,
          fun m hm => reachM_mono (fun m h => (importsM_cons_other hd).2 h) (r.reached m hm),
          r.cached, fun m hm => r.all m ((importsM_cons_other hd).1 hm), r.closed⟩
      · rcases h with ⟨hca, h⟩ | ⟨-, c1, s1, h1, -⟩
        · have hmono : ∀ m, ImportsM env rest m → ImportsM env (.import_ items src :: rest) m :=
            fun m h => (importsM_cons hn).2 (.inr h)
          obtain ⟨new, r⟩ := ih c c' s s' h fun m hm => hac m (reachM_mono hmono hm)
          refine ⟨new, r.loads, r.once, r.fresh, fun m hm => reachM_mono hmono (r.reached m hm),
            r.cached, fun m hm => ?_, r.closed⟩
          rcases (importsM_cons hn).1 hm with rfl | hm
          · exact (r.cached _).2 (.inl hca)
          · exact r.all m hm
        · cases h1
  | succ n ihn =>
    intro ast
    induction ast with
    | nil =>
      intro c c' s s' h _
      rw [loadImports, loadDecls, pure_run_ok] at h
      rw [h.1]
      exact ⟨[], runM_nil fun m hm => by obtain ⟨_, _, hm, _⟩ := hm; cases hm⟩
    | cons d rest ih =>
      intro c c' s s' h hac
      rcases loadDecls_cons_ok h with ⟨hd, h⟩ | ⟨items, src, name, rfl, hn, h⟩
      · obtain ⟨new, r⟩ := ih c c' s s' h fun m hm =>
          hac m (reachM_mono (fun m h => (importsM_cons_other hd).2 h) hm)
        exact ⟨new, r.loads, r.once, r.fresh,
          fun m hm => reachM_mono (fun m h => (importsM_cons_other hd).2 h) (r.reached m hm),
          r.cached, fun m hm => r.all m ((importsM_cons_other hd).1 hm), r.closed⟩
      · have hmono : ∀ m, ImportsM env rest m → ImportsM env (.import_ items src :: rest) m :=
          fun m h => (importsM_cons hn).2 (.inr h)
        rcases h with ⟨hca, h⟩ | ⟨hca, c1, s1, h1, h2⟩
        · obtain ⟨new, r⟩ := ih c c' s s' h fun m hm => hac m (reachM_mono hmono hm)
          refine ⟨new, r.loads, r.once, r.fresh, fun m hm => reachM_mono hmono (r.reached m hm),
            r.cached, fun m hm => ?_, r.closed⟩
          rcases (importsM_cons hn).1 hm with rfl | hm
          · exact (r.cached _).2 (.inl hca)
          · exact r.all m hm
        · obtain ⟨ast1, c2, s2, asg, ha, hi, -, rfl⟩ := loadModule_ok h1
          have hreach : ReachM env (.import_ items src :: rest) name :=
            .direct ((importsM_cons hn).2 (.inl rfl))
          obtain ⟨n1, r1⟩ := ihn ast1 _ _ _ _ hi fun m hm => hac m (reachM_inside ha hreach hm)
          obtain ⟨n2, r2⟩ := ih _ _ _ _ h2 fun m hm => hac m (reachM_mono hmono hm)
          have hn1 : name ∉ n1 := fun hmem =>
            hac name hreach (reachM_path ha (r1.reached _ hmem))
          have hc1 : ∀ m, Cached { c2 with mods := IMap.insert c2.mods name asg } m ↔
              m = name ∨ Cached c m ∨ m ∈ n1 := by
            intro m
            unfold Cached
            rw [IMap.mem_keys_insert]
            have := r1.cached m
            unfold Cached at this
            rw [this]
          refine ⟨name :: (n1 ++ n2), ?_, ?_, ?_, ?_, ?_, ?_, ?_⟩
          · rw [r2.loads]
            show c2.loads ++ n2 = _
            rw [r1.loads]; simp
          · rw [List.nodup_cons, List.nodup_append, List.mem_append]
            refine ⟨?_, r1.once, r2.once, ?_⟩
            · rintro (h | h)
              · exact hn1 h
              · exact r2.fresh _ h ((hc1 _).2 (.inl rfl))
            · intro a ha b hb hab
              subst hab
              exact r2.fresh _ hb ((hc1 _).2 (.inr (.inr ha)))
          · intro m hm
            rcases List.mem_cons.1 hm with rfl | hm
            · exact hca
            · rcases List.mem_append.1 hm with hm | hm
              · exact r1.fresh m hm
              · exact fun hx => r2.fresh m hm ((hc1 _).2 (.inr (.inl hx)))
          · intro m hm
            rcases List.mem_cons.1 hm with rfl | hm
            · exact hreach
            · rcases List.mem_append.1 hm with hm | hm
              · exact reachM_inside ha hreach (r1.reached m hm)
              · exact reachM_mono hmono (r2.reached m hm)
          · intro m
            rw [r2.cached, hc1]
            simp only [List.mem_cons, List.mem_append]
            constructor
            · rintro ((h | h | h) | h) <;> simp [h]
            · rintro (h | h | h | h) <;> simp [h]
          · intro m hm
            rcases (importsM_cons hn).1 hm with rfl | hm
            · exact (r2.cached _).2 (.inl ((hc1 _).2 (.inl rfl)))
            · exact r2.all m hm
          · intro m hm m' hs
            have fwd : ∀ x, Cached c2 x → Cached c' x := by
              intro x hx
              refine (r2.cached _).2 (.inl ((hc1 _).2 (.inr ?_)))
              exact (r1.cached x).1 hx
            rcases List.mem_cons.1 hm with rfl | hm
            · obtain ⟨ast', ha', hi'⟩ := hs
              unfold ModuleAst at ha ha'
              rw [ha] at ha'; cases ha'
              exact fwd _ (r1.all _ hi')
            · rcases List.mem_append.1 hm with hm | hm
              · exact fwd _ (r1.closed m hm m' hs)
              · exact r2.closed m hm m' hs

/-- C44. When resolving the imports of a program completes, however deep, the modules loaded are
exactly those reachable through imports, each of them once. -/
theorem modules_loaded_once (env : Env) (n : Nat) (ast : Ast.Program) (c : Cache) (s s' : St)
    (h : (loadImports env n ast ⟨[], []⟩).run s = .ok (c, s')) :
    c.loads.Nodup ∧ (∀ m, m ∈ c.loads ↔ ReachM env ast m) ∧
      (∀ m, (IMap.get c.mods m).isSome = true ↔ ReachM env ast m) := by
  change loadImports env n ast ⟨[], []⟩ s = .ok (c, s') at h
  have hac : ∀ m, ReachM env ast m → ¬ PathM env m m := by
    intro m hm hp
    have hav := avoids_cycles (cyclic_of_loop hp) n ast _ _ _ _ h (by intro x hx; cases hx)
    -- nothing reachable from outside the set leads into it: go back along the path
    have back : ∀ x, ReachM env ast x → PathM env x m → False := by
      intro x hx
      induction hx with
      | direct hi => exact fun hp => hav.2 _ hi hp
      | step _ k ih => exact fun hp => ih (.more k hp)
    exact back m hm hp
  obtain ⟨new, r⟩ := runM_of_ok n ast _ _ _ _ h hac
  have hl : c.loads = new := by simpa using r.loads
  have hcn : ∀ m, Cached c m ↔ m ∈ new := by
    intro m
    rw [r.cached]
    exact ⟨fun h => h.resolve_left (by intro h; cases h), .inr⟩
  have hmem : ∀ m, m ∈ new ↔ ReachM env ast m := by
    intro m
    refine ⟨r.reached m, fun hm => ?_⟩
    rw [← hcn]
    induction hm with
    | direct h => exact r.all _ h
    | step _ k ih => exact r.closed _ ((hcn _).1 ih) _ k
  refine ⟨hl ▸ r.once, fun m => by rw [hl]; exact hmem m, fun m => ?_⟩
  rw [cached_iff, hcn]; exact hmem m

/-- C44, for a whole program: the calls made to the resolver during a conversion that succeeds. -/
theorem program_modules_loaded_once (env : Env) (n : Nat) (ast : Ast.Program) (p : Prog)
    (h : Heap) (loads : List String) (hc : convert env n ast = .ok (p, h, loads)) :
    loads.Nodup ∧ ∀ m, m ∈ loads ↔ ReachM env ast m := by
  unfold convert at hc
  rw [rmap_ok] at hc
  obtain ⟨⟨⟨p', l⟩, s'⟩, hr, he⟩ := hc
  cases he
  change fromAst env n ast _ = _ at hr
  unfold fromAst at hr
  simp only [bind_run_ok, pure_run_ok] at hr
  obtain ⟨c, s1, h1, p2, s2, -, he, -⟩ := hr
  cases he
  obtain ⟨ha, hb, -⟩ := modules_loaded_once env n ast c _ _ h1
  exact ⟨ha, hb⟩

/-- Finding: if an import cycle can be reached, resolving imports never succeeds, however much room
the stack has. -/
theorem cyclic_imports_finding (env : Env) (ast : Ast.Program) (m : String)
    (hr : ReachM env ast m) (hm : PathM env m m) (n : Nat) (s : St) (c : Cache × St) :
    (loadImports env n ast ⟨[], []⟩).run s ≠ .ok c := by
  intro h
  obtain ⟨c, s'⟩ := c
  have hav := avoids_cycles (cyclic_of_loop hm) n ast _ _ _ _ h (by intro x hx; cases hx)
  have back : ∀ x, ReachM env ast x → PathM env x m → False := by
    intro x hx
    induction hx with
    | direct hi => exact fun hp => hav.2 _ hi hp
    | step _ k ih => exact fun hp => ih (.more k hp)
  exact back m hr hm

/-- C44, termination: if the modules can be ranked so that each imports only modules of lower rank
(the imports have no cycle), the depth of recursion is bounded by the rank: more room changes
nothing, so no run is cut short. -/
theorem acyclic_imports_terminate_partial (env : Env) (rank : String → Nat)
    (hrank : ∀ m m', StepM env m m' → rank m' < rank m) :
    ∀ (n : Nat) (ast : Ast.Program), (∀ m, ImportsM env ast m → rank m < n) →
      ∀ k, n ≤ k → loadImports env k ast = loadImports env n ast := by
  intro n
  induction n with
  | zero =>
    intro ast h k _
    have key : ∀ lm lm', ∀ ast : Ast.Program, (∀ m, ¬ ImportsM env ast m) →
        loadDecls env lm ast = loadDecls env lm' ast := by
      intro lm lm' ast
      induction ast with
      | nil => intro _; rfl
      | cons d rest ih =>
        intro hn
        have hrest : ∀ m, ¬ ImportsM env rest m := by
          rintro m ⟨it, sr, hm, he⟩
          exact hn m ⟨it, sr, List.mem_cons_of_mem _ hm, he⟩
        cases d with
        | import_ items src =>
          funext c s
          simp only [loadDecls]
          cases hs : env.normalize src with
          | error e => simp only [liftR, bind, StateT.bind, Except.bind, Except.map]
          | ok m => exact absurd ⟨items, src, List.mem_cons_self, hs⟩ (hn m)
        | type _ _ _ => funext c s; simp only [loadDecls, ih hrest]
        | const _ _ _ => funext c s; simp only [loadDecls, ih hrest]
        | ffi _ _ => funext c s; simp only [loadDecls, ih hrest]
    have := key (fun _ _ _ => .error .diverge) (loadModule env (loadImports env (k - 1))) ast
      (fun m hm => by have := h m hm; omega)
    cases k with
    | zero => rfl
    | succ k => simp only [loadImports]; exact this.symm
  | succ n ih =>
    intro ast h k hk
    obtain ⟨k, rfl⟩ : ∃ j, k = j + 1 := ⟨k - 1, by omega⟩
    simp only [loadImports]
    have hmod : ∀ m, rank m < n + 1 →
        loadModule env (loadImports env k) m = loadModule env (loadImports env n) m := by
      intro m hm
      funext c s
      unfold loadModule
      simp only [run_bind, liftR]
      cases hl : env.load m with
      | error e => rfl
      | ok o =>
        cases o with
        | none => rfl
        | some o =>
          cases o with
          | none => rfl
          | some a =>
            have := ih a (fun m' hm' => by
              have := hrank m m' ⟨a, hl, hm'⟩; omega) k (by omega)
            simp only [found, Except.bind, Except.map, this]
    clear hk
    induction ast with
    | nil => rfl
    | cons d rest ihr =>
      have hrest := ihr fun m hm => h m (by
        obtain ⟨it, sr, hx, he⟩ := hm; exact ⟨it, sr, List.mem_cons_of_mem _ hx, he⟩)
      cases d with
      | import_ items src =>
        funext c s
        simp only [loadDecls, run_bind, liftR]
        cases hs : env.normalize src with
        | error e => rfl
        | ok m =>
          have hm := h m ⟨items, src, List.mem_cons_self, hs⟩
          simp only [Except.map, Except.bind]
          rw [hmod m hm, hrest]
      | type _ _ _ => funext c s; simp only [loadDecls, hrest]
      | const _ _ _ => funext c s; simp only [loadDecls, hrest]
      | ffi _ _ => funext c s; simp only [loadDecls, hrest]

/-- A diamond: the program imports `b` and `c`, both import `d`. -/
def diamond : List (String × Ast.Program) :=
  [("b", [.import_ [⟨"t", none⟩] (ascii "d"), .type "u" [] (.mk (.ref "t" []) [] none none [])]),
   ("c", [.import_ [⟨"t", some "v"⟩] (ascii "d")]),
   ("d", [.type "t" [] (.mk (.scalar Scalar.u8.toE) [] none none [])])]

def diamondTop : Ast.Program :=
  [.import_ [⟨"u", none⟩] (ascii "b"), .import_ [] (ascii "c"), .import_ [] (ascii "b")]

example : ∃ c s, (loadImports (preludeEnv diamond) 3 diamondTop ⟨[], []⟩).run ⟨[], 0⟩ = .ok (c, s) ∧
    c.loads = ["b", "d", "c"] := ⟨_, _, rfl, rfl⟩

/-- Finding, concretely: a module that imports itself overflows the stack, whatever its size. -/
theorem self_import_finding (n : Nat) (s : St) (c : Cache) (hc : c.mods = []) :
    (loadImports (preludeEnv [("a", [.import_ [] (ascii "a")])]) n [.import_ [] (ascii "a")] c).run s
      = .error .diverge := by
  induction n generalizing c s with
  | zero =>
    obtain ⟨mods, loads⟩ := c
    cases hc; rfl
  | succ n ih =>
    obtain ⟨mods, loads⟩ := c
    cases hc
    have := ih s ⟨[], loads ++ ["a"]⟩ rfl
    change loadImports _ n _ _ _ = _ at this
    show loadDecls _ (loadModule _ _) _ _ _ = _
    simp only [loadDecls, run_bind, liftR]
    have hn : (preludeEnv [("a", [.import_ [] (ascii "a")])]).normalize (ascii "a") = .ok "a" := rfl
    rw [hn]
    simp only [Except.map, Except.bind]
    show (loadModule _ _ "a" _ >>= _) s = _
    rw [run_bind]
    have : loadModule (preludeEnv [("a", [.import_ [] (ascii "a")])])
        (loadImports (preludeEnv [("a", [.import_ [] (ascii "a")])]) n) "a" ⟨[], loads⟩ s
        = .error .diverge := by
      unfold loadModule
      simp only [run_bind, liftR]
      have hl : (preludeEnv [("a", [.import_ [] (ascii "a")])]).load "a" =
        .ok (some (some [.import_ [] (ascii "a")])) := rfl
      rw [hl]
      simp only [found, Except.bind, Except.map]
      rw [this]
    rw [this]; rfl

end Verif.Props
