import Verif.DefaultedSays
import Verif.Called
import Verif.Props.Expr
import Verif.Props.Hygiene
/-!
# Parameters with default values

C78. A type may give its parameters default values. The functions that are generated for it take an `Option` for each of these:
leaving one out is the same as passing the value of its default, which is what the specification says, and may depend on the
parameters before it but on nothing else. Otherwise the type is what it is without default values.
-/
namespace Verif.Props
open Verif Verif.Sem

/-! ### From the specification -/

/-- The generated functions for a source, with the modules it may import. -/
def moduleOf (modules : List (String × Text)) (src : String) : Option (List Entry) :=
  match parse (ascii src) with
  | .error _ => none
  | .ok ast => match convert (textEnv modules) 3 ast with
    | .error _ => none
    | .ok (p, h, _) => match lowerEntries true h 9 p.types with
      | .error _ => none
      | .ok M => some M

theorem lowerEntry_name {oc : Bool} {h : Heap} {m : Nat} {f : FId} {x : AField} (hx : h[f]? = some x) {e : Entry}
    (hl : lowerEntry oc h m f = .ok e) : e.decl.name = x.name := by
  unfold lowerEntry at hl
  rw [deref_some hx] at hl
  simp only [gbind_ok, ofR_ok, Except.ok.injEq, exists_eq_left'] at hl
  obtain ⟨ps, -, ds, -, xs, -, b, -, hl⟩ := hl
  split at hl <;> cases hl
  rfl

theorem lowerEntries_mem {oc : Bool} {h : Heap} {m : Nat} : ∀ {ts : List (String × FId)} {M : List Entry},
    lowerEntries oc h m ts = .ok M → ∀ e ∈ M, ∃ (id : FId) (x : AField), (e.decl.name, id) ∈ ts ∧ h[id]? = some x ∧
      (∀ t, x.type ≠ .foreign t) ∧ lowerEntry oc h m id = .ok e
  | [], M, hl, e, he => by cases hl; cases he
  | (name, f) :: rest, M, hl, e, he => by
    rw [lowerEntries] at hl
    simp only [gbind_ok, ofR_ok, deref_ok] at hl
    obtain ⟨x, hx, hl⟩ := hl
    split at hl
    · obtain ⟨id, y, h1, h2⟩ := lowerEntries_mem hl e he
      exact ⟨id, y, List.mem_cons_of_mem _ h1, h2⟩
    · rename_i hne
      split at hl
      · cases hl
      · rename_i hn
        simp only [gbind_ok] at hl
        obtain ⟨d', hd', r, hr, hl⟩ := hl
        cases hl
        rcases List.mem_cons.1 he with rfl | he
        · refine ⟨f, x, ?_, hx, fun t ht => hne t ht, hd'⟩
          rw [lowerEntry_name hx hd', Decidable.of_not_not hn]
          exact List.mem_cons_self
        · obtain ⟨id, y, h1, h2⟩ := lowerEntries_mem hr e he
          exact ⟨id, y, List.mem_cons_of_mem _ h1, h2⟩

theorem lowerEntries_covers {oc : Bool} {h : Heap} {m : Nat} : ∀ {ts : List (String × FId)} {M : List Entry},
    lowerEntries oc h m ts = .ok M → ∀ name id, (name, id) ∈ ts → ∀ x : AField, h[id]? = some x →
      (∀ t, x.type ≠ .foreign t) → ∃ e ∈ M, lowerEntry oc h m id = .ok e
  | [], M, hl, name, id, hi, _, _, _ => by cases hi
  | (k, f) :: rest, M, hl, name, id, hi, y, hy, hne => by
    rw [lowerEntries] at hl
    simp only [gbind_ok, ofR_ok, deref_ok] at hl
    obtain ⟨x, hx, hl⟩ := hl
    split at hl
    · rename_i t ht
      rcases List.mem_cons.1 hi with e | hi
      · cases e
        rw [hx] at hy; cases hy
        exact absurd ht (hne t)
      · exact lowerEntries_covers hl name id hi y hy hne
    · split at hl
      · cases hl
      · simp only [gbind_ok] at hl
        obtain ⟨d, hd, r, hr, hl⟩ := hl
        cases hl
        rcases List.mem_cons.1 hi with e | hi
        · cases e
          exact ⟨d, List.mem_cons_self, hd⟩
        · obtain ⟨d', h1, h2⟩ := lowerEntries_covers hr name id hi y hy hne
          exact ⟨d', List.mem_cons_of_mem _ h1, h2⟩

/-- What is generated for a declaration: the functions of the declaration without its default values, and the default
values as they are written. -/
def SaysEntry (ms : Modules) (oc : Bool) (text : Ast.Program) (n : String) (params : List Ast.TypeArg) (f : Ast.Field)
    (e : Entry) : Prop :=
  SaysDecl ms oc text (.type n (plainParams params) f) e.decl ∧ SaysDefaults ms text [] params e.defaults

/-- C78 for the semantic graph; see `text_defaults_partial`. -/
theorem entries_from_source_partial (env : Sem.Env) [Builtins env] (hm : PadFreeModules env) (n : Nat)
    (ast : Ast.Program) (hp : ∀ d ∈ ast, PadFreeDecl d) (p : Sem.Prog) (h : Heap) (loads : List String)
    (hc : convert env n ast = .ok (p, h, loads)) (oc : Bool) (m : Nat) (M : List Entry)
    (hl : lowerEntries oc h m p.types = .ok M) :
    (∀ e ∈ M, ∃ home args f, TypeOrigin (modulesOf env) ast e.decl.name home (.type e.decl.name args f) ∧
      SaysEntry (modulesOf env) oc home e.decl.name args f e) ∧
    (∀ name args f, .type name args f ∈ ast → ∃ e ∈ M, e.decl.name = name ∧
      SaysEntry (modulesOf env) oc ast name args f e) := by
  have made := convert_made hc
  constructor
  · intro d hd
    obtain ⟨id, x, h1, h2, h3, h4⟩ := lowerEntries_mem hl d hd
    have nd := get_of_mem_nodup (made_types_nodup made) h1
    rcases made.typeOrigin d.decl.name id nd with ⟨home, q, k, args, f, ho, hq, hd', hg⟩ | ⟨home, k, -, y, hy, ht⟩
    · have hpf : PadFreeField f := by
        rcases (typeOrigin_home ho).2 with rfl | ⟨md, hld⟩
        · exact (hp _ hd').2
        · exact (hm _ _ hld _ hd').2
      obtain ⟨e, hs⟩ := lowerEntry_says hq hd' hg hpf h4
      subst e
      exact ⟨home, args, f, ho, hs⟩
    · rw [h2] at hy; cases hy
      exact absurd ht (h3 k)
  · intro name args f hd
    have he := made.elab _ hd
    cases he with
    | @type _ _ _ id x g1 g2 g3 g4 g5 g6 g7 g8 =>
      have hne : ∀ t, x.type ≠ .foreign t := by
        intro t ht
        obtain ⟨ty, -, het⟩ := elabMid_type g6
        rw [ht] at het
        cases het
      obtain ⟨d, h1, h2⟩ := lowerEntries_covers hl name id (IMap.get_mem g1) x g2 hne
      obtain ⟨e, hs⟩ := lowerEntry_says made hd g1 (hp _ hd).2 h2
      exact ⟨d, h1, e, hs⟩

/-- C78, what is generated. Whatever source is accepted, each type of it (and each type it imports) gets the functions that it
gets without its default values, and the default values that are written, in order; a default value may mention the parameters up
to its own, and constants and variants, but nothing else. (No field may have the name of a padding: see `pad_name_finding`.) -/
theorem text_defaults_partial (modules : List (String × Text)) (src : String) (M : List Entry)
    (hs : moduleOf modules src = some M) (hp : noPadText (ascii src) = true)
    (hm : ∀ x ∈ modules, noPadText x.2 = true) :
    ∃ ast, parse (ascii src) = .ok ast ∧
      (∀ e ∈ M, ∃ home args f, TypeOrigin (modulesOf (textEnv modules)) ast e.decl.name home (.type e.decl.name args f) ∧
        SaysEntry (modulesOf (textEnv modules)) true home e.decl.name args f e) ∧
      (∀ name args f, .type name args f ∈ ast → ∃ e ∈ M, e.decl.name = name ∧
        SaysEntry (modulesOf (textEnv modules)) true ast name args f e) := by
  unfold moduleOf at hs
  unfold noPadText at hp
  split at hs
  · cases hs
  · rename_i ast hparse
    rw [hparse] at hp
    split at hs
    · cases hs
    · rename_i p h loads hc
      split at hs
      · cases hs
      · rename_i sch' hl
        cases hs
        refine ⟨ast, hparse, entries_from_source_partial _ ?_ 3 ast
          (fun d hd => noPadDecl_sound (List.all_eq_true.1 hp d hd)) p h loads hc true 9 M hl⟩
        intro name a ha d hd
        simp only [textEnv, Except.ok.injEq, Option.map_eq_some_iff] at ha
        obtain ⟨text, h1, h2⟩ := ha
        have h3 := hm _ (IMap.get_mem h1)
        unfold noPadText at h3
        cases hp : parse text with
        | error e => rw [hp] at h2; cases h2
        | ok b =>
          rw [hp] at h2 h3
          cases h2
          exact noPadDecl_sound (List.all_eq_true.1 h3 d hd)

/-! ### What a default value may mention -/

mutual
theorem saysE_mentions {ms : Modules} : ∀ {text : Ast.Program} {V : InView} {s : Ast.Expression} {e : Expr} {τ : Verif.Written},
    SaysE ms text V s e τ → V.fields = [] → e.refs = [] ∧ ∀ n ∈ e.inputs, ∃ ty, nearest n V.params = some ty
  | _, _, _, _, _, .exact h, hV => by
    have i := saysC_mentions h hV
    exact i
  | _, _, _, _, _, .widened h _, hV => by
    have i := saysC_mentions h hV
    exact i
  | _, _, _, _, _, .represented h _, hV => by
    have i := saysC_mentions h hV
    exact i
theorem saysC_mentions {ms : Modules} : ∀ {text : Ast.Program} {V : InView} {s : Ast.Expression} {e : Expr} {τ : Verif.Written},
    SaysC ms text V s e τ → V.fields = [] → e.refs = [] ∧ ∀ n ∈ e.inputs, ∃ ty, nearest n V.params = some ty
  | _, _, _, _, _, .binary h1 h2, hV => by
    obtain ⟨a1, a2⟩ := saysE_mentions h1 hV
    obtain ⟨b1, b2⟩ := saysE_mentions h2 hV
    refine ⟨by simp [Expr.refs, a1, b1], fun n hn => ?_⟩
    rcases List.mem_append.1 hn with hn | hn
    · exact a2 n hn
    · exact b2 n hn
  | _, _, _, _, _, .unary h1, hV => by
    have i := saysE_mentions h1 hV
    exact i
  | _, _, _, _, _, .cast h1 _, hV => by
    have i := saysE_mentions h1 hV
    exact i
  | _, _, _, _, _, .index h1 h2, hV => by
    obtain ⟨a1, a2⟩ := saysE_mentions h1 hV
    obtain ⟨b1, b2⟩ := saysE_mentions h2 hV
    refine ⟨by simp [Expr.refs, a1, b1], fun n hn => ?_⟩
    rcases List.mem_append.1 hn with hn | hn
    · exact a2 n hn
    · exact b2 n hn
  | _, _, _, _, _, .variant .., _ => ⟨rfl, fun n hn => by cases hn⟩
  | _, _, _, _, _, .flag .., _ => ⟨rfl, fun n hn => by cases hn⟩
  | _, _, _, _, _, .int .., _ => ⟨rfl, fun n hn => by cases hn⟩
  | _, _, _, _, _, .field h, hV => by rw [hV] at h; cases h
  | _, _, _, _, _, .param _ h, _ => ⟨rfl, fun n hn => by cases List.mem_singleton.1 hn; exact ⟨_, h⟩⟩
  | _, _, _, _, _, .const _ _ _ h, _ => ⟨(saysE_mentions h rfl).1, fun n hn => by cases hn⟩
  | _, _, _, _, _, .str, _ => ⟨rfl, fun n hn => by cases hn⟩
  | _, _, _, _, _, .ternary h1 h2 h3, hV => by
    obtain ⟨a1, a2⟩ := saysE_mentions h1 hV
    obtain ⟨b1, b2⟩ := saysE_mentions h2 hV
    obtain ⟨c1, c2⟩ := saysE_mentions h3 hV
    refine ⟨by simp [Expr.refs, a1, b1, c1], fun n hn => ?_⟩
    rcases List.mem_append.1 hn with hn | hn
    · rcases List.mem_append.1 hn with hn | hn
      · exact a2 n hn
      · exact b2 n hn
    · exact c2 n hn
  | _, _, _, _, _, .bool, _ => ⟨rfl, fun n hn => by cases hn⟩
  | _, _, _, _, _, .len h1 _, hV => by
    have i := saysE_mentions h1 hV
    exact i
  | _, _, _, _, _, .blen h, hV => by rw [hV] at h; cases h
  | _, _, _, _, _, .sum h1, hV => by
    have i := saysE_mentions h1 hV
    exact i
  | _, _, _, _, _, .bits h1, hV => by
    have i := saysE_mentions h1 hV
    exact i
  | _, _, _, _, _, .pad h1 h2, hV => by
    obtain ⟨a1, a2⟩ := saysE_mentions h1 hV
    obtain ⟨b1, b2⟩ := saysE_mentions h2 hV
    refine ⟨by simp [Expr.refs, a1, b1], fun n hn => ?_⟩
    rcases List.mem_append.1 hn with hn | hn
    · exact a2 n hn
    · exact b2 n hn
  | _, _, _, _, _, .member h1 .., hV => by
    have i := saysE_mentions h1 hV
    exact i
  | _, _, _, _, _, .memberInside h1 .., hV => by
    have i := saysE_mentions h1 hV
    exact i
  | _, _, _, _, _, .memberUnknown h1, hV => by
    have i := saysE_mentions h1 hV
    exact i
end

/-- C78, scope. A default value mentions no field (so that `cannot reference field in input default` is never reached), and of the
parameters only those up to its own. -/
theorem says_default_mentions {ms : Modules} {text : Ast.Program} {before params : List Ast.TypeArg} {ds : List (Option Expr)}
    (h : SaysDefaults ms text before params ds) : ∀ (i : Nat) (d : Expr), ds[i]? = some (some d) →
      d.refs = [] ∧ ∀ n ∈ d.inputs, n ∈ (before ++ params.take (i + 1)).map (·.name) := by
  induction h with
  | nil => intro i d hd; cases hd
  | @cons before a rest d ds h _ ih =>
    intro i d' hd
    cases i with
    | zero =>
      simp only [List.getElem?_cons_zero, Option.some.injEq] at hd
      subst hd
      generalize a.default = o at h
      cases h with
      | some h =>
        obtain ⟨h1, h2⟩ := saysE_mentions h rfl
        refine ⟨h1, fun n hn => ?_⟩
        obtain ⟨ty, hty⟩ := h2 n hn
        have hm := nearest_mem hty
        simpa [InView.start, or_comm] using hm
    | succ i =>
      obtain ⟨h1, h2⟩ := ih i d' hd
      refine ⟨h1, fun n hn => ?_⟩
      have := h2 n hn
      simpa [List.append_assoc] using this

/-- The same for a source. -/
theorem text_default_scope_partial (modules : List (String × Text)) (src : String) (M : List Entry)
    (hs : moduleOf modules src = some M) (hp : noPadText (ascii src) = true) (hm : ∀ x ∈ modules, noPadText x.2 = true) :
    ∀ e ∈ M, ∀ (i : Nat) (d : Expr), e.defaults[i]? = some (some d) →
      d.refs = [] ∧ ∀ n ∈ d.inputs, n ∈ e.decl.params.take (i + 1) := by
  intro e he i d hd
  obtain ⟨ast, -, h1, -⟩ := text_defaults_partial modules src M hs hp hm
  obtain ⟨home, args, f, -, h2, h3⟩ := h1 e he
  obtain ⟨g1, g2⟩ := says_default_mentions h3 i d hd
  refine ⟨g1, fun n hn => ?_⟩
  have en : e.decl.params = args.map (·.name) := by
    rw [← plainParams_names]
    generalize e.decl.name = m at h2
    generalize e.decl = dc at h2
    cases h2
    rfl
  rw [en, ← List.map_take]
  exact g2 n hn

/-! ### What the generated functions do -/

/-- The values that the parameters get. A parameter that is passed has the value passed; one that is left out has the
value of its default, given those of the parameters before it. -/
structure FilledIn (oc : Bool) (params : List String) (defaults : List (Option Expr)) (given : List (Option Val))
    (vals : List Val) : Prop where
  one_each : defaults.length = params.length ∧ given.length = params.length ∧ vals.length = params.length
  passed : ∀ (i : Nat) (v : Val), given[i]? = some (some v) → vals[i]? = some v
  left_out : ∀ (i : Nat), given[i]? = some none → ∃ d v, defaults[i]? = some (some d) ∧ vals[i]? = some v ∧
    evalE true oc ⟨fun _ => none, Dec.bindArgs (params.take i) (vals.take i)⟩ d = .ok v

theorem bindArgs_none : ∀ {ps : List String} {vs : List Val} {p : String}, p ∉ ps → Dec.bindArgs ps vs p = none
  | [], _, p, _ => rfl
  | q :: ps, [], p, _ => rfl
  | q :: ps, v :: vs, p, h => by
    rw [List.mem_cons, not_or] at h
    simp only [Dec.bindArgs, upd, if_neg h.1]
    exact bindArgs_none h.2

theorem bindArgs_snoc : ∀ {ps : List String} {vs : List Val} {p : String} {v : Val}, ps.length = vs.length → p ∉ ps →
    upd (Dec.bindArgs ps vs) p (some v) = Dec.bindArgs (ps ++ [p]) (vs ++ [v])
  | [], [], p, v, _, _ => rfl
  | q :: ps, w :: vs, p, v, hl, hp => by
    rw [List.mem_cons, not_or] at hp
    have ih := bindArgs_snoc (v := v) (Nat.succ.inj hl) hp.2
    funext n
    have ihn := congrFun ih n
    simp only [List.cons_append, Dec.bindArgs, upd] at ihn ⊢
    by_cases h1 : n = p
    · subst h1
      rw [if_pos rfl, if_neg hp.1]
      rw [if_pos rfl] at ihn
      exact ihn
    · rw [if_neg h1]
      rw [if_neg h1] at ihn
      by_cases h2 : n = q
      · rw [if_pos h2, if_pos h2]
      · rw [if_neg h2, if_neg h2]; exact ihn

theorem fillArgs_iff (oc : Bool) : ∀ {ps : List String} {ds : List (Option Expr)} {gs : List (Option Val)} {vs : List Val}
    {pre : List String} {pvs : List Val}, pre.length = pvs.length → (pre ++ ps).Nodup →
    (fillArgs oc ps ds (Dec.bindArgs pre pvs) gs = .ok vs ↔
      (ds.length = ps.length ∧ gs.length = ps.length ∧ vs.length = ps.length) ∧
      (∀ (i : Nat) (v : Val), gs[i]? = some (some v) → vs[i]? = some v) ∧
      (∀ (i : Nat), gs[i]? = some none → ∃ d v, ds[i]? = some (some d) ∧ vs[i]? = some v ∧
        evalE true oc ⟨fun _ => none, Dec.bindArgs (pre ++ ps.take i) (pvs ++ vs.take i)⟩ d = .ok v)) := by
  intro ps
  induction ps with
  | nil =>
    intro ds gs vs pre pvs _ _
    cases ds with
    | cons => simp [fillArgs]
    | nil =>
      cases gs with
      | cons => simp [fillArgs]
      | nil =>
        simp only [fillArgs, Except.ok.injEq, List.length_nil, true_and, List.getElem?_nil]
        constructor
        · rintro rfl; simp
        · rintro ⟨h, -⟩; exact (List.eq_nil_of_length_eq_zero h).symm
  | cons p ps ih =>
    intro ds gs vs pre pvs hl hn
    cases ds with
    | nil => simp [fillArgs]
    | cons d ds =>
      cases gs with
      | nil => simp [fillArgs]
      | cons g gs =>
        have hp : p ∉ pre := by
          intro h
          exact (List.nodup_append.1 hn).2.2 p h p List.mem_cons_self rfl
        have hn' : ((pre ++ [p]) ++ ps).Nodup := by simpa using hn
        have step := fun (v : Val) (ws : List Val) =>
          ih (ds := ds) (gs := gs) (vs := ws) (pre := pre ++ [p]) (pvs := pvs ++ [v]) (by simp [hl]) hn'
        simp only [← bindArgs_snoc hl hp] at step
        simp only [fillArgs, bind_ok]
        constructor
        · rintro ⟨v, hv, ws, hws, h⟩
          cases h
          obtain ⟨⟨l1, l2, l3⟩, k1, k2⟩ := (step v ws).1 hws
          refine ⟨⟨by simp [l1], by simp [l2], by simp [l3]⟩, fun i w hi => ?_, fun i hi => ?_⟩
          · cases i with
            | zero =>
              simp only [List.getElem?_cons_zero, Option.some.injEq] at hi ⊢
              subst hi
              cases hv; rfl
            | succ i => exact k1 i w hi
          · cases i with
            | zero =>
              simp only [List.getElem?_cons_zero, Option.some.injEq] at hi
              subst hi
              cases d with
              | none => cases hv
              | some d => exact ⟨d, v, rfl, rfl, by simpa [argValue] using hv⟩
            | succ i =>
              obtain ⟨d', w, e1, e2, e3⟩ := k2 i hi
              exact ⟨d', w, e1, e2, by simpa [List.append_assoc] using e3⟩
        · rintro ⟨⟨l1, l2, l3⟩, k1, k2⟩
          cases vs with
          | nil => simp at l3
          | cons v ws =>
            simp only [List.length_cons, Nat.succ.injEq] at l1 l2 l3
            refine ⟨v, ?_, ws, (step v ws).2 ⟨⟨l1, l2, l3⟩, fun i w hi => k1 (i + 1) w hi, fun i hi => ?_⟩, rfl⟩
            · cases g with
              | some w =>
                have := k1 0 w rfl
                simp only [List.getElem?_cons_zero, Option.some.injEq] at this
                rw [this]; rfl
              | none =>
                obtain ⟨d', w, e1, e2, e3⟩ := k2 0 rfl
                simp only [List.getElem?_cons_zero, Option.some.injEq] at e1 e2
                subst e1 e2
                simpa [argValue] using e3
            · obtain ⟨d', w, e1, e2, e3⟩ := k2 (i + 1) hi
              exact ⟨d', w, e1, e2, by simpa [List.append_assoc] using e3⟩

theorem fillArgs_filled (oc : Bool) {ps : List String} {ds : List (Option Expr)} {gs : List (Option Val)} {vs : List Val}
    (hn : ps.Nodup) : fillArgs oc ps ds (fun _ => none) gs = .ok vs ↔ FilledIn oc ps ds gs vs := by
  have h := fillArgs_iff oc (ps := ps) (ds := ds) (gs := gs) (vs := vs) (pre := []) (pvs := []) rfl (by simpa using hn)
  have e : Dec.bindArgs [] [] = fun _ => none := rfl
  rw [e] at h
  constructor
  · intro h1
    obtain ⟨a, b, c⟩ := h.1 h1
    exact ⟨a, b, c⟩
  · rintro ⟨a, b, c⟩
    exact h.2 ⟨a, b, c⟩

theorem legal_nodup {M : List Entry} (h : legalModule M = true) {n : String} {e : Entry} (he : findEntry M n = some e) :
    e.decl.params.Nodup := by
  simp only [legalModule, Bool.and_eq_true, List.all_eq_true] at h
  have := h.1 e (List.mem_of_find?_eq_some he)
  simp only [Entry.legal, Bool.and_eq_true, decide_eq_true_eq] at this
  exact this.1

/-- C78, decoding. What a generated decoder answers for the parameters passed is what the functions of the type without default
values answer for the values that the parameters get, and if there is an answer, then they get values. -/
theorem decode_left_out (M : List Entry) (hM : legalModule M = true) (L : Dec.Lib) (fuel : Nat) (n : String) (e : Entry)
    (he : findEntry M n = some e) (given : List (Option Val)) (bs : Bytes) :
    (∀ vals, FilledIn L.oc e.decl.params e.defaults given vals →
      decodeEntry M L fuel n given bs = Dec.runDecode (declsOf M) L fuel n vals bs) ∧
    (∀ r, decodeEntry M L fuel n given bs = .ok r →
      ∃ vals, FilledIn L.oc e.decl.params e.defaults given vals) := by
  have hn := legal_nodup hM he
  unfold decodeEntry
  simp only [hM, he, if_true]
  refine ⟨fun vals h => ?_, fun r h => ?_⟩
  · rw [(fillArgs_filled L.oc hn).2 h]; rfl
  · simp only [bind_ok] at h
    obtain ⟨vals, h, -⟩ := h
    exact ⟨vals, (fillArgs_filled L.oc hn).1 h⟩

/-- C78, encoding. -/
theorem encode_left_out (M : List Entry) (hM : legalModule M = true) (L : Enc.Lib) (fuel : Nat) (n : String) (e : Entry)
    (he : findEntry M n = some e) (given : List (Option Val)) (v : Val) :
    (∀ vals, FilledIn L.oc e.decl.params e.defaults given vals →
      encodeEntry M L fuel n given v = Enc.runEncode (declsOf M) L fuel n vals v) ∧
    (∀ r, encodeEntry M L fuel n given v = .ok r →
      ∃ vals, FilledIn L.oc e.decl.params e.defaults given vals) := by
  have hn := legal_nodup hM he
  unfold encodeEntry
  simp only [hM, he, if_true]
  refine ⟨fun vals h => ?_, fun r h => ?_⟩
  · rw [(fillArgs_filled L.oc hn).2 h]; rfl
  · simp only [bind_ok] at h
    obtain ⟨vals, h, -⟩ := h
    exact ⟨vals, (fillArgs_filled L.oc hn).1 h⟩

/-- A parameter may always be passed. -/
theorem filled_passed (oc : Bool) {params : List String} {defaults : List (Option Expr)} {vals : List Val}
    (h1 : defaults.length = params.length) (h2 : vals.length = params.length) :
    FilledIn oc params defaults (vals.map some) vals := by
  refine ⟨⟨h1, by simpa using h2, h2⟩, fun i v hv => ?_, fun i hi => ?_⟩
  · simpa using hv
  · simp at hi

/-- C78. Leaving parameters out is the same as passing the values of their defaults. -/
theorem left_out_is_default (M : List Entry) (hM : legalModule M = true) (n : String) (e : Entry)
    (he : findEntry M n = some e) (oc : Bool) (given : List (Option Val)) (vals : List Val)
    (hf : FilledIn oc e.decl.params e.defaults given vals) :
    (∀ (L : Dec.Lib) fuel bs, L.oc = oc → decodeEntry M L fuel n given bs = decodeEntry M L fuel n (vals.map some) bs) ∧
    (∀ (L : Enc.Lib) fuel v, L.oc = oc → encodeEntry M L fuel n given v = encodeEntry M L fuel n (vals.map some) v) := by
  have hp := filled_passed oc (vals := vals) hf.one_each.1 hf.one_each.2.2
  constructor
  · rintro L fuel bs rfl
    rw [(decode_left_out M hM L fuel n e he given bs).1 vals hf, (decode_left_out M hM L fuel n e he _ bs).1 vals hp]
  · rintro L fuel v rfl
    rw [(encode_left_out M hM L fuel n e he given v).1 vals hf, (encode_left_out M hM L fuel n e he _ v).1 vals hp]

/-- C78. What a parameter that is left out gets is what its default value denotes (where the emitted expression is free of the
defects of C39). -/
theorem default_meaning_partial {params : List String} {defaults : List (Option Expr)} {given : List (Option Val)}
    {vals : List Val} (hf : FilledIn true params defaults given vals) (i : Nat) (hi : given[i]? = some none)
    (d : Expr) (hd : defaults[i]? = some (some d)) (he : Emittable d) (hl : SaneLits d) (hv : ∀ v ∈ vals, Sane v) :
    ∃ v, vals[i]? = some v ∧ Verif.Props.Denotes ⟨fun _ => none, Dec.bindArgs (params.take i) (vals.take i)⟩ d v := by
  obtain ⟨d', v, h1, h2, h3⟩ := hf.left_out i hi
  rw [hd] at h1
  cases h1
  refine ⟨v, h2, (emitted_value_is_meaning ⟨fun n w hw => (by cases hw), fun n w hw => ?_⟩ he hl h3).1⟩
  have : ∀ {ps : List String} {vs : List Val}, (∀ v ∈ vs, Sane v) → Dec.bindArgs ps vs n = some w → Sane w := by
    intro ps
    induction ps with
    | nil => intro vs _ h; cases h
    | cons p ps ih =>
      intro vs hs h
      cases vs with
      | nil => cases h
      | cons u vs =>
        simp only [Dec.bindArgs, upd] at h
        split at h
        · cases h; exact hs _ List.mem_cons_self
        · exact ih (fun x hx => hs x (List.mem_cons_of_mem _ hx)) h
  exact this (fun x hx => hv x (List.mem_of_mem_take hx)) hw


/-! ### Types without default values -/

/-- The functions of a type without default values. -/
def bareEntry (d : Decl) : Entry := ⟨d, d.params.map fun _ => none⟩

theorem lowerDefaults_none {h : Heap} : ∀ {as : List AArg}, (∀ a ∈ as, a.default = none) →
    lowerDefaults h as = .ok (as.map fun _ => none)
  | [], _ => rfl
  | a :: as, hd => by
    have h1 := hd a List.mem_cons_self
    have h2 := lowerDefaults_none (h := h) fun b hb => hd b (List.mem_cons_of_mem a hb)
    simp only [lowerDefaults, h1, lowerDefault, h2, List.map_cons]
    rfl

theorem lowerParamNames_of : ∀ {as : List AArg} {ps : List String}, lowerParams as = .ok ps → lowerParamNames as = .ok ps
  | [], ps, h => h
  | a :: as, ps, h => by
    rw [lowerParams] at h
    rw [lowerParamNames]
    split at h
    · cases h
    · split at h
      · rename_i he
        rw [gmap_ok] at h
        obtain ⟨qs, hq, rfl⟩ := h
        rw [if_pos he, lowerParamNames_of hq]
        rfl
      · cases h

theorem lowerEntry_bare {oc : Bool} {h : Heap} {m : Nat} {f : FId} {d : Decl} (hl : lowerDecl oc h m f = .ok d) :
    lowerEntry oc h m f = .ok (bareEntry d) := by
  unfold lowerDecl at hl
  simp only [gbind_ok] at hl
  obtain ⟨x, hx, ps, hps, xs, hxs, b, hb, hl⟩ := hl
  split at hl
  · cases hl
  · rename_i hc
    cases hl
    have h1 := lowerParamNames_of hps
    obtain ⟨e, hd⟩ := lowerParams_ok hps
    have h2 := lowerDefaults_none (h := h) hd
    unfold lowerEntry
    simp only [gbind_ok]
    refine ⟨x, hx, ps, h1, _, h2, xs, hxs, b, hb, ?_⟩
    rw [if_neg hc, bareEntry, e]
    simp [Function.comp_def]

theorem lowerEntries_bare {oc : Bool} {h : Heap} {m : Nat} : ∀ {ts : List (String × FId)} {sch : Schema},
    lowerTypes oc h m ts = .ok sch → lowerEntries oc h m ts = .ok (sch.map bareEntry)
  | [], sch, hl => by cases hl; rfl
  | (name, f) :: rest, sch, hl => by
    rw [lowerTypes] at hl
    rw [lowerEntries]
    simp only [gbind_ok, ofR_ok, deref_ok] at hl ⊢
    obtain ⟨x, hx, hl⟩ := hl
    refine ⟨x, hx, ?_⟩
    split at hl
    · rename_i t ht
      simp only [ht]
      exact lowerEntries_bare hl
    · rename_i hne
      split at hl
      · cases hl
      · rename_i hn
        split
        · rename_i t ht
          exact absurd ht (hne t)
        rw [if_neg hn]
        simp only [gbind_ok] at hl ⊢
        obtain ⟨d, hd, r, hr, hl⟩ := hl
        cases hl
        exact ⟨_, lowerEntry_bare hd, _, lowerEntries_bare hr, rfl⟩

/-- C78. A source without default values is what it is elsewhere in this model. -/
theorem no_defaults_same (modules : List (String × Text)) (src : String) (sch : Schema) (h : specOf modules src = some sch) :
    moduleOf modules src = some (sch.map bareEntry) := by
  unfold specOf at h
  unfold moduleOf
  split at h
  · cases h
  · rename_i ast hp
    split at h
    · cases h
    · rename_i p hh loads hc
      split at h
      · cases h
      · rename_i sch' hl
        cases h
        simp only [hp, hc, lowerEntries_bare hl]

theorem zip_none_all (ps : List String) : ((ps.zip (ps.map fun _ => (none : Option Expr))).all fun p => match p.2 with
    | some d => decide (p.1 ∉ d.inputs)
    | none => true) = true := by
  induction ps with
  | nil => rfl
  | cons p ps ih => simpa using ih

theorem findEntry_bare (sch : Schema) (n : String) : findEntry (sch.map bareEntry) n = (sch.find n).map bareEntry := by
  unfold findEntry Schema.find
  rw [List.find?_map]
  rfl

theorem declsOf_bare (sch : Schema) : declsOf (sch.map bareEntry) = sch := by
  simp [declsOf, bareEntry, Function.comp_def]

/-- C78. Its functions take plain values and do what they do elsewhere in this model. -/
theorem no_defaults_run (sch : Schema) (hp : ∀ d ∈ sch, d.params.Nodup) (n : String) (d : Decl) (hd : sch.find n = some d)
    (args : List Val) (ha : args.length = d.params.length) :
    legalModule (sch.map bareEntry) = true ∧
    (∀ (L : Dec.Lib) fuel bs, decodeEntry (sch.map bareEntry) L fuel n (args.map some) bs = Dec.runDecode sch L fuel n args bs) ∧
    (∀ (L : Enc.Lib) fuel v, encodeEntry (sch.map bareEntry) L fuel n (args.map some) v = Enc.runEncode sch L fuel n args v) := by
  have hM : legalModule (sch.map bareEntry) = true := by
    simp only [legalModule, Bool.and_eq_true, List.all_eq_true, List.mem_map, forall_exists_index, and_imp,
      forall_apply_eq_imp_iff₂]
    refine ⟨fun d hd => ?_, fun d _ n _ e _ => ?_⟩
    · unfold Entry.legal
      rw [Bool.and_eq_true]
      exact ⟨decide_eq_true (hp d hd), zip_none_all d.params⟩
    · rw [Bool.or_eq_true]
      refine .inr ?_
      simp [bareEntry]
  have he : findEntry (sch.map bareEntry) n = some (bareEntry d) := by rw [findEntry_bare, hd]; rfl
  refine ⟨hM, fun L fuel bs => ?_, fun L fuel v => ?_⟩
  · have h := (decode_left_out _ hM L fuel n _ he (args.map some) bs).1 args
      (filled_passed L.oc (by simp [bareEntry]) (by simpa [bareEntry] using ha))
    rw [h, declsOf_bare]
  · have h := (encode_left_out _ hM L fuel n _ he (args.map some) v).1 args
      (filled_passed L.oc (by simp [bareEntry]) (by simpa [bareEntry] using ha))
    rw [h, declsOf_bare]

/-! ### Cases -/

def sizedText : String := "type a(n: u8, m: u8 ? n + 1u8) = u8[m];"

def sizedModule : List Entry :=
  [⟨⟨"a", ["n", "m"], [], .leaf none (.array (.prim (.scalar ⟨.u8, .big⟩))
      (.fixed (.cast .plain (.inputRef "m") (.scalar .u64))))⟩,
    [none, some (.binary .add (.inputRef "n") (.int ⟨.u8, 1⟩))]⟩]

theorem sized_module : moduleOf [] sizedText = some sizedModule ∧ noPadText (ascii sizedText) = true ∧
    legalModule sizedModule = true := by
  decide +kernel

/-- Left out, `m` is one more than `n`. -/
theorem sized_filled (n : Nat) (hn : n < 255) :
    FilledIn true ["n", "m"] [none, some (.binary .add (.inputRef "n") (.int ⟨.u8, 1⟩))]
      [some (vu8 n), none] [vu8 n, vu8 (n + 1)] := by
  refine (fillArgs_filled true (by decide)).1 ?_
  have h : CInt.add true ⟨.u8, (n : Int)⟩ ⟨.u8, 1⟩ = .ok ⟨.u8, (n : Int) + 1⟩ := by
    have : Scalar.u8.InRange ((n : Int) + 1) := by
      have h1 : Scalar.u8.min = 0 := by decide
      have h2 : Scalar.u8.max = 255 := by decide
      rw [Scalar.InRange, h1, h2]
      omega
    simp [CInt.add, CInt.arith, this]
  simp only [fillArgs, argValue, evalE, rtBin, vu8, upd, optRes, liftC, Val.toInt, bind, Except.bind, if_true]
  rw [h]
  rfl
  
example (n : Nat) (hn : n < 255) (L : Dec.Lib) (hL : L.oc = true) (fuel : Nat) (bs : Bytes) :
    decodeEntry sizedModule L fuel "a" [some (vu8 n), none] bs = decodeEntry sizedModule L fuel "a" [some (vu8 n), some (vu8 (n + 1))] bs :=
  (left_out_is_default sizedModule sized_module.2.2 "a" _ rfl true _ _ (sized_filled n hn)).1 L fuel bs hL

/-! ### Findings -/

/-- Whether a source is accepted, and if so whether rustc accepts the code about its parameters. -/
def defaultsOf (src : String) : Option Bool := (moduleOf [] src).map legalModule

/-- C78, what rustc accepts. The parameters of a type have different names, no default value mentions its own parameter, and
nothing mentions a type with default values but as the element of an array that is read at once. (The hypothesis is that
protospec does not panic, see C57.) -/
theorem legal_iff (M : List Entry)
    (hk : ∀ e ∈ M, (Enc.genDecl e.decl).1.ok = true) :
    legalModule M = true ↔
      (∀ e ∈ M, e.decl.params.Nodup ∧
        ∀ (i : Nat) (n : String) (d : Expr), e.decl.params[i]? = some n → e.defaults[i]? = some (some d) → n ∉ d.inputs) ∧
      ∀ e ∈ M, ∀ n ∈ e.decl.mentions, ∀ f ∈ M, f.decl.name = n → ∀ d ∈ f.defaults, d = none := by
  have h1 : ∀ e ∈ M, (e.legal = true ↔ e.decl.params.Nodup ∧
      ∀ (i : Nat) (n : String) (d : Expr), e.decl.params[i]? = some n → e.defaults[i]? = some (some d) → n ∉ d.inputs) := by
    intro e he
    simp only [Entry.legal, Bool.and_eq_true, decide_eq_true_eq, List.all_eq_true]
    refine and_congr_right fun _ => ⟨fun h i n d hn hd' => ?_, fun h p hp => ?_⟩
    · have := h (n, some d) (List.mem_iff_getElem?.mpr ⟨i, by simp [List.getElem?_zip_eq_some, hn, hd']⟩)
      simpa using this
    · obtain ⟨n, od⟩ := p
      obtain ⟨i, hi⟩ := List.mem_iff_getElem?.mp hp
      rw [List.getElem?_zip_eq_some] at hi
      cases od with
      | none => rfl
      | some d => simpa using h i n d hi.1 hi.2
  simp only [legalModule, Bool.and_eq_true, List.all_eq_true, Bool.or_eq_true, bne_iff_ne, ne_eq, Option.isNone_iff_eq_none]
  refine and_congr ⟨fun h e he => (h1 e he).1 (h e he), fun h e he => (h1 e he).2 (h e he)⟩
    ⟨fun h e he n hn f hf hfn => ?_, fun h e he n hn f hf => ?_⟩
  · rcases h e he n ((Decl.mem_callees (hk e he) n).2 hn) f hf with h | h
    · exact absurd hfn h
    · exact h
  · by_cases hfn : f.decl.name = n
    · exact .inr (h e he n ((Decl.mem_callees (hk e he) n).1 hn) f hf hfn)
    · exact .inl hfn

/-- Finding: a type with a default value cannot be used by another type, neither with an argument for the parameter nor without;
the code that is generated for the accepted specification does not compile. After a required parameter no argument is
accepted at all. -/
theorem default_called_finding :
    ["type a(n: u8 ? 4u8) = u8[n]; type b = a;", "type a(n: u8 ? 4u8) = u8[n]; type b = a(2u8);",
      "type a(n: u8, m: u8 ? 4u8) = u8[n]; type b = a(1u8);", "type a(n: u8, m: u8 ? 4u8) = u8[n]; type b = a(1u8, 2u8);"].map
      defaultsOf = [some false, some false, some false, none] := by
  decide +kernel

/-- Nor in an array, a container or an alternative; an array of a type that is another name for a scalar is read at once, so it
may have default values. -/
theorem default_mentioned_finding :
    ["type a(n: u8 ? 4u8) = u8[n]; type b = a[2u32];", "type a(n: u8 ? 4u8) = u8[n]; type b = container { x: container { y: a } };",
      "type a(n: u8 ? 4u8) = u8[n]; type b = container { x: u8, y: a[..] };", "type a(n: u8 ? 4u8) = u8; type b = a[2u32];",
      "type a(n: u8 ? 4u8) = u8[n]; type b = container +tagged_enum { p: u8 { false }, q: a };",
      "type a(n: u8 ? 4u8) = u8[n]; type b = u8;"].map
      defaultsOf = [some false, some false, some false, some true, some false, some true] := by
  decide +kernel

/-- `legal_iff` applies to them. -/
example : ((moduleOf [] "type a(n: u8 ? 4u8) = u8[n]; type b = container +tagged_enum { p: u8 { false }, q: a };").getD []).map
    (fun e => ((Enc.genDecl e.decl).1.ok, e.decl.mentions)) = [(true, []), (true, ["a"])] := by decide +kernel

/-- Finding: a default value may mention its own parameter, and a constant; the code for it does not compile. (A constant is emitted
by its name, which the module does not define.) An argument for an optional parameter before a required one is accepted
without one for the required parameter. -/
theorem default_value_finding :
    ["type a(n: u8 ? n) = u8[n];", "type a(n: u8 ? 4u8, m: u8) = u8[n]; type b = a(2u8);",
      "type a(n: u8 ? m, m: u8) = u8[n];"].map defaultsOf = [some false, some false, none] ∧
    (∃ M e, moduleOf [] "const k: u8 = 4u8; type a(n: u8 ? k) = u8[n];" = some M ∧ M = [e] ∧
      ∀ vals, ¬ FilledIn true e.decl.params e.defaults [none] vals) := by
  refine ⟨by decide +kernel, _, _, (by decide +kernel :
    moduleOf [] "const k: u8 = 4u8; type a(n: u8 ? k) = u8[n];" = some [⟨⟨"a", ["n"], [], .leaf none
      (.array (.prim (.scalar ⟨.u8, .big⟩)) (.fixed (.cast .plain (.inputRef "n") (.scalar .u64))))⟩,
      [some (.constRef "k" (.int ⟨.u8, 4⟩))]⟩]), rfl, fun vals h => ?_⟩
  obtain ⟨d, v, h1, -, h2⟩ := h.left_out 0 rfl
  cases h1
  simp [evalE, Dec.bindArgs, optRes] at h2

end Verif.Props
