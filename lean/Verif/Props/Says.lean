import Verif.Sem.Saying
import Verif.Props.Scope
import Verif.Props.EndToEnd
import Verif.Props.Dups
/-!
# C58: code is generated from exactly what the source says
-/
namespace Verif.Props
open Verif Sem

/-- The text a type comes from is that of the program or one the resolver returned. -/
theorem typeOrigin_home {env : Sem.Env} {text : Ast.Program} {n : String} {home : Ast.Program} {d : Ast.Decl}
    (h : TypeOrigin (modulesOf env) text n home d) :
    d ∈ home ∧ (home = text ∨ ∃ module, env.load module = .ok (some (some home))) := by
  induction h with
  | here h => exact ⟨h, .inl rfl⟩
  | ffi _ h => exact ⟨h, .inl rfl⟩
  | imported _ _ _ _ hms _ ih =>
    refine ⟨ih.1, .inr ?_⟩
    rcases ih.2 with e | ⟨m, hl⟩
    · subst e
      unfold modulesOf at hms
      split at hms
      · rename_i name _
        split at hms
        · cases hms
          exact ⟨name, by assumption⟩
        · cases hms
      · cases hms
    · exact ⟨m, hl⟩

/-- Every type of the list that is not foreign has its declaration. -/
theorem lowerTypes_covers {oc : Bool} {h : Heap} {m : Nat} : ∀ {ts : List (String × FId)} {sch : Schema},
    lowerTypes oc h m ts = .ok sch → ∀ name id, (name, id) ∈ ts → ∀ x : AField, h[id]? = some x →
      (∀ t, x.type ≠ .foreign t) → ∃ d ∈ sch, lowerDecl oc h m id = .ok d
  | [], sch, hl, name, id, hi, _, _, _ => by cases hi
  | (k, f) :: rest, sch, hl, name, id, hi, y, hy, hne => by
    rw [lowerTypes] at hl
    simp only [gbind_ok, ofR_ok, deref_ok] at hl
    obtain ⟨x, hx, hl⟩ := hl
    split at hl
    · rename_i t ht
      rcases List.mem_cons.1 hi with e | hi
      · cases e
        rw [hx] at hy; cases hy
        exact absurd ht (hne t)
      · exact lowerTypes_covers hl name id hi y hy hne
    · split at hl
      · cases hl
      · simp only [gbind_ok] at hl
        obtain ⟨d, hd, r, hr, hl⟩ := hl
        cases hl
        rcases List.mem_cons.1 hi with e | hi
        · cases e
          exact ⟨d, List.mem_cons_self, hd⟩
        · obtain ⟨d', h1, h2⟩ := lowerTypes_covers hr name id hi y hy hne
          exact ⟨d', List.mem_cons_of_mem _ h1, h2⟩

/-- No two types of a converted program share a name. -/
theorem made_types_nodup {env : Sem.Env} {h : Heap} {ast : Ast.Program} {p : Sem.Prog} (hm : Made env h ast p) :
    (keys p.types).Nodup := by
  cases hm with
  | mk _ _ h3 _ =>
    obtain ⟨p1, s1, p2, s2, p3, s3, ids, s4, scs, s5, s6, hf, hi, hc, hd, -⟩ := fromAstImported_ok h3
    have f5 := (passFfi_keys hf).2.2.2.2.1 (by simp [keys, addPrelude])
    have i4 := (passImports_keys hi).2.2.2.1 f5
    have c3 := (passConsts_keys hc).2.2.1 i4
    exact (passDeclare_keys hd).2.2 c3

/-- Without repeated keys an entry is the one that is looked up. -/
theorem get_of_mem_nodup {α} {k : String} {v : α} : ∀ {m : List (String × α)}, (m.map Prod.fst).Nodup → (k, v) ∈ m →
    IMap.get m k = some v := by
  intro m hn hmem
  cases hg : IMap.get m k with
  | none => exact absurd (List.mem_map_of_mem (f := Prod.fst) hmem) (IMap.get_none_iff.1 hg)
  | some w =>
    have h2 := IMap.get_mem hg
    clear hg
    congr 1
    induction m with
    | nil => cases hmem
    | cons a rest ih =>
      simp only [List.map_cons, List.nodup_cons] at hn
      rcases List.mem_cons.1 hmem with e | e <;> rcases List.mem_cons.1 h2 with e2 | e2
      · exact (Prod.mk.inj (e2.trans e.symm)).2
      · subst e; exact absurd (List.mem_map_of_mem (f := Prod.fst) e2) hn.1
      · subst e2; exact absurd (List.mem_map_of_mem (f := Prod.fst) e) hn.1
      · exact ih hn.2 e e2

/-- C58. Whatever program is accepted, the code that is generated for it comes from its text and those of the modules
it imports from, and from all of it: each generated declaration is what the declaration of that name says, in the
module where following the imports leads, and each type the program declares is generated. A reference is to the
field, parameter or constant of that name that is in view there; a type name means the declaration found by following
imports; items stand in the order of the text with their conditions, transforms and calculated values; variants and
flags have their names and values. Conversions that the text does not write may be added to an expression (they do
not change its value: C36). (No field may have the name of a padding: see `pad_name_finding`.) -/
theorem code_from_source_partial (env : Sem.Env) [Builtins env] (hm : PadFreeModules env) (n : Nat)
    (ast : Ast.Program) (hp : ∀ d ∈ ast, PadFreeDecl d) (p : Sem.Prog) (h : Heap) (loads : List String)
    (hc : convert env n ast = .ok (p, h, loads)) (oc : Bool) (m : Nat) (sch : Schema)
    (hl : lowerTypes oc h m p.types = .ok sch) :
    (∀ d ∈ sch, ∃ home args f, TypeOrigin (modulesOf env) ast d.name home (.type d.name args f) ∧
      SaysDecl (modulesOf env) oc home (.type d.name args f) d) ∧
    (∀ name args f, .type name args f ∈ ast → ∃ d ∈ sch, d.name = name ∧
      SaysDecl (modulesOf env) oc ast (.type name args f) d) := by
  have made := convert_made hc
  constructor
  · intro d hd
    obtain ⟨id, x, h1, h2, h3, h4⟩ := lowerTypes_mem hl d hd
    have nd := get_of_mem_nodup (made_types_nodup made) h1
    rcases made.typeOrigin d.name id nd with ⟨home, q, k, args, f, ho, hq, hd', hg⟩ | ⟨home, k, -, y, hy, ht⟩
    · have hpf : PadFreeField f := by
        rcases (typeOrigin_home ho).2 with rfl | ⟨md, hld⟩
        · exact (hp _ hd').2
        · exact (hm _ _ hld _ hd').2
      obtain ⟨e, hs⟩ := lowerDecl_says hq hd' hg hpf h4
      subst e
      exact ⟨home, args, f, ho, hs⟩
    · rw [h2] at hy; cases hy
      exact absurd ht (h3 k)
  · intro name args f hd
    have he := made.elab _ hd
    cases he with
    | @type _ _ _ id x g1 g2 g3 g4 g5 g6 g7 g8 =>
      have hne : ∀ t, x.type ≠ .foreign t := by
        intro t ht
        obtain ⟨ty, -, het⟩ := elabMid_type g6
        rw [ht] at het
        cases het
      obtain ⟨d, h1, h2⟩ := lowerTypes_covers hl name id (IMap.get_mem g1) x g2 hne
      obtain ⟨e, hs⟩ := lowerDecl_says made hd g1 (hp _ hd).2 h2
      exact ⟨d, h1, e, hs⟩

/-- The functions of the prelude return what the prelude says, and no module is foreign. -/
instance textEnv_builtins (modules : List (String × Text)) : Builtins (textEnv modules) where
  prelude := by
    intro n hn sig hs
    simp [textEnv, preludeEnv] at hs
    rcases hs with ⟨hs, rfl⟩ | ⟨hs, rfl⟩ <;> cases hs <;> rfl
  ffi := by
    intro n hn sig hs
    simp [textEnv, preludeEnv] at hs
    simp at hn
    rcases hn with rfl | rfl | rfl | rfl | rfl <;> cases hs <;> rfl

/-- C58 for sources: everything that is required can be computed from the texts. -/
theorem text_code_from_source_partial (modules : List (String × Text)) (src : String) (sch : Schema)
    (hs : specOf modules src = some sch) (hp : noPadText (ascii src) = true)
    (hm : ∀ x ∈ modules, noPadText x.2 = true) :
    ∃ ast, parse (ascii src) = .ok ast ∧
      (∀ d ∈ sch, ∃ home args f, TypeOrigin (modulesOf (textEnv modules)) ast d.name home (.type d.name args f) ∧
        SaysDecl (modulesOf (textEnv modules)) true home (.type d.name args f) d) ∧
      (∀ name args f, .type name args f ∈ ast → ∃ d ∈ sch, d.name = name ∧
        SaysDecl (modulesOf (textEnv modules)) true ast (.type name args f) d) := by
  unfold specOf at hs
  unfold noPadText at hp
  split at hs
  · cases hs
  · rename_i ast hparse
    rw [hparse] at hp
    split at hs
    · cases hs
    · rename_i p h loads hc
      split at hs
      · cases hs
      · rename_i sch' hl
        cases hs
        refine ⟨ast, hparse, code_from_source_partial _ ?_ 3 ast
          (fun d hd => noPadDecl_sound (List.all_eq_true.1 hp d hd)) p h loads hc true 9 sch hl⟩
        intro name a ha d hd
        simp only [textEnv, Except.ok.injEq, Option.map_eq_some_iff] at ha
        obtain ⟨text, h1, h2⟩ := ha
        have h3 := hm _ (IMap.get_mem h1)
        unfold noPadText at h3
        cases hp : parse text with
        | error e => rw [hp] at h2; cases h2
        | ok b =>
          rw [hp] at h2 h3
          cases h2
          exact noPadDecl_sound (List.all_eq_true.1 h3 d hd)

/-! ### Cases

`packetText` of C55 meets the hypotheses too (its guards are in `Verif.Props.EndToEnd`). -/

example : ∃ ast, parse (ascii countedSource) = .ok ast ∧
    (∀ d ∈ countedSchema, ∃ home args f,
      TypeOrigin (modulesOf (textEnv [])) ast d.name home (.type d.name args f) ∧
      SaysDecl (modulesOf (textEnv [])) true home (.type d.name args f) d) ∧
    (∀ name args f, .type name args f ∈ ast → ∃ d ∈ countedSchema, d.name = name ∧
      SaysDecl (modulesOf (textEnv [])) true ast (.type name args f) d) :=
  text_code_from_source_partial [] countedSource countedSchema counted_spec (by decide +kernel) (by simp)

/-- The field `n` of one byte. -/
def byteItem (n : String) (cond : Option Ast.Expression) : Ast.Item :=
  .field n (.mk (.scalar ⟨.u8, .big⟩) [] none cond [])

/-- Two fields in another order are not what the text says. -/
theorem order_is_said (ms : Modules) (oc : Bool) (text : Ast.Program) (n : String) (a b : FAttr) (ta tb : LTy)
    (h : SaysDecl ms oc text (.type n [] (.mk (.container none [] [byteItem "x" none, byteItem "y" none]) [] none none []))
      ⟨n, [], [], .struct none (.leaf a ta (.leaf b tb .nil))⟩) :
    a = plain "x" ∧ b = plain "y" ∧ ta = u8T ∧ tb = u8T := by
  cases h with
  | mk _ _ hb =>
    cases hb with
    | struct _ _ hi =>
      cases hi with
      | leaf ht hc hx ha hi =>
        cases hi with
        | leaf ht' hc' hx' ha' hi' =>
          cases hc; cases hx; cases ha; cases hc'; cases hx'; cases ha'
          cases ht with
          | prim h =>
            cases h
            cases ht' with
            | prim h => cases h; exact ⟨rfl, rfl, rfl, rfl⟩

/-- A condition that the text has is not left out, and it is about the field it names. -/
theorem condition_is_said (ms : Modules) (oc : Bool) (text : Ast.Program) (n : String) (a b : FAttr) (ta tb : LTy)
    (h : SaysDecl ms oc text (.type n []
        (.mk (.container none [] [byteItem "x" none, byteItem "y" (some (.ref "x"))]) [] none none []))
      ⟨n, [], [], .struct none (.leaf a ta (.leaf b tb .nil))⟩) :
    b.cond = some (.fieldRef "x") ∨ ∃ src k, b.cond = some (.cast src (.fieldRef "x") k) := by
  cases h with
  | mk _ _ hb =>
    cases hb with
    | struct _ _ hi =>
      cases hi with
      | leaf _ _ _ _ hi =>
        cases hi with
        | leaf _ hc _ _ _ =>
          cases hc with
          | some he =>
            cases he with
            | exact he =>
              cases he with
              | field _ => exact .inl rfl
              | param hn _ => cases hn
              | const hn _ _ _ => cases hn
            | widened he =>
              cases he with
              | field _ => exact .inr ⟨_, _, rfl⟩
              | param hn _ => cases hn
              | const hn _ _ _ => cases hn
            | represented he =>
              cases he with
              | field _ => exact .inr ⟨_, _, rfl⟩
              | param hn _ => cases hn
              | const hn _ _ _ => cases hn

/-- The size that `len` of a field has is that of the field's own type, found by following names. -/
theorem length_is_said (ms : Modules) (text : Ast.Program) (V : InView) (n m : String) (size : Option Nat) (τ : Verif.Written)
    (args : List Ast.Expression) (home : Ast.Program) (k : String) (flags : List String) (xs : List Ast.Transform)
    (honly : ∀ h' d, TypeOrigin ms text m h' d → h' = home ∧ d = .type k [] (.mk .f64 flags none none xs))
    (hn : nearest n V.fields = some (.ref m args))
    (h : SaysC ms text V (.call "len" [.ref n]) (.len size (.fieldRef n)) τ) : size = some 8 := by
  generalize hc : Ast.Expression.call "len" [.ref n] = e at h
  cases h with
  | len h1 h2 =>
    injection hc with _ hc
    injection hc with hc
    subst hc
    cases h1 with
    | exact h1 =>
      cases h1 with
      | field h1 =>
        rw [hn] at h1
        cases h1
        cases h2 with
        | known h2 =>
          cases h2 with
          | itself h => exact absurd rfl (h m args)
          | declared ho _ => cases (honly _ _ ho).2; rfl
          | alias ho _ => cases (honly _ _ ho).2
          | foreign ho => cases (honly _ _ ho).2

/-- A cast of a field of an enum type converts an enum. -/
theorem cast_is_said (ms : Modules) (text : Ast.Program) (V : InView) (n : String) (src : CastSrc) (τ : Verif.Written)
    (s : EScalar) (k : CastTy) (rep : EScalar) (items : List Ast.EnumItem)
    (hn : nearest n V.fields = some (.enum rep items))
    (h : SaysC ms text V (.cast (.ref n) (.scalar s)) (.cast src (.fieldRef n) k) τ) : src = .enum_ ∧ k = .scalar s.scalar := by
  cases h with
  | cast h1 h2 =>
    cases h1 with
    | exact h1 =>
      cases h1 with
      | field h1 =>
        rw [hn] at h1
        cases h1
        cases h2 with
        | known h2 =>
          cases h2 with
          | itself h => exact ⟨rfl, rfl⟩

end Verif.Props
