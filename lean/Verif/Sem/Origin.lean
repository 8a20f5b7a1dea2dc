import Verif.Sem.History
import Verif.Says
/-!
# Where the names of a converted module come from, in terms of the texts
-/
namespace Verif.Sem
open Verif

/-- The texts the resolver gives. -/
def modulesOf (env : Env) : Modules := fun src =>
  match env.normalize src with
  | .ok name =>
    match env.load name with
    | .ok (some (some text)) => some text
    | _ => none
  | .error _ => none

theorem modulesOf_some {env : Env} {src : Text} {name : String} {text : Ast.Program} (h1 : env.normalize src = .ok name)
    (h2 : env.load name = .ok (some (some text))) : modulesOf env src = some text := by
  unfold modulesOf
  rw [h1]
  simp only [h2]

/-- What a module calls a type is declared in a text, or foreign. -/
theorem Made.typeOrigin {env : Env} {h : Heap} {ast : Ast.Program} {p : Prog} (hc : Made env h ast p) :
    ∀ (n : String) (id : FId), IMap.get p.types n = some id →
      (∃ home q m args f, TypeOrigin (modulesOf env) ast n home (.type m args f) ∧ Made env h home q ∧
        .type m args f ∈ home ∧ IMap.get q.types m = some id) ∨
      (∃ home m, TypeOrigin (modulesOf env) ast n home (.ffi m .type) ∧
        ∃ x : AField, h[id]? = some x ∧ x.type = .foreign m) := by
  induction hc with
  | @mk mods texts ast p s s' h1 h2 h3 h4 ih =>
    intro n id hg
    by_cases hd : ∃ args f, .type n args f ∈ ast
    · obtain ⟨args, f, hd⟩ := hd
      exact .inl ⟨_, _, n, args, f, .here hd, .mk h1 h2 h3 h4, hd, hg⟩
    · have hd : ∀ args f, .type n args f ∉ ast := fun args f hm => hd ⟨args, f, hm⟩
      rcases (fromAstImported_origin h3).2 n id (IMap.get_mem hg) with ⟨hf, x, hx, ht⟩ | ⟨x, hx, k, hi, hk⟩ | ⟨args, f, hm, _⟩
      · right
        obtain ⟨y, hy, hxy⟩ := h4 id x hx
        refine ⟨ast, n, .ffi hd hf, y, hy, ?_⟩
        unfold Flagged at hxy
        rw [hxy]; exact ht
      · obtain ⟨items, src, hm, hno, i, hi, hin, rfl⟩ := hi
        have hms := modulesOf_some hno (h1 x hx)
        rcases ih x hx i.name id hk with ⟨home, q, m, args, f, ho, hr⟩ | ⟨home, m, ho, hr⟩
        · exact .inl ⟨home, q, m, args, f, .imported hd hm hi hin hms ho, hr⟩
        · exact .inr ⟨home, m, .imported hd hm hi hin hms ho, hr⟩
      · exact absurd hm (hd args f)

/-- What a module calls a constant is declared in a text. -/
theorem Made.constOrigin {env : Env} {h : Heap} {ast : Ast.Program} {p : Prog} (hc : Made env h ast p) :
    ∀ (n : String) (c : AConst), IMap.get p.consts n = some c →
      ∃ home q m ty v, ConstOrigin (modulesOf env) ast n home m ty v ∧ Made env h home q ∧
        .const m ty v ∈ home ∧ IMap.get q.consts m = some c := by
  induction hc with
  | @mk mods texts ast p s s' h1 h2 h3 h4 ih =>
    intro n c hg
    by_cases hd : ∃ ty v, .const n ty v ∈ ast
    · obtain ⟨ty, v, hd⟩ := hd
      exact ⟨_, _, n, ty, v, .here hd, .mk h1 h2 h3 h4, hd, hg⟩
    · have hd : ∀ ty v, .const n ty v ∉ ast := fun args f hm => hd ⟨args, f, hm⟩
      rcases fromAstImported_consts h3 n c (IMap.get_mem hg) with ⟨x, hx, k, hi, hk⟩ | ⟨ty, v, hm⟩
      · obtain ⟨items, src, hm, hno, i, hi, hin, rfl⟩ := hi
        have hms := modulesOf_some hno (h1 x hx)
        obtain ⟨home, q, m, ty, v, ho, hr⟩ := ih x hx i.name c hk
        exact ⟨home, q, m, ty, v, .imported hd hm hi hin hms ho, hr⟩
      · exact absurd hm (hd ty v)

end Verif.Sem
