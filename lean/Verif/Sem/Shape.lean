import Verif.Sem.Elab
import Verif.Sem.Dups
/-!
# Where definitions may stand
-/
namespace Verif.Sem
open Verif

/-! ## Specification -/

/-- Where a type is written. -/
inductive Place
  /-- the right-hand side of a type declaration -/
  | body
  /-- the type of a field or of a type argument -/
  | inside
  /-- an array's element -/
  | element
  /-- a cast or a constant -/
  | mention
  deriving DecidableEq, Repr

/-- Containers may be written as bodies, fields and type arguments. -/
def Place.takesContainer : Place → Prop
  | .body | .inside => True
  | .element | .mention => False

/-- A field has a condition. -/
def conditional : Ast.Field → Prop
  | .mk _ _ _ cond _ => cond ≠ none

/-- The alternatives of a tagged enum: no paddings, and nothing after one without a condition. -/
def ArmItems : List Ast.Item → Prop
  | [] => True
  | .pad _ :: _ => False
  | .field _ f :: rest => (conditional f ∨ rest = []) ∧ ArmItems rest

/-- The default variant of an enum comes last. -/
def DefaultLast : List Ast.EnumItem → Prop
  | [] => True
  | .mk _ .default :: rest => rest = []
  | _ :: rest => DefaultLast rest

mutual
/-- Inside an expression (type arguments and casts have types in them). -/
def PlacedE : Ast.Expression → Prop
  | .binary _ l r => PlacedE l ∧ PlacedE r
  | .unary _ e => PlacedE e
  | .cast e ty => PlacedE e ∧ PlacedTy .mention ty
  | .index a i => PlacedE a ∧ PlacedE i
  | .ternary c t f => PlacedE c ∧ PlacedE t ∧ PlacedE f
  | .call _ args => PlacedEs args
  | .member e _ => PlacedE e
  | .enumAccess .. | .int .. | .ref _ | .str _ | .bool _ => True
def PlacedEs : List Ast.Expression → Prop
  | [] => True
  | e :: es => PlacedE e ∧ PlacedEs es
def PlacedOpt : Option Ast.Expression → Prop
  | none => True
  | some e => PlacedE e
/-- Everything in the type stands where it may, if the type stands at the place. -/
def PlacedTy : Place → Ast.Ty → Prop
  | pl, .container len flags items =>
      pl.takesContainer ∧ PlacedOpt len ∧ (∀ f ∈ flags, f = "tagged_enum") ∧
      ("tagged_enum" ∈ flags → pl = .body ∧ ArmItems items) ∧ PlacedItems items
  | pl, .enum _ items => pl = .body ∧ DefaultLast items ∧ PlacedVariants items
  | pl, .bitfield _ items => pl = .body ∧ PlacedFlags items
  | _, .array el _ len => PlacedTy .element el ∧ PlacedOpt len
  | _, .ref _ args => PlacedEs args
  | _, .scalar _ | _, .f32 | _, .f64 | _, .bool => True
def PlacedVariants : List Ast.EnumItem → Prop
  | [] => True
  | .mk _ (.expr e) :: rest => PlacedE e ∧ PlacedVariants rest
  | .mk _ .default :: rest => PlacedVariants rest
  | .mk _ .none :: rest => PlacedVariants rest
def PlacedFlags : List Ast.BitItem → Prop
  | [] => True
  | .mk _ v :: rest => PlacedOpt v ∧ PlacedFlags rest
def PlacedItems : List Ast.Item → Prop
  | [] => True
  | .field _ f :: rest => PlacedField .inside f ∧ PlacedItems rest
  | .pad e :: rest => PlacedE e ∧ PlacedItems rest
def PlacedField : Place → Ast.Field → Prop
  | pl, .mk type flags cal cond xs =>
      flags = [] ∧ PlacedTy pl type ∧ PlacedOpt cal ∧ PlacedOpt cond ∧ PlacedXforms xs
def PlacedXforms : List Ast.Transform → Prop
  | [] => True
  | .mk _ args cond :: rest => PlacedEs args ∧ PlacedOpt cond ∧ PlacedXforms rest
end

/-- Everything in a declaration stands where it may. -/
def PlacedDecl : Ast.Decl → Prop
  | .type _ args f => (∀ a ∈ args, PlacedTy .inside a.type ∧ PlacedOpt a.default) ∧ PlacedField .body f
  | .const _ ty v => PlacedTy .mention ty ∧ PlacedE v
  | .import_ _ _ | .ffi _ _ => True

/-! ## What is accepted stands where it may -/

/-- What the purpose of a type says about its place. -/
def placeOf : Purpose → Place
  | .typeDefinition _ => .body
  | .fieldInterior | .expression => .inside
  | .arrayInterior => .element
  | .constDefinition => .inside

theorem containerFlags_valid : ∀ {fl : List String} {b r : Bool} {s s' : St},
    containerFlags fl b s = .ok (r, s') → ∀ f ∈ fl, f = "tagged_enum"
  | [], _, _, _, _, _ => by simp
  | f :: fs, b, r, s, s', h => by
    rw [containerFlags] at h
    split at h
    · rename_i hf
      intro g hg
      rcases List.mem_cons.1 hg with rfl | hg
      · exact hf
      · exact containerFlags_valid h g hg
    · exact (fail_ok.1 h).elim

/-- A type that defines nothing may stand anywhere. -/
theorem placed_inlinable {ty : Ast.Ty} {a b : Place} (hi : inlinable ty = true)
    (h : PlacedTy a ty) : PlacedTy b ty := by
  cases ty <;> first | (cases hi; done) | (simp only [PlacedTy] at h ⊢; exact h) | (simp only [PlacedTy])

theorem convVariants_last {env : Env} {p : Prog} {sc : Scope} {rep : EScalar} :
    ∀ (items : List Ast.EnumItem) {done out : List AVariant} {acc : RepAcc} {d : Bool} {s s' : St},
      convVariants env p sc rep items done acc d s = .ok (out, s') →
      (d = true → items = []) ∧ DefaultLast items
  | [], done, out, acc, d, s, s', h => ⟨fun _ => rfl, trivial⟩
  | .mk name .default :: rest, done, out, acc, d, s, s', h => by
    rw [convVariants] at h
    simp only [bind_run_ok] at h
    obtain ⟨u, s1, h1, h2⟩ := h
    obtain ⟨-, hd, -⟩ := checkVariant_ok h1
    obtain ⟨a, b⟩ := convVariants_last rest h2
    exact ⟨fun h => by simp [hd] at h, a rfl⟩
  | .mk name (.expr e) :: rest, done, out, acc, d, s, s', h => by
    rw [convVariants] at h
    simp only [bind_run_ok] at h
    obtain ⟨u, s1, h1, v, s2, -, h2⟩ := h
    obtain ⟨-, hd, -⟩ := checkVariant_ok h1
    obtain ⟨a, b⟩ := convVariants_last rest h2
    exact ⟨fun h => by simp [hd] at h, b⟩
  | .mk name .none :: rest, done, out, acc, d, s, s', h => by
    rw [convVariants] at h
    simp only [bind_run_ok] at h
    obtain ⟨u, s1, h1, v, s2, -, h2⟩ := h
    obtain ⟨-, hd, -⟩ := checkVariant_ok h1
    obtain ⟨a, b⟩ := convVariants_last rest h2
    exact ⟨fun h => by simp [hd] at h, b⟩

theorem convMid_conditional {env : Env} {p : Prog} {sc : Scope} {f : Ast.Field} {pu : Purpose}
    {id : FId} {s s' : St} {b : Bool} (h : convMid env p sc f pu id s = .ok (b, s')) :
    b = true ↔ conditional f := by
  cases f with
  | mk type flags cal cond xs =>
    rw [convMid] at h
    simp only [bind_run_ok, pure_run_ok] at h
    obtain ⟨t, s1, h1, c, s2, h2, xs', s3, h3, u, s4, h4, u', s5, h5, rfl, rfl⟩ := h
    cases cond with
    | none =>
      rw [convOpt, pure_run_ok] at h2
      rw [← h2.1]; simp [conditional]
    | some e =>
      rw [convOpt] at h2
      simp only [bind_run_ok, pure_run_ok] at h2
      obtain ⟨x, _, _, rfl, _⟩ := h2
      simp [conditional]

theorem convItems_arms {env : Env} {p : Prog} {sc : Scope} :
    ∀ (items : List Ast.Item) {acc out : ItemAcc} {s s' : St},
      convItems env p sc true items acc s = .ok (out, s') →
      (acc.hadUnconditional = true → items = []) ∧ ArmItems items
  | [], acc, out, s, s', h => ⟨fun _ => rfl, trivial⟩
  | .field name f :: rest, acc, out, s, s', h => by
    rw [convItems] at h
    simp only [bind_run_ok, check_ok] at h
    obtain ⟨u, s1, ⟨hn, rfl⟩, id, s2, -, b, s3, h3, acc', s4, h4, h5⟩ := h
    obtain ⟨rfl, rfl, hu⟩ := addField_ok h4
    obtain ⟨a, c⟩ := convItems_arms rest h5
    simp only [Bool.and_true] at hu
    refine ⟨fun h => by simp [hu] at h, ?_, c⟩
    have hb := convMid_conditional h3
    cases b with
    | true => exact .inl (hb.1 rfl)
    | false => exact .inr (a (by simp))
  | .pad e :: rest, acc, out, s, s', h => by
    rw [convItems] at h
    simp only [bind_run_ok, check_ok] at h
    obtain ⟨u, s1, ⟨hn, rfl⟩, _⟩ := h
    simp at hn

mutual
theorem convE_placed (env : Env) (p : Prog) :
    ∀ (e : Ast.Expression) (sc : Scope) (P : PType) (s : St) (e' : AExpr) (s' : St),
      convE env p sc e P s = .ok (e', s') → PlacedE e
  | .binary op l r, sc, P, s, e', s', h => by
    have il := convE_placed env p l
    have ir := convE_placed env p r
    rw [convE] at h
    simp only [bind_run_ok] at h
    obtain ⟨u, s1, -, ⟨l', r'⟩, s2, h2, h3⟩ := h
    obtain ⟨⟨_, _, _, hl⟩, ⟨_, _, _, hr⟩⟩ := convOperands_from h2
    rw [PlacedE]
    exact ⟨il _ _ _ _ _ hl, ir _ _ _ _ _ hr⟩
  | .unary op e, sc, P, s, e', s', h => by
    have ie := convE_placed env p e
    rw [convE] at h
    simp only [bind_run_ok, peek_ok] at h
    obtain ⟨i, s1, -, u, s3, -, i2, s4, h3, h4⟩ := h
    rw [PlacedE]
    exact ie _ _ _ _ _ h3
  | .cast e ty, sc, P, s, e', s', h => by
    have ie := convE_placed env p e
    have it := convTy_placed env p ty
    rw [convE] at h
    simp only [bind_run_ok, check_ok] at h
    obtain ⟨u, s1, ⟨hi, rfl⟩, t, s2, h2, x, s3, h3, u', s4, -, h5⟩ := h
    rw [PlacedE]
    exact ⟨ie _ _ _ _ _ h3, placed_inlinable hi (it _ _ _ _ _ h2)⟩
  | .index a i, sc, P, s, e', s', h => by
    have ia := convE_placed env p a
    have ii := convE_placed env p i
    rw [convE] at h
    simp only [bind_run_ok] at h
    obtain ⟨x, s1, h1, y, s2, h2, h3⟩ := h
    rw [PlacedE]
    exact ⟨ia _ _ _ _ _ h1, ii _ _ _ _ _ h2⟩
  | .enumAccess n v, sc, P, s, e', s', h => by rw [PlacedE]; trivial
  | .int v t, sc, P, s, e', s', h => by rw [PlacedE]; trivial
  | .ref n, sc, P, s, e', s', h => by rw [PlacedE]; trivial
  | .str c, sc, P, s, e', s', h => by rw [PlacedE]; trivial
  | .bool b, sc, P, s, e', s', h => by rw [PlacedE]; trivial
  | .ternary c t f, sc, P, s, e', s', h => by
    have ic := convE_placed env p c
    have it := convE_placed env p t
    have if' := convE_placed env p f
    rw [convE] at h
    simp only [bind_run_ok] at h
    obtain ⟨x, s1, h1, y, s2, h2, R, s3, -, z, s4, h4, h5⟩ := h
    rw [PlacedE]
    exact ⟨ic _ _ _ _ _ h1, it _ _ _ _ _ h2, if' _ _ _ _ _ h4⟩
  | .call fn args, sc, P, s, e', s', h => by
    have ia := convArgs_placed env p args
    rw [convE] at h
    simp only [bind_run_ok, lookup_ok] at h
    obtain ⟨sig, s1, ⟨h1, rfl⟩, u, s2, h2, xs, s3, h3, h4⟩ := h
    obtain ⟨-, hle, rfl⟩ := checkFfiCount_ok h2
    rw [PlacedE]
    exact ia _ _ _ _ _ (by simpa using hle) h3
  | .member t m, sc, P, s, e', s', h => by
    have it := convE_placed env p t
    rw [convE] at h
    simp only [bind_run_ok] at h
    obtain ⟨x, s1, h1, y, s2, h2, h3⟩ := h
    rw [PlacedE]
    exact it _ _ _ _ _ h1
theorem convArgs_placed (env : Env) (p : Prog) :
    ∀ (es : List Ast.Expression) (sc : Scope) (ts : List (Option AType)) (s : St)
      (es' : List AExpr) (s' : St), es.length ≤ ts.length →
      convArgs env p sc es ts s = .ok (es', s') → PlacedEs es
  | [], sc, ts, s, es', s', hl, h => by rw [PlacedEs]; trivial
  | e :: es, sc, [], s, es', s', hl, h => by simp at hl
  | e :: es, sc, t :: ts, s, es', s', hl, h => by
    have ie := convE_placed env p e
    have is := convArgs_placed env p es
    rw [convArgs] at h
    simp only [bind_run_ok, pure_run_ok] at h
    obtain ⟨P, s1, -, x, s2, h2, xs, s3, h3, rfl, rfl⟩ := h
    rw [PlacedEs]
    exact ⟨ie _ _ _ _ _ h2, is _ _ _ _ _ (by simpa using hl) h3⟩
theorem convOpt_placed (env : Env) (p : Prog) :
    ∀ (o : Option Ast.Expression) (sc : Scope) (P : PType) (s : St) (o' : Option AExpr) (s' : St),
      convOpt env p sc o P s = .ok (o', s') → PlacedOpt o
  | none, sc, P, s, o', s', h => by rw [PlacedOpt]; trivial
  | some e, sc, P, s, o', s', h => by
    have ie := convE_placed env p e
    rw [convOpt] at h
    simp only [bind_run_ok, pure_run_ok] at h
    obtain ⟨x, s1, h1, rfl, rfl⟩ := h
    rw [PlacedOpt]
    exact ie _ _ _ _ _ h1
theorem convTy_placed (env : Env) (p : Prog) :
    ∀ (ty : Ast.Ty) (sc : Scope) (pu : Purpose) (s : St) (t : AType) (s' : St),
      convTy env p sc ty pu s = .ok (t, s') → PlacedTy (placeOf pu) ty
  | .container len fl items, sc, pu, s, t, s', h => by
    have il := convOpt_placed env p len
    have ii := convItems_placed env p items
    rw [convTy] at h
    simp only [bind_run_ok, check_ok, pure_run_ok, fresh_ok] at h
    obtain ⟨_, _, ⟨hp, rfl⟩, len', s1, h1, isEnum, s2, h2, _, _, ⟨he, rfl⟩, acc, s3, h3, _, s4, h4,
      tag, s5, ⟨rfl, rfl⟩, rfl, rfl⟩ := h
    obtain ⟨rfl, hfl⟩ := containerFlags_elab h2
    obtain ⟨hi, hids⟩ := ii _ _ _ _ _ _ h3
    rw [PlacedTy]
    refine ⟨?_, il _ _ _ _ _ h1, containerFlags_valid h2, ?_, ?_⟩
    · cases pu <;> simp [placeOf, Place.takesContainer] at hp ⊢
    · intro hm
      have : isEnum = true := hfl.2 (.inr hm)
      subst this
      refine ⟨?_, (convItems_arms items h3).2⟩
      cases pu <;> simp [Purpose.isDefinition, placeOf] at he ⊢
    · exact hi _ _ _ h4 (by simpa using hids)
  | .enum rep items, sc, pu, s, t, s', h => by
    have ii := convVariants_placed env p items
    rw [convTy] at h
    simp only [bind_run_ok] at h
    obtain ⟨n, s1, h0, out, _, h1, _⟩ := h
    rw [PlacedTy]
    refine ⟨?_, (convVariants_last items h1).2, ii _ _ _ _ _ _ _ h1⟩
    cases pu <;> first | rfl | cases h0
  | .bitfield rep items, sc, pu, s, t, s', h => by
    have ii := convFlags_placed env p items
    rw [convTy] at h
    simp only [bind_run_ok] at h
    obtain ⟨n, s1, h0, out, _, h1, _⟩ := h
    rw [PlacedTy]
    refine ⟨?_, ii _ _ _ _ _ _ h1⟩
    cases pu <;> first | rfl | cases h0
  | .array el x len, sc, pu, s, t, s', h => by
    have il := convOpt_placed env p len
    have hel := convTy_placed env p el
    rw [convTy] at h
    simp only [bind_run_ok] at h
    obtain ⟨_, _, h0, el', _, h1, _⟩ := h
    rw [PlacedTy]
    exact ⟨hel _ _ _ _ _ h1, il _ _ _ _ _ h0⟩
  | .ref n args, sc, pu, s, t, s', h => by
    have ia := convArgs_placed env p args
    rw [convTy] at h
    simp only [bind_run_ok, lookup_ok] at h
    obtain ⟨f, s1, ⟨h1, rfl⟩, x, s2, h2, u, s3, h3, as, s4, h4, h5⟩ := h
    obtain ⟨-, hle, rfl⟩ := checkTypeCount_ok h3
    rw [PlacedTy]
    exact ia _ _ _ _ _ (by simpa using hle) h4
  | .scalar _, _, _, _, _, _, _ => by rw [PlacedTy]; trivial
  | .f32, _, _, _, _, _, _ => by rw [PlacedTy]; trivial
  | .f64, _, _, _, _, _, _ => by rw [PlacedTy]; trivial
  | .bool, _, _, _, _, _, _ => by rw [PlacedTy]; trivial
theorem convVariants_placed (env : Env) (p : Prog) :
    ∀ (items : List Ast.EnumItem) (sc : Scope) (rep : EScalar) (done : List AVariant)
      (acc : RepAcc) (d : Bool) (s s' : St) {out : List AVariant},
      convVariants env p sc rep items done acc d s = .ok (out, s') → PlacedVariants items
  | [], sc, rep, done, acc, d, s, s', out, h => by rw [PlacedVariants]; trivial
  | .mk name .default :: rest, sc, rep, done, acc, d, s, s', out, h => by
    rw [convVariants] at h
    simp only [bind_run_ok] at h
    obtain ⟨u, s1, h1, h2⟩ := h
    rw [PlacedVariants]
    exact convVariants_placed env p rest _ _ _ _ _ _ _ h2
  | .mk name (.expr e) :: rest, sc, rep, done, acc, d, s, s', out, h => by
    have ie := convE_placed env p e
    rw [convVariants] at h
    simp only [bind_run_ok] at h
    obtain ⟨u, s1, h1, v, s2, hv, h2⟩ := h
    rw [PlacedVariants]
    exact ⟨ie _ _ _ _ _ hv, convVariants_placed env p rest _ _ _ _ _ _ _ h2⟩
  | .mk name .none :: rest, sc, rep, done, acc, d, s, s', out, h => by
    rw [convVariants] at h
    simp only [bind_run_ok] at h
    obtain ⟨u, s1, h1, v, s2, -, h2⟩ := h
    rw [PlacedVariants]
    exact convVariants_placed env p rest _ _ _ _ _ _ _ h2
theorem convFlags_placed (env : Env) (p : Prog) :
    ∀ (items : List Ast.BitItem) (sc : Scope) (rep : EScalar) (done : List AConst)
      (acc : RepAcc) (s s' : St) {out : List AConst},
      convFlags env p sc rep items done acc s = .ok (out, s') → PlacedFlags items
  | [], sc, rep, done, acc, s, s', out, h => by rw [PlacedFlags]; trivial
  | .mk name (some e) :: rest, sc, rep, done, acc, s, s', out, h => by
    have ie := convE_placed env p e
    rw [convFlags] at h
    simp only [bind_run_ok] at h
    obtain ⟨u, s1, h1, v, s2, hv, h2⟩ := h
    rw [PlacedFlags, PlacedOpt]
    exact ⟨ie _ _ _ _ _ hv, convFlags_placed env p rest _ _ _ _ _ _ h2⟩
  | .mk name none :: rest, sc, rep, done, acc, s, s', out, h => by
    rw [convFlags] at h
    simp only [bind_run_ok] at h
    obtain ⟨u, s1, h1, v, s2, -, h2⟩ := h
    rw [PlacedFlags, PlacedOpt]
    exact ⟨trivial, convFlags_placed env p rest _ _ _ _ _ _ h2⟩
/-- The items are placed once the calculated values are converted too. -/
theorem convItems_placed (env : Env) (p : Prog) :
    ∀ (items : List Ast.Item) (sc : Scope) (isEnum : Bool) (acc : ItemAcc) (s : St) (out : ItemAcc)
      (s' : St), convItems env p sc isEnum items acc s = .ok (out, s') →
      (∀ (sc' : Scope) (t t' : St) {ids : List FId} {u : Unit},
        convEnds env p sc' items ids t = .ok (u, t') →
        ids.length = (fieldNames items).length → PlacedItems items) ∧
      out.pending.length = acc.pending.length + (fieldNames items).length
  | [], sc, isEnum, acc, s, out, s', h => by
    rw [convItems, pure_run_ok] at h
    refine ⟨fun _ _ _ _ _ _ _ => by rw [PlacedItems]; trivial, by rw [← h.1]; simp [fieldNames]⟩
  | .field name f :: rest, sc, isEnum, acc, s, out, s', h => by
    have hf := convMid_placed env p f
    have hr := convItems_placed env p rest
    have he := convEnd_placed env p f
    rw [convItems] at h
    simp only [bind_run_ok, check_ok] at h
    obtain ⟨u, s1, ⟨hn, rfl⟩, id, s2, -, b, s3, h3, acc', s4, h4, h5⟩ := h
    obtain ⟨rfl, rfl, -⟩ := addField_ok h4
    obtain ⟨a, c⟩ := hr _ _ _ _ _ _ h5
    constructor
    · intro sc' t t' ids u hc hl
      cases ids with
      | nil => simp [fieldNames] at hl
      | cons id ids =>
        rw [convEnds] at hc
        simp only [bind_run_ok] at hc
        obtain ⟨u1, t1, hc1, hc2⟩ := hc
        rw [PlacedItems]
        exact ⟨hf _ _ _ _ _ _ h3 (he _ _ _ hc1),
          a _ _ _ hc2 (by simpa [fieldNames] using hl)⟩
    · rw [c]; simp [fieldNames]; omega
  | .pad e :: rest, sc, isEnum, acc, s, out, s', h => by
    have ie := convE_placed env p e
    have hr := convItems_placed env p rest
    rw [convItems] at h
    simp only [bind_run_ok] at h
    obtain ⟨_, _, _, _, _, h3, _, _, _, _, _, _, h5⟩ := h
    obtain ⟨a, c⟩ := hr _ _ _ _ _ _ h5
    constructor
    · intro sc' t t' ids u hc hl
      rw [convEnds] at hc
      rw [PlacedItems]
      exact ⟨ie _ _ _ _ _ h3, a _ _ _ hc (by simpa [fieldNames] using hl)⟩
    · rw [c]; simp [fieldNames]
theorem convMid_placed (env : Env) (p : Prog) :
    ∀ (f : Ast.Field) (sc : Scope) (pu : Purpose) (id : FId) (s : St) (b : Bool) (s' : St),
      convMid env p sc f pu id s = .ok (b, s') → (∀ cal, (match f with
        | .mk _ _ c _ _ => c = cal) → PlacedOpt cal) → PlacedField (placeOf pu) f
  | .mk type flags cal cond xs, sc, pu, id, s, b, s', h, hc => by
    have ht := convTy_placed env p type
    have ho := convOpt_placed env p cond
    have hx := convXforms_placed env p xs
    rw [convMid] at h
    simp only [bind_run_ok] at h
    obtain ⟨t, s1, h1, c, s2, h2, xs', s3, h3, u, s4, h4, _⟩ := h
    rw [PlacedField]
    exact ⟨(fieldFlags_elab h4).1, ht _ _ _ _ _ h1, hc _ rfl, ho _ _ _ _ _ h2, hx _ _ _ h3⟩
theorem convXforms_placed (env : Env) (p : Prog) :
    ∀ (xs : List Ast.Transform) (sc : Scope) (s s' : St) {out : List AXform},
      convXforms env p sc xs s = .ok (out, s') → PlacedXforms xs
  | [], sc, s, s', out, h => by rw [PlacedXforms]; trivial
  | .mk name args cond :: rest, sc, s, s', out, h => by
    have ia := convArgs_placed env p args
    have ho := convOpt_placed env p cond
    have hr := convXforms_placed env p rest
    rw [convXforms] at h
    simp only [bind_run_ok, lookup_ok] at h
    obtain ⟨ps, s1, ⟨h1, rfl⟩, u, s2, h2, as, s3, h3, c, s4, h4, r, s5, h5, _⟩ := h
    obtain ⟨-, hle, rfl⟩ := checkFfiCount_ok h2
    rw [PlacedXforms]
    exact ⟨ia _ _ _ _ _ (by simpa using hle) h3, ho _ _ _ _ _ h4, hr _ _ _ h5⟩
theorem convEnd_placed (env : Env) (p : Prog) :
    ∀ (f : Ast.Field) (sc : Scope) (s s' : St) {id : FId} {u : Unit},
      convEnd env p sc f id s = .ok (u, s') →
      (∀ cal, (match f with | .mk _ _ c _ _ => c = cal) → PlacedOpt cal)
  | .mk _ _ none _ _, sc, s, s', id, u, h => by rintro _ rfl; rw [PlacedOpt]; trivial
  | .mk _ _ (some e) _ _, sc, s, s', id, u, h => by
    have ie := convE_placed env p e
    rw [convEnd] at h
    simp only [bind_run_ok] at h
    obtain ⟨P, s1, -, x, s2, h2, _⟩ := h
    rintro _ rfl
    rw [PlacedOpt]
    exact ie _ _ _ _ _ h2
end

end Verif.Sem
