import Verif.Defaulted
import Verif.Readers
/-!
# Which types a type calls

The calls of other types' functions in the emitted code, and in the specification.
-/
namespace Verif

/-- The declared types whose functions are called for a type. An array of scalars, enums or bitfields is read at once unless it has a
terminator (`coder/decode/field.rs` 26-52); this includes arrays of a type that is another name for such a type. -/
def LTy.calls : LTy → List String
  | .prim _ => []
  | .ref n foreign _ _ => if foreign then [] else [n]
  | .array el len =>
    match len with
    | .term _ => el.calls
    | _ => match el.resolved with | .other => el.calls | _ => []

def Fields.calls : Fields → List String
  | .nil => []
  | .pad _ _ rest => rest.calls
  | .leaf _ ty rest => ty.calls ++ rest.calls
  | .cont _ _ items rest => items.calls ++ rest.calls

def ArmBody.calls : ArmBody → List String
  | .leaf ty => ty.calls
  | .cont _ items => items.calls

/-- The alternatives that are decoded: those behind one without a condition are never looked at. -/
def armsCalls : List Arm → List String
  | [] => []
  | a :: arms => a.body.calls ++ if a.attr.cond.isSome then armsCalls arms else []

/-- The declared types that a declaration mentions, other than as elements of arrays that are read at once. -/
def Decl.mentions (d : Decl) : List String :=
  match d.body with
  | .leaf _ ty => ty.calls
  | .repr _ => []
  | .struct _ items => items.calls
  | .tagged _ arms => arms.flatMap (·.body.calls)

/-- The declared types whose decoders are called. -/
def Decl.calls (d : Decl) : List String :=
  match d.body with
  | .leaf _ ty => ty.calls
  | .repr _ => []
  | .struct _ items => items.calls
  | .tagged _ arms => armsCalls arms

namespace Dec

theorem mem_callees (A : Api) (n : String) : ∀ (p : Prog) (ρ : Vars), n ∈ p.callees ↔ ∃ r, (Ask.call n, r) ∈ asked A p ρ
  | .nil, ρ => by simp [Prog.callees, asked]
  | .op i rest, ρ => by
    have ih := mem_callees A n rest (afterOp A ρ i)
    cases i with
    | ref src out m args =>
      show n ∈ m :: rest.callees ↔ ∃ r, (Ask.call n, r) ∈ (.call m, ρ src) :: asked A rest _
      rw [List.mem_cons, ih]
      constructor
      · rintro (rfl | ⟨r, h⟩)
        · exact ⟨_, List.mem_cons_self⟩
        · exact ⟨r, List.mem_cons_of_mem _ h⟩
      · rintro ⟨r, h⟩
        rcases List.mem_cons.mp h with h | h
        · cases h; exact .inl rfl
        · exact .inr ⟨r, h⟩
    | _ => simp_all [Prog.callees, asked, askedOp]
  | .loop src len term out inner rest, ρ => by
    have ih := mem_callees A n rest (leave ρ (after A inner ρ))
    have ih2 := mem_callees A n inner
    cases len with
    | some l =>
      simp only [Prog.callees, asked, List.mem_append, ih, ih2 ρ, exists_or]
    | none =>
      cases term with
      | some t => simp [Prog.callees, asked, List.mem_append, ih, ih2 ρ, exists_or]
      | none => simp [Prog.callees, asked, List.mem_append, ih, ih2 (upd ρ src (some .cursor)), exists_or]
  | .cond _ _ inner rest, ρ => by
    simp only [Prog.callees, asked, List.mem_append, mem_callees A n inner ρ, mem_callees A n rest (leave ρ (after A inner ρ)), exists_or]
  | .condPred _ inner rest, ρ => by
    simp only [Prog.callees, asked, List.mem_append, mem_callees A n inner ρ,
      mem_callees A n rest (if returns inner then ρ else leave ρ (after A inner ρ)), exists_or]
  | .condWrap _ prelude src new xf _ rest, ρ => by
    simp [Prog.callees, asked, List.mem_append, mem_callees A n prelude ρ,
      mem_callees A n rest (upd (upd (leave ρ (after A prelude ρ)) src (A.left xf (ρ src))) (.stream new) (some .dyn)), exists_or]

theorem wantsLeaf_callsOf (n : String) : ∀ (ty : LTy) (r : Option Rd), (∃ q, (Ask.call n, q) ∈ wantsLeaf r ty) ↔ n ∈ ty.calls
  | .prim _, r => by simp [wantsLeaf, LTy.calls]
  | .ref m foreign _ args, r => by
    cases foreign <;> simp [wantsLeaf, LTy.calls]
  | .array el len, r => by
    cases len with
    | term t => simp [wantsLeaf, LTy.calls, wantsLeaf_callsOf n el r]
    | fixed e =>
      simp only [wantsLeaf, LTy.calls]
      cases el.resolved with
      | other => exact wantsLeaf_callsOf n el r
      | _ => simp
    | unbounded =>
      simp only [wantsLeaf, LTy.calls]
      cases el.resolved with
      | other => simp [wantsLeaf_callsOf n el (some .cursor)]
      | _ => simp

theorem wantsXforms_calls (n : String) : ∀ (xs : List XformUse) (r q : Option Rd), (Ask.call n, q) ∉ wantsXforms r xs
  | [], _, _ => by simp [wantsXforms]
  | x :: xs, r, q => by
    have := wantsXforms_calls n xs (behindOne x r) q
    simp [wantsXforms, this]

theorem wantsLimit_calls (n : String) (r q : Option Rd) (len : Option Expr) : (Ask.call n, q) ∉ wantsLimit r len := by
  cases len <;> simp [wantsLimit]

theorem wantsItems_calls (A : Api) (n : String) : ∀ (fs : Fields) (r : Option Rd),
    (∃ q, (Ask.call n, q) ∈ wantsItems A r fs) ↔ n ∈ fs.calls
  | .nil, r => by simp [wantsItems, Fields.calls]
  | .pad _ _ rest, r => by simp [wantsItems, Fields.calls, wantsItems_calls A n rest r]
  | .leaf a ty rest, r => by
    simp [wantsItems, Fields.calls, wantsXforms_calls, exists_or, wantsLeaf_callsOf, wantsItems_calls A n rest]
  | .cont a len items rest, r => by
    simp only [wantsItems, Fields.calls, List.mem_append, wantsXforms_calls, wantsLimit_calls, exists_or, false_or,
      wantsItems_calls A n items, wantsItems_calls A n rest]

theorem wantsArms_calls (A : Api) (n : String) : ∀ (arms : List Arm) (r : Option Rd),
    (∃ q, (Ask.call n, q) ∈ wantsArms A r arms) ↔ n ∈ armsCalls arms
  | [], r => by simp [wantsArms, armsCalls]
  | arm :: arms, r => by
    have hb : ∀ r, (∃ q, (Ask.call n, q) ∈ wantsArmBody A r arm.body) ↔ n ∈ arm.body.calls := fun r => by
      cases arm.body with
      | leaf ty => exact wantsLeaf_callsOf n ty r
      | cont len items =>
        simp [wantsArmBody, ArmBody.calls, wantsLimit_calls, wantsItems_calls]
    cases hc : arm.attr.cond <;>
    simp [wantsArms, armsCalls, wantsXforms_calls, exists_or, hb, wantsArms_calls A n arms, hc]

/-- The calls in the emitted decoder are those of the specification. -/
theorem genDecl_callees (d : Decl) (n : String) : n ∈ (genDecl d).callees ↔ n ∈ d.calls := by
  let A : Api := ⟨fun _ => ⟨false, false, false, false⟩, fun _ _ => false⟩
  rw [mem_callees A n (genDecl d) atStart, genDecl_asked]
  unfold wants Decl.calls
  cases d.body with
  | leaf c ty => simp [wantsXforms_calls, wantsLeaf_callsOf]
  | repr t => simp [wantsXforms_calls]
  | struct len items => simp [wantsXforms_calls, wantsLimit_calls, wantsItems_calls]
  | tagged len arms => simp [wantsXforms_calls, wantsLimit_calls, wantsArms_calls]

end Dec

namespace Enc

@[simp] theorem callees_append : ∀ (p q : Prog), (p ++ q).callees = p.callees ++ q.callees
  | .nil, q => rfl
  | .op i r, q => by
    have := callees_append r q
    cases i <;> simp_all [Prog.callees, show ∀ i, (Prog.op i r ++ q) = .op i (r ++ q) from fun _ => rfl]
  | .loop x l i r, q => by simp [Prog.callees, callees_append r q, show (Prog.loop x l i r ++ q) = .loop x l i (r ++ q) from rfl]
  | .cond c i r, q => by simp [Prog.callees, callees_append r q, show (Prog.cond c i r ++ q) = .cond c i (r ++ q) from rfl]
  | .condWrap c p u n o x a r, q => by
    simp [Prog.callees, callees_append r q, show (Prog.condWrap c p u n o x a r ++ q) = .condWrap c p u n o x a (r ++ q) from rfl]
  | .block i r, q => by simp [Prog.callees, callees_append r q, show (Prog.block i r ++ q) = .block i (r ++ q) from rfl]

@[simp] theorem genArgs_callees : ∀ (es : List Expr) (c : Nat), (genArgs c es).2.1.callees = []
  | [], _ => rfl
  | _ :: es, c => genArgs_callees es (c + 1)

@[simp] theorem genLeaf_callees : ∀ (ty : LTy) (t : Target) (src c : Nat), (genLeaf t ty src c).2.callees = ty.calls
  | .prim _, _, _, _ => rfl
  | .ref n foreign _ args, t, src, c => by
    cases foreign <;> simp [genLeaf, LTy.calls, Prog.callees, Prog.one]
  | .array el len, t, src, c => by
    cases len with
    | term e => simp [genLeaf, LTy.calls, Prog.callees, Prog.one, genLeaf_callees el]
    | fixed e =>
      simp only [genLeaf, LTy.calls]
      cases el.resolved <;> simp [Prog.callees, Prog.one, genLeaf_callees el]
    | unbounded =>
      simp only [genLeaf, LTy.calls]
      cases el.resolved <;> simp [Prog.callees, Prog.one, genLeaf_callees el]

@[simp] theorem genXforms_callees : ∀ (xs : List XformUse) (t : Target) (c : Nat),
    (genXforms t c xs).2.1.callees = [] ∧ (genXforms t c xs).2.2.2.callees = []
  | [], _, _ => ⟨rfl, rfl⟩
  | x :: xs, t, c => by
    unfold genXforms
    split
    · exact ⟨by simp [Prog.callees, genXforms_callees xs], by simp [Prog.callees, Prog.one, genXforms_callees xs]⟩
    · exact ⟨by simp [Prog.callees, genXforms_callees xs], by simp [Prog.callees, Prog.one, genXforms_callees xs]⟩

@[simp] theorem genCond_callees (cond : Option Expr) (c : Nat) : (genCond cond c).2.1.callees = [] := by
  cases cond <;> rfl

@[simp] theorem wrapCond_callees (cr : Option Nat) (p : Prog) : (wrapCond cr p).callees = p.callees := by
  cases cr <;> simp [wrapCond, Prog.callees]

@[simp] theorem genField_callees (t : Target) (src : Nat) (a : FAttr) (ty : LTy) (c : Nat) :
    (genField t src a ty c).2.callees = ty.calls := by
  unfold genField
  simp only
  split <;> simp [Prog.callees]

@[simp] theorem genBlen_callees (res : String → Option Nat) (a : FAttr) (c : Nat) : (genBlen res a c).callees = [] := by
  unfold genBlen
  split <;> rfl

theorem genFlush_callees (n : String) (t : Target) (res : String → Option Nat) : ∀ (ds : List Deferred) (c : Nat),
    (n ∈ (genFlush t res ds c).2.1.callees ∨ ∃ d ∈ (genFlush t res ds c).2.2, n ∈ d.ty.calls) ↔ ∃ d ∈ ds, n ∈ d.ty.calls
  | [], c => by simp [genFlush, Prog.callees]
  | d :: ds, c => by
    have ih := genFlush_callees n t res ds c
    simp only [genFlush]
    split
    · simp only [callees_append, genBlen_callees, genField_callees, Prog.callees, Prog.one, List.append_nil, List.mem_append,
        List.mem_cons, exists_eq_or_imp, ← ih]
      grind
    · simp only [List.mem_cons, exists_eq_or_imp, ← ih]
      grind

@[simp] theorem genNullchecks_callees : ∀ (fs : Fields) (c : Nat), (genNullchecks fs c).2.callees = []
  | .nil, _ => rfl
  | .pad _ _ rest, c => genNullchecks_callees rest c
  | .cont _ _ _ rest, c => genNullchecks_callees rest c
  | .leaf a _ rest, c => by
    simp only [genNullchecks]
    split
    · exact genNullchecks_callees rest c
    · exact genNullchecks_callees rest (c + 1)

@[simp] theorem genOpen_callees (t : Target) (n : String) (len : Option Expr) (g : GState) :
    (genOpen t n len g).2.1.callees = [] := by
  unfold genOpen
  split
  · split <;> rfl
  · rfl

theorem genOpen_keepsOk (t : Target) (n : String) (len : Option Expr) (g : GState) : (genOpen t n len g).1.ok = g.ok := by
  unfold genOpen
  split
  · split <;> rfl
  · rfl

@[simp] theorem genClose_callees (t : Target) (n : String) (len : Option Expr) (bt : Target) (g : GState) :
    (genClose t n len bt g).2.callees = [] := by
  unfold genClose
  split
  · split <;> rfl
  · rfl

theorem genClose_keepsOk (t : Target) (n : String) (len : Option Expr) (bt : Target) (g : GState) : (genClose t n len bt g).1.ok = g.ok := by
  unfold genClose
  split
  · split <;> rfl
  · rfl

theorem genItems_wasOk : ∀ (fs : Fields) (cond : Bool) (t : Target) (g : GState) (ds : List Deferred),
    (genItems cond t fs g ds).1.ok = true → g.ok = true
  | .nil, cond, t, g, ds => by
    intro h
    simp only [genItems, Bool.and_eq_true] at h
    exact h.1
  | .pad _ e rest, cond, t, g, ds => by
    intro h
    simp only [genItems] at h
    have h2 := genItems_wasOk rest _ _ _ _ h
    exact h2
  | .leaf a ty rest, cond, t, g, ds => by
    intro h
    simp only [genItems] at h
    split at h
    · have h2 := genItems_wasOk rest _ _ _ _ h
      exact h2
    · have h2 := genItems_wasOk rest _ _ _ _ h
      exact h2
  | .cont a len items rest, cond, t, g, ds => by
    intro h
    simp only [genItems] at h
    have h2 := genItems_wasOk rest _ _ _ _ h
    simp only [genClose_keepsOk] at h2
    have h3 := genItems_wasOk items _ _ _ _ h2
    simpa only [genOpen_keepsOk] using h3

/-- The calls that items make in the emitted encoder, with the fields that wait for lengths. -/
theorem genItems_callees (n : String) : ∀ (fs : Fields) (cond : Bool) (t : Target) (g : GState) (ds : List Deferred),
    (n ∈ (genItems cond t fs g ds).2.callees → n ∈ fs.calls ∨ ∃ d ∈ ds, n ∈ d.ty.calls) ∧
    ((genItems cond t fs g ds).1.ok = true → (n ∈ fs.calls ∨ ∃ d ∈ ds, n ∈ d.ty.calls) → n ∈ (genItems cond t fs g ds).2.callees)
  | .nil, cond, t, g, ds => by
    refine ⟨fun h => by simp [genItems, Prog.callees] at h, fun ho h => ?_⟩
    simp only [genItems, Bool.and_eq_true, List.isEmpty_iff] at ho
    simp [Fields.calls, ho.2] at h
  | .pad _ e rest, cond, t, g, ds => by
    simp only [genItems, Fields.calls, callees_append, Prog.callees, Prog.one, List.nil_append, List.mem_append]
    have hf := genFlush_callees n t g.resolved ds (g.c + 1)
    have ih := genItems_callees n rest cond t { g with c := (genFlush t g.resolved ds (g.c + 1)).1 } (genFlush t g.resolved ds (g.c + 1)).2.2
    generalize genFlush t g.resolved ds (g.c + 1) = F at *
    obtain ⟨c2, p2, ds2⟩ := F
    simp only at *
    generalize genItems cond t rest _ ds2 = I at *
    refine ⟨fun h => ?_, fun ho h => ?_⟩
    · have := ih.1
      grind
    · have := ih.2 ho
      grind
  | .leaf a ty rest, cond, t, g, ds => by
    simp only [genItems, Fields.calls]
    split
    · generalize hr : (if (FAttr.blens a).isEmpty then g.c else g.c + 1) = r
      generalize hp : (if (FAttr.blens a).isEmpty then Prog.nil else genBlen g.resolved a g.c) = pb
      have hpb : pb.callees = [] := by
        subst hp
        split
        · rfl
        · simp
      simp only [callees_append, hpb, Prog.callees, genField_callees, List.nil_append, List.mem_append]
      generalize (genField (realTarget t ds) r a ty (r + 1)).1 = c1
      have hf := genFlush_callees n t g.resolved ds c1
      have ih := genItems_callees n rest cond t { g with c := (genFlush t g.resolved ds c1).1 } (genFlush t g.resolved ds c1).2.2
      generalize genFlush t g.resolved ds c1 = F at *
      obtain ⟨c2, p2, ds2⟩ := F
      simp only at *
      generalize genItems cond t rest _ ds2 = I at *
      refine ⟨fun h => ?_, fun ho h => ?_⟩
      · have := ih.1
        grind
      · have := ih.2 ho
        grind
    · have ih := genItems_callees n rest cond t
        { g with c := g.c + 1, pending := g.pending ++ (FAttr.blens a).filter fun f => (g.resolved f).isNone } (ds ++ [⟨g.c, a, ty⟩])
      simp only [Prog.callees, List.mem_append, List.mem_singleton, or_and_right, exists_or, exists_eq_left] at ih ⊢
      refine ⟨fun h => ?_, fun ho h => ?_⟩
      · have := ih.1 h
        grind
      · have := ih.2 ho
        grind
  | .cont a len items rest, cond, t, g, ds => by
    simp only [genItems, Fields.calls, callees_append, genCond_callees, wrapCond_callees, genXforms_callees, genOpen_callees,
      genClose_callees, List.nil_append, List.append_nil, List.mem_append]
    generalize hx : genXforms _ _ _ = X
    generalize hop : genOpen _ _ _ _ = O
    generalize hnn : (if ((genCond a.cond g.c).2.2.isSome || cond) = true then genNullchecks items O.1.c else (O.1.c, Prog.nil)) = N
    have hN : N.2.callees = [] := by
      subst hnn
      split
      · simp
      · rfl
    generalize hI : genItems _ _ items _ _ = I
    have ih := genItems_callees n items
    generalize hcl : genClose _ _ _ _ _ = C
    have hf := genFlush_callees n t C.1.resolved ds C.1.c
    have ih2 := genItems_callees n rest cond t { C.1 with c := (genFlush t C.1.resolved ds C.1.c).1 } (genFlush t C.1.resolved ds C.1.c).2.2
    have ih1 : (n ∈ I.2.callees → n ∈ items.calls) ∧ (I.1.ok = true → n ∈ items.calls → n ∈ I.2.callees) := by
      subst hI
      refine ⟨fun h => ?_, fun ho h => (ih _ _ _ _).2 ho (.inl h)⟩
      rcases (ih _ _ _ _).1 h with h | ⟨d, hd, -⟩
      · exact h
      · simp at hd
    have hCI : C.1.ok = I.1.ok := by rw [← hcl, genClose_keepsOk]
    simp only [hN, List.not_mem_nil, false_or]
    refine ⟨fun h => ?_, fun ho h => ?_⟩
    · have := ih1.1
      have := ih2.1
      grind
    · have h5 := genItems_wasOk rest _ _ _ _ ho
      have := ih1.2 (hCI ▸ h5)
      have := ih2.2 ho
      grind

theorem genRefs_callees (src : Nat) : ∀ (as : List FAttr) (c : Nat), (genRefs src as c).2.callees = []
  | [], _ => rfl
  | a :: as, c => by
    simp only [genRefs]
    split
    · exact genRefs_callees src as c
    · exact genRefs_callees src as (c + 1)

theorem genCalculated_callees : ∀ (as : List FAttr) (c : Nat), (genCalculated as c).2.callees = []
  | [], _ => rfl
  | a :: as, c => by
    simp only [genCalculated]
    split
    · split
      · exact genCalculated_callees as (c + 1)
      · exact genCalculated_callees as c
    · exact genCalculated_callees as c

theorem setRefs_callees : ∀ rs, (setRefs rs).callees = []
  | [] => rfl
  | (_, _) :: rs => setRefs_callees rs

theorem genArm_callees (n en : String) (t : Target) (arm : Arm) (g : GState) :
    (n ∈ (genArm en t arm g).2.callees → n ∈ arm.body.calls) ∧
    ((genArm en t arm g).1.ok = true → g.ok = true ∧ (n ∈ arm.body.calls → n ∈ (genArm en t arm g).2.callees)) := by
  unfold genArm
  simp only
  cases arm.body with
  | leaf ty =>
    simp [ArmBody.calls, Prog.callees, Prog.one]
  | cont len items =>
    have h := fun g' => genItems_callees n items false t g' []
    have ho := fun g' => genItems_wasOk items false t g' []
    simp only [ArmBody.calls, Prog.callees, Prog.one, callees_append, genCond_callees, wrapCond_callees, setRefs_callees,
      genCalculated_callees, List.nil_append, List.append_nil]
    refine ⟨fun hn => ?_, fun hk => ⟨by have := ho _ hk; exact this, fun hn => (h _).2 hk (.inl hn)⟩⟩
    rcases (h _).1 hn with h | ⟨d, hd, -⟩
    · exact h
    · simp at hd

theorem genArms_callees (n en : String) (t : Target) : ∀ (arms : List Arm) (g : GState),
    (n ∈ (genArms en t arms g).2.callees → n ∈ arms.flatMap (·.body.calls)) ∧
    ((genArms en t arms g).1.ok = true → g.ok = true ∧
      (n ∈ arms.flatMap (·.body.calls) → n ∈ (genArms en t arms g).2.callees))
  | [], g => by simp [genArms, Prog.callees]
  | arm :: arms, g => by
    have h1 := genArm_callees n en t arm g
    have h2 := genArms_callees n en t arms (genArm en t arm g).1
    simp only [genArms, callees_append, List.flatMap_cons, List.mem_append]
    grind

/-- The calls in the emitted encoder are those of the specification, if protospec does not panic. -/
theorem genDecl_callees (d : Decl) (n : String) :
    (n ∈ (genDecl d).2.callees → n ∈ d.mentions) ∧
    ((genDecl d).1.ok = true → n ∈ d.mentions → n ∈ (genDecl d).2.callees) := by
  unfold genDecl Decl.mentions
  cases d.body with
  | leaf c ty => simp [Prog.callees]
  | repr t => simp [Prog.callees, Prog.one]
  | struct len items =>
    have h := fun t g => genItems_callees n items false t g []
    simp only [callees_append, genXforms_callees, genOpen_callees, genRefs_callees, genCalculated_callees, genClose_callees,
      List.nil_append, List.append_nil, genClose_keepsOk]
    refine ⟨fun hn => ?_, fun hk hn => (h _ _).2 hk (.inl hn)⟩
    rcases (h _ _).1 hn with h | ⟨d, hd, -⟩
    · exact h
    · simp at hd
  | tagged len arms =>
    have h := fun t g => genArms_callees n d.name t arms g
    simp only [callees_append, genXforms_callees, genOpen_callees, genClose_callees, Prog.callees,
      List.nil_append, List.append_nil, genClose_keepsOk]
    exact ⟨(h _ _).1, fun hk => ((h _ _).2 hk).2⟩

end Enc

theorem armsCalls_mentions (n : String) : ∀ arms : List Arm, n ∈ armsCalls arms → n ∈ arms.flatMap (·.body.calls)
  | [], h => h
  | a :: arms, h => by
    have ih := armsCalls_mentions n arms
    simp only [armsCalls, List.mem_append, List.flatMap_cons] at h ⊢
    rcases h with h | h
    · exact .inl h
    · split at h
      · exact .inr (ih h)
      · cases h

theorem Decl.calls_mentions {d : Decl} {n : String} (h : n ∈ d.calls) : n ∈ d.mentions := by
  revert h
  unfold Decl.calls Decl.mentions
  cases d.body with
  | tagged len arms => exact armsCalls_mentions n arms
  | _ => exact id

/-- What a declaration calls is what it mentions. -/
theorem Decl.mem_callees {d : Decl} (hk : (Enc.genDecl d).1.ok = true) (n : String) : n ∈ d.callees ↔ n ∈ d.mentions := by
  unfold Decl.callees
  rw [List.mem_append, Dec.genDecl_callees]
  have h := Enc.genDecl_callees d n
  exact ⟨fun hn => hn.elim Decl.calls_mentions h.1, fun hn => .inr (h.2 hk hn)⟩

end Verif
