import Verif.RustNames
/-!
# The declared types that generated code mentions
-/
namespace Verif

/-- All declared types mentioned are in `P`. -/
def DeclsIn (P : String → Prop) (l : List NameUse) : Prop := ∀ n, .decl n ∈ l → P n

theorem DeclsIn.append {P : String → Prop} {a b : List NameUse} (ha : DeclsIn P a) (hb : DeclsIn P b) : DeclsIn P (a ++ b) :=
  fun n h => (List.mem_append.1 h).elim (ha n) (hb n)

theorem DeclsIn.left {P : String → Prop} {a b : List NameUse} (h : DeclsIn P (a ++ b)) : DeclsIn P a :=
  fun n hn => h n (List.mem_append_left _ hn)

theorem DeclsIn.right {P : String → Prop} {a b : List NameUse} (h : DeclsIn P (a ++ b)) : DeclsIn P b :=
  fun n hn => h n (List.mem_append_right _ hn)

theorem DeclsIn.nil {P : String → Prop} : DeclsIn P [] := fun _ h => by cases h

/-- The same for expressions. -/
def MentionsIn (P : String → Prop) (es : List Expr) : Prop := ∀ e ∈ es, DeclsIn P e.nameUses

section
variable {P : String → Prop}
theorem MentionsIn.left {a b : List Expr} (h : MentionsIn P (a ++ b)) : MentionsIn P a := fun e he => h e (by simp [he])
theorem MentionsIn.right {a b : List Expr} (h : MentionsIn P (a ++ b)) : MentionsIn P b := fun e he => h e (by simp [he])
theorem MentionsIn.append {a b : List Expr} (ha : MentionsIn P a) (hb : MentionsIn P b) : MentionsIn P (a ++ b) :=
  fun e he => (List.mem_append.1 he).elim (ha e) (hb e)
end

namespace Enc

theorem Prog.nameUses_append (S : Snippets) (async : Bool) : ∀ (p q : Prog),
    (p ++ q).nameUses S async = p.nameUses S async ++ q.nameUses S async
  | .nil, q => rfl
  | .op i rest, q => by
    show (Prog.op i (rest ++ q)).nameUses S async = _
    simp only [Prog.nameUses, nameUses_append S async rest q, List.append_assoc]
  | .loop a b i rest, q => by
    show (Prog.loop a b i (rest ++ q)).nameUses S async = _
    simp only [Prog.nameUses, nameUses_append S async rest q, List.append_assoc, List.cons_append]
  | .cond a i rest, q => by
    show (Prog.cond a i (rest ++ q)).nameUses S async = _
    simp only [Prog.nameUses, nameUses_append S async rest q, List.append_assoc]
  | .condWrap a i b c d e f rest, q => by
    show (Prog.condWrap a i b c d e f (rest ++ q)).nameUses S async = _
    simp only [Prog.nameUses, nameUses_append S async rest q, List.append_assoc]
  | .block i rest, q => by
    show (Prog.block i (rest ++ q)).nameUses S async = _
    simp only [Prog.nameUses, nameUses_append S async rest q, List.append_assoc]

theorem unblen_nameUses : ∀ (e : Expr), e.unblen.nameUses = e.nameUses
  | .binary _ l r => by simp only [Expr.unblen, Expr.nameUses, unblen_nameUses l, unblen_nameUses r]
  | .unary _ e => by simp only [Expr.unblen, Expr.nameUses, unblen_nameUses e]
  | .cast _ e _ => by simp only [Expr.unblen, Expr.nameUses, unblen_nameUses e]
  | .index a i => by simp only [Expr.unblen, Expr.nameUses, unblen_nameUses a, unblen_nameUses i]
  | .enumAccess _ _ _ => rfl
  | .int _ => rfl
  | .constRef _ _ => rfl
  | .inputRef _ => rfl
  | .fieldRef _ => rfl
  | .str _ => rfl
  | .ternary c t f => by simp only [Expr.unblen, Expr.nameUses, unblen_nameUses c, unblen_nameUses t, unblen_nameUses f]
  | .bool _ => rfl
  | .len none e => by simp only [Expr.unblen, Expr.nameUses, unblen_nameUses e]
  | .len (some _) _ => rfl
  | .blen _ => rfl
  | .sum e => by simp only [Expr.unblen, Expr.nameUses, unblen_nameUses e]
  | .bits e => by simp only [Expr.unblen, Expr.nameUses, unblen_nameUses e]
  | .pad p b => by simp only [Expr.unblen, Expr.nameUses, unblen_nameUses p, unblen_nameUses b]
  | .member e _ _ => by simp only [Expr.unblen, Expr.nameUses, unblen_nameUses e]

def Prog.DeclsIn (P : String → Prop) (S : Snippets) (async : Bool) (p : Prog) : Prop := Verif.DeclsIn P (p.nameUses S async)

/-- The type that a statement without blocks mentions besides those in its expression. -/
def Op.declIn (P : String → Prop) : Op → Prop
  | .eval _ e => Verif.DeclsIn P e.nameUses
  | .evalBlen _ e _ => Verif.DeclsIn P e.nameUses
  | .unwrapEnum en _ _ _ _ => P en
  | .unwrapStruct en _ _ _ _ => P en
  | _ => True

section
variable {P : String → Prop} {S : Snippets} {async : Bool}

theorem op_declsIn (hS : ∀ n, Verif.DeclsIn P (S.uses n)) {i : Op} (h : i.declIn P) : Verif.DeclsIn P (i.nameUses S) := by
  intro n hn
  cases i with
  | eval r e => simp only [Op.nameUses, bindsReg, List.mem_cons, reduceCtorEq, false_or] at hn; exact h n hn
  | evalBlen r e d => simp only [Op.nameUses, bindsReg, List.mem_cons, reduceCtorEq, false_or] at hn; exact h n hn
  | wrap s r x a => simp only [Op.nameUses, bindsReg, List.mem_cons, reduceCtorEq, false_or] at hn; exact hS x n hn
  | foreign a b x c => exact hS x n hn
  | unwrapEnum en _ _ dst _ =>
    simp only [Op.nameUses, bindsReg, List.mem_cons, reduceCtorEq, false_or, or_false, NameUse.decl.injEq, List.not_mem_nil] at hn
    subst hn; exact h
  | unwrapStruct en _ _ dst _ =>
    simp only [Op.nameUses, bindsReg, List.mem_append, List.mem_map, reduceCtorEq, and_false, exists_false, List.mem_cons, false_or,
      or_false, NameUse.decl.injEq, List.not_mem_nil] at hn
    subst hn; exact h
  | primArray s r p len =>
    simp only [Op.nameUses, loopVar] at hn
    split at hn <;> cases len <;> simp at hn
  | reprArray s r p len => cases len <;> simp [Op.nameUses] at hn
  | _ => simp [Op.nameUses, bindsReg] at hn

theorem declsIn_nil : Prog.nil.DeclsIn P S async := DeclsIn.nil

theorem declsIn_append {p q : Prog} (hp : p.DeclsIn P S async) (hq : q.DeclsIn P S async) : (p ++ q).DeclsIn P S async := by
  unfold Prog.DeclsIn
  rw [Prog.nameUses_append]
  exact Verif.DeclsIn.append hp hq

theorem declsIn_op {i : Op} {p : Prog} (hi : (Prog.one i).DeclsIn P S async) (hp : p.DeclsIn P S async) : (Prog.op i p).DeclsIn P S async :=
  Verif.DeclsIn.append (Verif.DeclsIn.left hi) hp

theorem declsIn_quiet (hS : ∀ n, Verif.DeclsIn P (S.uses n)) {i : Op} (h : i.declIn P) : (Prog.one i).DeclsIn P S async :=
  Verif.DeclsIn.append (op_declsIn hS h) DeclsIn.nil

theorem declsIn_eval (hS : ∀ n, Verif.DeclsIn P (S.uses n)) {r : Nat} {e : Expr} (h : Verif.DeclsIn P e.nameUses) :
    (Prog.one (.eval r e)).DeclsIn P S async := declsIn_quiet hS h

theorem declsIn_loop {a b : Nat} {p q : Prog} (hp : p.DeclsIn P S async) (hq : q.DeclsIn P S async) : (Prog.loop a b p q).DeclsIn P S async := by
  intro n hn
  simp only [Prog.nameUses, bindsReg, List.cons_append, List.mem_cons, List.mem_append, reduceCtorEq, false_or] at hn
  exact hn.elim (hp n) (hq n)

theorem declsIn_cond {a : Nat} {p q : Prog} (hp : p.DeclsIn P S async) (hq : q.DeclsIn P S async) : (Prog.cond a p q).DeclsIn P S async :=
  Verif.DeclsIn.append hp hq

theorem declsIn_condWrap (hS : ∀ n, Verif.DeclsIn P (S.uses n)) {a : Nat} {u : Target} {n o : Nat} {x : String} {as : List Nat} {p q : Prog}
    (hp : p.DeclsIn P S async) (hq : q.DeclsIn P S async) : (Prog.condWrap a p u n o x as q).DeclsIn P S async := by
  intro m hm
  cases async <;> simp only [Prog.nameUses, bindsReg, List.mem_cons, List.mem_append, reduceCtorEq, false_or, or_false, false_and, if_true,
    if_false, Bool.false_eq_true, List.not_mem_nil] at hm <;> rcases hm with (hm | hm) | hm
  · exact hS x m hm
  · exact hp m hm
  · exact hq m hm
  · exact hS x m hm
  · exact hp m hm
  · exact hq m hm

theorem declsIn_block {p q : Prog} (hp : p.DeclsIn P S async) (hq : q.DeclsIn P S async) : (Prog.block p q).DeclsIn P S async :=
  Verif.DeclsIn.append hp hq

theorem genArgs_declsIn (hS : ∀ n, Verif.DeclsIn P (S.uses n)) : ∀ (es : List Expr) (c : Nat), MentionsIn P es → (genArgs c es).2.1.DeclsIn P S async
  | [], _, _ => declsIn_nil
  | e :: es, c, h => declsIn_op (declsIn_eval hS (h e (by simp))) (genArgs_declsIn hS es _ fun e he => h e (by simp [he]))

theorem genLeaf_declsIn (hS : ∀ n, Verif.DeclsIn P (S.uses n)) (t : Target) : ∀ (ty : LTy) (src c : Nat), MentionsIn P (LTy.exprs ty) →
    (genLeaf t ty src c).2.DeclsIn P S async
  | .prim p, src, c, _ => declsIn_quiet hS trivial
  | .ref target foreign res args, src, c, h => by
    have ha := genArgs_declsIn (async := async) hS args c h
    simp only [genLeaf]
    split
    · exact declsIn_append ha (declsIn_quiet hS trivial)
    · exact declsIn_append ha (declsIn_quiet hS trivial)
  | .array elem len, src, c, h => by
    have ih := fun src c => genLeaf_declsIn hS t elem src c h.right
    cases len with
    | term e =>
      have he : DeclsIn P e.nameUses := h.left e (by simp)
      exact declsIn_op (declsIn_eval hS he) (declsIn_op (declsIn_quiet hS trivial) (declsIn_loop (declsIn_op (declsIn_quiet hS trivial) (ih _ _))
        (declsIn_quiet hS trivial)))
    | fixed e =>
      have he : DeclsIn P e.nameUses := h.left e (by simp)
      simp only [genLeaf]
      split
      · exact declsIn_op (declsIn_eval hS he) (declsIn_quiet hS trivial)
      · exact declsIn_op (declsIn_eval hS he) (declsIn_quiet hS trivial)
      · exact declsIn_op (declsIn_eval hS he) (declsIn_loop (declsIn_op (declsIn_quiet hS trivial) (ih _ _)) declsIn_nil)
    | unbounded =>
      simp only [genLeaf]
      split
      · exact declsIn_quiet hS trivial
      · exact declsIn_quiet hS trivial
      · exact declsIn_op (declsIn_quiet hS trivial) (declsIn_loop (declsIn_op (declsIn_quiet hS trivial) (ih _ _)) declsIn_nil)

theorem genXforms_declsIn (hS : ∀ n, Verif.DeclsIn P (S.uses n)) : ∀ (xs : List XformUse) (t : Target) (c : Nat), MentionsIn P (xs.flatMap XformUse.exprs) →
    (genXforms t c xs).2.1.DeclsIn P S async ∧ (genXforms t c xs).2.2.2.DeclsIn P S async
  | [], t, c, _ => ⟨declsIn_nil, declsIn_nil⟩
  | x :: xs, t, c, h => by
    rw [List.flatMap_cons] at h
    have hx := h.left
    have ih := fun t c => genXforms_declsIn hS xs t c h.right
    have ha : MentionsIn P x.args := hx.right
    simp only [genXforms]
    split
    · rename_i e he
      have h1 : DeclsIn P e.nameUses := hx.left e (by simp [he])
      exact ⟨declsIn_op (declsIn_eval hS h1) (declsIn_condWrap hS (genArgs_declsIn (async := async) hS _ _ ha) (ih _ _).1),
        declsIn_append (ih _ _).2 (declsIn_op (declsIn_quiet hS trivial) (declsIn_quiet hS trivial))⟩
    · exact ⟨declsIn_append (genArgs_declsIn (async := async) hS _ _ ha) (declsIn_op (declsIn_quiet hS trivial) (ih _ _).1),
        declsIn_append (ih _ _).2 (declsIn_quiet hS trivial)⟩

theorem genCond_declsIn (hS : ∀ n, Verif.DeclsIn P (S.uses n)) (cond : Option Expr) (c : Nat) (h : MentionsIn P cond.toList) : (genCond cond c).2.1.DeclsIn P S async := by
  cases cond with
  | none => exact declsIn_nil
  | some e => exact declsIn_eval hS (h e (by simp))

theorem wrapCond_declsIn (cr : Option Nat) {p : Prog} (h : p.DeclsIn P S async) : (wrapCond cr p).DeclsIn P S async := by
  cases cr with
  | none => exact h
  | some r => exact declsIn_cond h declsIn_nil

theorem genField_declsIn (hS : ∀ n, Verif.DeclsIn P (S.uses n)) (t : Target) (src : Nat) (a : FAttr) (ty : LTy) (c : Nat)
    (ha : MentionsIn P (FAttr.exprs a)) (ht : MentionsIn P (LTy.exprs ty)) : (genField t src a ty c).2.DeclsIn P S async := by
  have h1 := genCond_declsIn (async := async) hS a.cond c ha.left
  have h2 := fun t c => genXforms_declsIn (async := async) hS a.xfs t c ha.right
  simp only [genField]
  split
  · exact declsIn_append h1 (wrapCond_declsIn _ (declsIn_append (declsIn_append (h2 _ _).1
      (declsIn_op (declsIn_quiet hS trivial) (genLeaf_declsIn (async := async) hS _ _ _ _ ht))) (h2 _ _).2))
  · exact declsIn_append h1 (wrapCond_declsIn _ (declsIn_append (declsIn_append (h2 _ _).1
      (genLeaf_declsIn (async := async) hS _ _ _ _ ht)) (h2 _ _).2))

theorem genBlen_declsIn (hS : ∀ n, Verif.DeclsIn P (S.uses n)) (resolved : String → Option Nat) (a : FAttr) (c : Nat) (h : MentionsIn P a.auto.toList) :
    (genBlen resolved a c).DeclsIn P S async := by
  unfold genBlen
  split
  · rename_i e he
    refine declsIn_op (declsIn_quiet hS ?_) (declsIn_quiet hS trivial)
    show DeclsIn P _
    rw [unblen_nameUses]
    exact h e (by simp [he])
  · exact declsIn_nil

/-- The expressions of the fields that wait. -/
def WaitingIn (P : String → Prop) (ds : List Deferred) : Prop :=
  ∀ d ∈ ds, MentionsIn P (FAttr.exprs d.attr) ∧ MentionsIn P (LTy.exprs d.ty) ∧ MentionsIn P d.attr.auto.toList

theorem genFlush_declsIn (hS : ∀ n, Verif.DeclsIn P (S.uses n)) (t : Target) (resolved : String → Option Nat) : ∀ (ds : List Deferred) (c : Nat),
    WaitingIn P ds → (genFlush t resolved ds c).2.1.DeclsIn P S async ∧ WaitingIn P (genFlush t resolved ds c).2.2
  | [], c, h => ⟨declsIn_nil, h⟩
  | d :: ds, c, h => by
    have ih := genFlush_declsIn hS t resolved ds c fun d hd => h d (by simp [hd])
    obtain ⟨h1, h2, h3⟩ := h d (by simp)
    simp only [genFlush]
    split
    · exact ⟨declsIn_append (declsIn_append (declsIn_append ih.1 (genBlen_declsIn (async := async) hS _ _ _ h3)) (genField_declsIn (async := async) hS _ _ _ _ _ h1 h2))
        (declsIn_quiet hS trivial), ih.2⟩
    · refine ⟨ih.1, ?_⟩
      intro x hx
      rcases List.mem_cons.mp hx with rfl | hx
      · exact ⟨h1, h2, h3⟩
      · exact ih.2 x hx

theorem genNullchecks_declsIn (hS : ∀ n, Verif.DeclsIn P (S.uses n)) : ∀ (fs : Fields) (c : Nat), (genNullchecks fs c).2.DeclsIn P S async
  | .nil, _ => declsIn_nil
  | .pad _ _ rest, c => genNullchecks_declsIn hS rest c
  | .cont _ _ _ rest, c => genNullchecks_declsIn hS rest c
  | .leaf a _ rest, c => by
    simp only [genNullchecks]
    split
    · exact genNullchecks_declsIn hS rest c
    · exact declsIn_op (declsIn_quiet hS trivial) (declsIn_op (declsIn_quiet hS trivial) (declsIn_op (declsIn_quiet hS trivial)
        (genNullchecks_declsIn hS rest _)))

theorem genOpen_declsIn (hS : ∀ n, Verif.DeclsIn P (S.uses n)) (t : Target) (n : String) (len : Option Expr) (g : GState) (h : MentionsIn P len.toList) :
    (genOpen t n len g).2.1.DeclsIn P S async := by
  unfold genOpen
  split
  · rename_i e
    split
    · exact declsIn_quiet hS trivial
    · exact declsIn_op (declsIn_eval hS (h e (by simp))) (declsIn_quiet hS trivial)
  · exact declsIn_nil

theorem genClose_declsIn (hS : ∀ n, Verif.DeclsIn P (S.uses n)) (t : Target) (n : String) (len : Option Expr) (bt : Target) (g : GState) :
    (genClose t n len bt g).2.DeclsIn P S async := by
  unfold genClose
  split
  · split
    · exact declsIn_op (declsIn_quiet hS trivial) (declsIn_quiet hS trivial)
    · exact declsIn_quiet hS trivial
  · exact declsIn_nil

theorem genItems_declsIn (hS : ∀ n, Verif.DeclsIn P (S.uses n)) : ∀ (fs : Fields) (cond : Bool) (t : Target) (g : GState) (autos : List Deferred),
    MentionsIn P fs.exprs → WaitingIn P autos → (genItems cond t fs g autos).2.DeclsIn P S async
  | .nil, cond, t, g, autos, _, _ => declsIn_nil
  | .pad n e rest, cond, t, g, autos, h, hw => by
    have hf := fun c => genFlush_declsIn (async := async) hS t g.resolved autos c hw
    have ih := fun g as hw => genItems_declsIn hS rest cond t g as (fun e he => h e (by simp [Fields.exprs, he])) hw
    simp only [genItems]
    exact declsIn_append (declsIn_append (declsIn_op (declsIn_eval hS (h e (by simp [Fields.exprs]))) (declsIn_quiet hS trivial))
      (hf _).1) (ih _ _ (hf _).2)
  | .leaf a ty rest, cond, t, g, autos, h, hw => by
    have hf := fun c => genFlush_declsIn (async := async) hS t g.resolved autos c hw
    have ih := fun g as hw => genItems_declsIn hS rest cond t g as h.right hw
    have ha : MentionsIn P (FAttr.exprs a) := h.left.left.left
    have ht : MentionsIn P (LTy.exprs ty) := h.left.left.right
    have hx : MentionsIn P a.auto.toList := h.left.right
    simp only [genItems]
    split
    · refine declsIn_append (declsIn_append (declsIn_append ?_ (declsIn_op (declsIn_quiet hS trivial)
        (genField_declsIn (async := async) hS _ _ _ _ _ ha ht))) (hf _).1) (ih _ _ (hf _).2)
      split
      · exact declsIn_nil
      · exact genBlen_declsIn (async := async) hS _ _ _ hx
    · refine declsIn_op (declsIn_quiet hS trivial) (ih _ _ ?_)
      intro d hd
      rcases List.mem_append.mp hd with hd | hd
      · exact hw d hd
      · rw [List.mem_singleton] at hd
        subst hd
        exact ⟨ha, ht, hx⟩
  | .cont a len items rest, cond, t, g, autos, h, hw => by
    have hf := fun r c => genFlush_declsIn (async := async) hS t r autos c hw
    have ih := fun g as hw => genItems_declsIn hS rest cond t g as h.right hw
    have ih' := fun c t g => genItems_declsIn hS items c t g [] h.left.right (by intro d hd; cases hd)
    have ha : MentionsIn P (FAttr.exprs a) := h.left.left.left
    have hlen : MentionsIn P len.toList := h.left.left.right
    have hx := fun t c => genXforms_declsIn (async := async) hS a.xfs t c ha.right
    simp only [genItems]
    refine declsIn_append (declsIn_append (declsIn_append (genCond_declsIn (async := async) hS _ _ ha.left) (wrapCond_declsIn _ ?_)) (hf _ _).1)
      (ih _ _ (hf _ _).2)
    refine declsIn_append (declsIn_append (declsIn_append (declsIn_append (declsIn_append (hx _ _).1
      (genOpen_declsIn (async := async) hS _ _ _ _ hlen)) ?_) (ih' _ _ _)) (genClose_declsIn (async := async) hS _ _ _ _ _)) (hx _ _).2
    split
    · exact genNullchecks_declsIn (async := async) hS _ _
    · exact declsIn_nil

theorem genRefs_declsIn (hS : ∀ n, Verif.DeclsIn P (S.uses n)) (src : Nat) : ∀ (as : List FAttr) (c : Nat), (genRefs src as c).2.DeclsIn P S async
  | [], _ => declsIn_nil
  | a :: as, c => by
    simp only [genRefs]
    split
    · exact genRefs_declsIn hS src as c
    · exact declsIn_op (declsIn_quiet hS trivial) (declsIn_op (declsIn_quiet hS trivial) (genRefs_declsIn hS src as _))

theorem genCalculated_declsIn (hS : ∀ n, Verif.DeclsIn P (S.uses n)) : ∀ (as : List FAttr) (c : Nat), (∀ a ∈ as, MentionsIn P a.auto.toList) →
    (genCalculated as c).2.DeclsIn P S async
  | [], _, _ => declsIn_nil
  | a :: as, c, h => by
    have ih := fun c => genCalculated_declsIn hS as c fun a ha => h a (by simp [ha])
    simp only [genCalculated]
    split
    · rename_i e he
      split
      · exact declsIn_op (declsIn_eval hS (h a (by simp) e (by simp [he]))) (declsIn_op (declsIn_quiet hS trivial) (ih _))
      · exact ih _
    · exact ih _

theorem leaves_autosIn : ∀ (fs : Fields), MentionsIn P fs.exprs → ∀ a ∈ fs.leaves, MentionsIn P a.auto.toList
  | .nil, _, a, ha => by cases ha
  | .pad _ _ rest, h, a, ha => leaves_autosIn rest (fun e he => h e (by simp [Fields.exprs, he])) a ha
  | .leaf b ty rest, h, a, ha => by
    rcases List.mem_cons.mp ha with rfl | ha
    · exact h.left.right
    · exact leaves_autosIn rest h.right a ha
  | .cont b len items rest, h, a, ha => by
    rcases List.mem_append.mp ha with ha | ha
    · exact leaves_autosIn items h.left.right a ha
    · exact leaves_autosIn rest h.right a ha

theorem setRefs_declsIn (hS : ∀ n, Verif.DeclsIn P (S.uses n)) : ∀ (rs : List (String × Nat)), (setRefs rs).DeclsIn P S async
  | [] => declsIn_nil
  | (n, r) :: rs => declsIn_op (declsIn_quiet hS trivial) (setRefs_declsIn hS rs)

theorem genArm_declsIn (hS : ∀ n, Verif.DeclsIn P (S.uses n)) (en : String) (t : Target) (arm : Arm) (g : GState) (he : P en) (h : MentionsIn P arm.exprs) :
    (genArm en t arm g).2.DeclsIn P S async := by
  obtain ⟨a, body⟩ := arm
  have hc := fun c => genCond_declsIn (async := async) hS a.cond c h.left.left
  have hx := fun t c => genXforms_declsIn (async := async) hS a.xfs t c h.left.right
  cases body with
  | leaf ty =>
    exact declsIn_append (hc _) (wrapCond_declsIn _ (declsIn_op (declsIn_quiet hS he)
      (declsIn_append (declsIn_append (declsIn_append (hx _ _).1 (genLeaf_declsIn (async := async) hS _ _ _ _ h.right)) (hx _ _).2)
        (declsIn_quiet hS trivial))))
  | cont len items =>
    have hi : MentionsIn P items.exprs := MentionsIn.right (a := len.toList) h.right
    exact declsIn_append (hc _) (wrapCond_declsIn _ (declsIn_op (declsIn_quiet hS he)
      (declsIn_append (declsIn_append (declsIn_append (setRefs_declsIn (async := async) hS _) (genCalculated_declsIn (async := async) hS _ _ (leaves_autosIn _ hi)))
        (genItems_declsIn (async := async) hS _ _ _ _ _ hi (by intro d hd; cases hd))) (declsIn_quiet hS trivial))))

theorem genArms_declsIn (hS : ∀ n, Verif.DeclsIn P (S.uses n)) (en : String) (t : Target) (he : P en) : ∀ (arms : List Arm) (g : GState),
    MentionsIn P (arms.flatMap Arm.exprs) → (genArms en t arms g).2.DeclsIn P S async
  | [], _, _ => declsIn_nil
  | arm :: arms, g, h => by
    rw [List.flatMap_cons] at h
    exact declsIn_append (genArm_declsIn (async := async) hS en t arm g he h.left) (genArms_declsIn hS en t he arms _ h.right)

/-- An encoder mentions the type itself, and the types its expressions mention. -/
theorem genDecl_declsIn (hS : ∀ n, Verif.DeclsIn P (S.uses n)) (d : Decl) (hn : P d.name) (h : MentionsIn P d.exprs) : (genDecl d).2.DeclsIn P S async := by
  obtain ⟨n, ps, xfs, body⟩ := d
  have hx := fun t c => genXforms_declsIn (async := async) hS xfs t c h.left
  cases body with
  | leaf cond ty =>
    refine declsIn_op (declsIn_quiet hS trivial) (genField_declsIn (async := async) hS _ _ _ _ _ ?_ (MentionsIn.right (a := cond.toList) h.right))
    intro e he
    rcases List.mem_append.mp he with he | he
    · exact MentionsIn.left (b := LTy.exprs ty) h.right e he
    · exact h.left e he
  | repr t => exact declsIn_append (declsIn_append (hx _ _).1 (declsIn_quiet hS trivial)) (hx _ _).2
  | struct len items =>
    have hl : MentionsIn P len.toList := MentionsIn.left (b := items.exprs) h.right
    have hi : MentionsIn P items.exprs := MentionsIn.right (a := len.toList) h.right
    exact declsIn_append (declsIn_append (declsIn_append (declsIn_append (declsIn_append (declsIn_append (hx _ _).1
      (genOpen_declsIn (async := async) hS _ _ _ _ hl)) (genRefs_declsIn (async := async) hS _ _ _)) (genCalculated_declsIn (async := async) hS _ _ (leaves_autosIn _ hi)))
      (genItems_declsIn (async := async) hS _ _ _ _ _ hi (by intro d hd; cases hd))) (genClose_declsIn (async := async) hS _ _ _ _ _)) (hx _ _).2
  | tagged len arms =>
    have hl : MentionsIn P len.toList := MentionsIn.left (b := arms.flatMap Arm.exprs) h.right
    have hi : MentionsIn P (arms.flatMap Arm.exprs) := MentionsIn.right (a := len.toList) h.right
    exact declsIn_append (declsIn_append (declsIn_append (declsIn_append (hx _ _).1 (genOpen_declsIn (async := async) hS _ _ _ _ hl))
      (declsIn_block (genArms_declsIn (async := async) hS _ _ hn _ _ hi) declsIn_nil)) (genClose_declsIn (async := async) hS _ _ _ _ _)) (hx _ _).2

end


end Enc

/-- The types mentioned in a type: by name, or as the enum or bitfield behind a name. -/
def LTy.DeclsIn (P : String → Prop) : LTy → Prop
  | .prim _ => True
  | .array el _ => el.DeclsIn P
  | .ref n foreign res _ => (foreign = false → P n) ∧ ∀ t, res = .repr t → P t.name

/-- The same for the types of fields. -/
def Fields.DeclsIn (P : String → Prop) : Fields → Prop
  | .nil => True
  | .pad _ _ rest => rest.DeclsIn P
  | .leaf _ ty rest => ty.DeclsIn P ∧ rest.DeclsIn P
  | .cont _ _ items rest => items.DeclsIn P ∧ rest.DeclsIn P

def ArmBody.DeclsIn (P : String → Prop) : ArmBody → Prop
  | .leaf ty => ty.DeclsIn P
  | .cont _ items => items.DeclsIn P

def Body.DeclsIn (P : String → Prop) : Body → Prop
  | .leaf _ ty => ty.DeclsIn P
  | .repr t => P t.name
  | .struct _ items => items.DeclsIn P
  | .tagged _ arms => ∀ a ∈ arms, a.body.DeclsIn P

namespace Dec

theorem Prog.nameUses_append (S : Snippets) (async : Bool) : ∀ (p q : Prog),
    (p ++ q).nameUses S async = p.nameUses S async ++ q.nameUses S async
  | .nil, q => rfl
  | .op i rest, q => by
    show (Prog.op i (rest ++ q)).nameUses S async = _
    simp only [Prog.nameUses, nameUses_append S async rest q, List.append_assoc]
  | .loop a b c d i rest, q => by
    show (Prog.loop a b c d i (rest ++ q)).nameUses S async = _
    simp only [Prog.nameUses, nameUses_append S async rest q, List.append_assoc, List.cons_append]
  | .cond a b i rest, q => by
    show (Prog.cond a b i (rest ++ q)).nameUses S async = _
    simp only [Prog.nameUses, nameUses_append S async rest q, List.append_assoc]
  | .condPred a i rest, q => by
    show (Prog.condPred a i (rest ++ q)).nameUses S async = _
    simp only [Prog.nameUses, nameUses_append S async rest q, List.append_assoc]
  | .condWrap a i b c d e rest, q => by
    show (Prog.condWrap a i b c d e (rest ++ q)).nameUses S async = _
    simp only [Prog.nameUses, nameUses_append S async rest q, List.append_assoc]

def Prog.DeclsIn (P : String → Prop) (S : Snippets) (async : Bool) (p : Prog) : Prop := Verif.DeclsIn P (p.nameUses S async)

def Construct.declIn (P : String → Prop) : Construct → Prop
  | .struct n _ => P n
  | .taggedTuple _ _ => True
  | .taggedEnum n _ _ => P n
  | .taggedEnumStruct n _ _ => P n

/-- The type that a statement without blocks mentions besides those in its expression. -/
def Op.declIn (P : String → Prop) : Op → Prop
  | .eval _ e _ => Verif.DeclsIn P e.nameUses
  | .construct _ c => c.declIn P
  | .ref _ _ n _ => P n
  | .repr t _ _ => P t.name
  | .reprArray _ _ t _ => P t.name
  | _ => True

section
variable {P : String → Prop} {S : Snippets} {async : Bool}

theorem op_declsIn (hS : ∀ n, Verif.DeclsIn P (S.uses n)) {i : Op} (h : i.declIn P) : Verif.DeclsIn P (i.nameUses S) := by
  intro n hn
  cases i with
  | eval r e m => simp only [Op.nameUses, bindsReg, List.mem_cons, reduceCtorEq, false_or] at hn; exact h n hn
  | construct r c =>
    cases c <;> simp only [Op.nameUses, bindsReg, List.mem_cons, reduceCtorEq, false_or, or_false, NameUse.decl.injEq, List.not_mem_nil] at hn <;>
      (subst hn; exact h)
  | wrap s r x a => simp only [Op.nameUses, bindsReg, List.mem_cons, reduceCtorEq, false_or] at hn; exact hS x n hn
  | foreign a b x c => simp only [Op.nameUses, bindsReg, List.mem_cons, reduceCtorEq, false_or] at hn; exact hS x n hn
  | ref a b x c => simp only [Op.nameUses, bindsReg, List.mem_cons, reduceCtorEq, false_or, or_false, NameUse.decl.injEq, List.not_mem_nil] at hn; subst hn; exact h
  | repr t b x => simp only [Op.nameUses, bindsReg, List.mem_cons, reduceCtorEq, false_or, or_false, NameUse.decl.injEq, List.not_mem_nil] at hn; subst hn; exact h
  | primArray s r p len => cases len <;> simp [Op.nameUses, bindsReg] at hn
  | reprArray s r t len =>
    have : n = t.name := by cases len <;> simpa [Op.nameUses, bindsReg] using hn
    subst this; exact h
  | _ => simp [Op.nameUses, bindsReg] at hn

theorem declsIn_nil : Prog.nil.DeclsIn P S async := DeclsIn.nil

theorem declsIn_append {p q : Prog} (hp : p.DeclsIn P S async) (hq : q.DeclsIn P S async) : (p ++ q).DeclsIn P S async := by
  unfold Prog.DeclsIn
  rw [Prog.nameUses_append]
  exact Verif.DeclsIn.append hp hq

theorem declsIn_op (hS : ∀ n, Verif.DeclsIn P (S.uses n)) {i : Op} {p : Prog} (hi : i.declIn P) (hp : p.DeclsIn P S async) :
    (Prog.op i p).DeclsIn P S async :=
  Verif.DeclsIn.append (op_declsIn hS hi) hp

theorem declsIn_one (hS : ∀ n, Verif.DeclsIn P (S.uses n)) {i : Op} (hi : i.declIn P) : (Prog.one i).DeclsIn P S async :=
  declsIn_op hS hi declsIn_nil

theorem declsIn_loop {a : Target} {b c : Option Nat} {d : Nat} {p q : Prog} (hp : p.DeclsIn P S async) (hq : q.DeclsIn P S async) :
    (Prog.loop a b c d p q).DeclsIn P S async := by
  intro n hn
  have hl : .decl n ∉ loopUses b c := by cases b <;> cases c <;> simp [loopUses]
  simp only [Prog.nameUses, bindsReg, List.cons_append, List.mem_cons, List.mem_append, reduceCtorEq, false_or] at hn
  rcases hn with (hn | hn) | hn
  · exact absurd hn hl
  · exact hp n hn
  · exact hq n hn

theorem declsIn_cond {rs : List Nat} {a : Nat} {p q : Prog} (hp : p.DeclsIn P S async) (hq : q.DeclsIn P S async) :
    (Prog.cond rs a p q).DeclsIn P S async := by
  intro n hn
  simp only [Prog.nameUses, bindsReg, List.mem_append, List.mem_map, List.mem_cons, reduceCtorEq, and_false, exists_false, false_or, or_false,
    List.not_mem_nil] at hn
  exact hn.elim (hp n) (hq n)

theorem declsIn_condPred {a : Nat} {p q : Prog} (hp : p.DeclsIn P S async) (hq : q.DeclsIn P S async) :
    (Prog.condPred a p q).DeclsIn P S async := Verif.DeclsIn.append hp hq

theorem declsIn_condWrap (hS : ∀ n, Verif.DeclsIn P (S.uses n)) {a : Nat} {u : Target} {n : Nat} {x : String} {as : List Nat} {p q : Prog}
    (hp : p.DeclsIn P S async) (hq : q.DeclsIn P S async) : (Prog.condWrap a p u n x as q).DeclsIn P S async := by
  intro m hm
  cases async <;> simp only [Prog.nameUses, bindsReg, List.mem_cons, List.mem_append, reduceCtorEq, false_or, or_false, if_true,
    if_false, Bool.false_eq_true, List.not_mem_nil] at hm <;> rcases hm with (hm | hm) | hm
  · exact hS x m hm
  · exact hp m hm
  · exact hq m hm
  · exact hS x m hm
  · exact hp m hm
  · exact hq m hm

theorem genArgs_declsIn (hS : ∀ n, Verif.DeclsIn P (S.uses n)) (m : RegMap) : ∀ (es : List Expr) (c : Nat), MentionsIn P es →
    (genArgs m c es).2.1.DeclsIn P S async
  | [], _, _ => declsIn_nil
  | e :: es, c, h => declsIn_op hS (h e (by simp)) (genArgs_declsIn hS m es _ fun e he => h e (by simp [he]))

theorem genLeaf_declsIn (hS : ∀ n, Verif.DeclsIn P (S.uses n)) (m : RegMap) (src : Target) : ∀ (ty : LTy) (c : Nat), ty.DeclsIn P →
    MentionsIn P (Enc.LTy.exprs ty) → (genLeaf m src ty c).2.1.DeclsIn P S async
  | .prim p, c, _, _ => declsIn_one hS trivial
  | .ref target foreign res args, c, ht, h => by
    have ha := genArgs_declsIn (async := async) hS m args (c + 1) h
    simp only [genLeaf]
    split
    · exact declsIn_append ha (declsIn_one hS trivial)
    · rename_i hf
      exact declsIn_append ha (declsIn_one hS (ht.1 (by simpa using hf)))
  | .array elem len, c, ht, h => by
    have ih := fun c => genLeaf_declsIn hS m src elem c ht h.right
    have hr : ∀ t, elem.resolved = .repr t → P t.name := by
      intro t he
      cases elem with
      | ref n f res args => exact ht.2 t he
      | _ => cases he
    cases len with
    | term e =>
      have he : DeclsIn P e.nameUses := h.left e (by simp)
      exact declsIn_op hS he (declsIn_loop (declsIn_append (ih _) (declsIn_one hS trivial)) declsIn_nil)
    | fixed e =>
      have he : DeclsIn P e.nameUses := h.left e (by simp)
      simp only [genLeaf]
      split
      · exact declsIn_op hS he (declsIn_one hS trivial)
      · rename_i t ht; exact declsIn_op hS he (declsIn_one hS (hr t ht))
      · exact declsIn_op hS he (declsIn_loop (declsIn_append (ih _) (declsIn_one hS trivial)) declsIn_nil)
    | unbounded =>
      simp only [genLeaf]
      split
      · exact declsIn_one hS trivial
      · rename_i t ht; exact declsIn_one hS (hr t ht)
      · exact declsIn_loop (declsIn_append (ih _) (declsIn_one hS trivial)) declsIn_nil

theorem genXforms_declsIn (hS : ∀ n, Verif.DeclsIn P (S.uses n)) (m : RegMap) : ∀ (xs : List XformUse) (src : Target) (c : Nat),
    MentionsIn P (xs.flatMap Enc.XformUse.exprs) → (genXforms m src c xs).2.1.DeclsIn P S async
  | [], _, _, _ => declsIn_nil
  | x :: xs, src, c, h => by
    rw [List.flatMap_cons] at h
    have hx := h.left
    have ih := fun src c => genXforms_declsIn hS m xs src c h.right
    have ha : MentionsIn P x.args := hx.right
    simp only [genXforms]
    split
    · rename_i e he
      have h1 : DeclsIn P e.nameUses := hx.left e (by simp [he])
      exact declsIn_op hS h1 (declsIn_condWrap hS (genArgs_declsIn hS m _ _ ha) (ih _ _))
    · exact declsIn_append (genArgs_declsIn hS m _ _ ha) (declsIn_op hS trivial (ih _ _))

theorem genXforms_rev_declsIn (hS : ∀ n, Verif.DeclsIn P (S.uses n)) (m : RegMap) (xs : List XformUse) (src : Target) (c : Nat)
    (h : MentionsIn P (xs.flatMap Enc.XformUse.exprs)) : (genXforms m src c xs.reverse).2.1.DeclsIn P S async :=
  genXforms_declsIn hS m _ _ _ fun e he => h e (by simpa using he)

theorem genCond_declsIn (hS : ∀ n, Verif.DeclsIn P (S.uses n)) (m : RegMap) (cond : Option Expr) (c : Nat) (h : MentionsIn P cond.toList) :
    (genCond m cond c).2.1.DeclsIn P S async := by
  cases cond with
  | none => exact declsIn_nil
  | some e => exact declsIn_one hS (h e (by simp))

theorem wrapCond_declsIn (cr : Option Nat) (rs : List Nat) {p : Prog} (h : p.DeclsIn P S async) : (wrapCond cr rs p).DeclsIn P S async := by
  cases cr with
  | none => exact h
  | some r => exact declsIn_cond h declsIn_nil

theorem genConstrict_declsIn (hS : ∀ n, Verif.DeclsIn P (S.uses n)) (m : RegMap) (src : Target) (len : Option Expr) (c : Nat)
    (h : MentionsIn P len.toList) : (genConstrict m src len c).2.1.DeclsIn P S async := by
  cases len with
  | none => exact declsIn_nil
  | some e => exact declsIn_op hS (h e (by simp)) (declsIn_one hS trivial)

theorem genItems_declsIn (hS : ∀ n, Verif.DeclsIn P (S.uses n)) : ∀ (fs : Fields) (m : RegMap) (c : Nat) (src : Target),
    fs.DeclsIn P → MentionsIn P fs.exprs → (genItems src fs m c).2.2.1.DeclsIn P S async
  | .nil, _, _, _, _, _ => declsIn_nil
  | .pad n e rest, m, c, src, hf, h =>
    declsIn_op hS (h e (by simp [Fields.exprs])) (declsIn_op hS trivial
      (genItems_declsIn hS rest m _ src hf fun e he => h e (by simp [Fields.exprs, he])))
  | .leaf a ty rest, m, c, src, hf, h => by
    have ha : MentionsIn P (Enc.FAttr.exprs a) := h.left.left.left
    exact declsIn_append (declsIn_append (genCond_declsIn hS m _ _ ha.left) (wrapCond_declsIn _ _ (declsIn_append
      (genXforms_rev_declsIn hS m _ _ _ ha.right) (genLeaf_declsIn hS m _ _ _ hf.1 h.left.left.right))))
      (genItems_declsIn hS rest _ _ src hf.2 h.right)
  | .cont a len items rest, m, c, src, hf, h => by
    have ha : MentionsIn P (Enc.FAttr.exprs a) := h.left.left.left
    exact declsIn_append (declsIn_append (genCond_declsIn hS m _ _ ha.left) (wrapCond_declsIn _ _ (declsIn_append (declsIn_append
      (genXforms_rev_declsIn hS m _ _ _ ha.right) (genConstrict_declsIn hS m _ _ _ h.left.left.right))
      (genItems_declsIn hS items _ _ _ hf.1 h.left.right))))
      (genItems_declsIn hS rest _ _ src hf.2 h.right)

theorem genArm_declsIn (hS : ∀ n, Verif.DeclsIn P (S.uses n)) (n : String) (hn : P n) (src : Target) (arm : Arm) (m : RegMap) (c : Nat)
    (hb : arm.body.DeclsIn P) (h : MentionsIn P arm.exprs) :
    (genArm n src arm m c).2.2.1.DeclsIn P S async ∧ (genArm n src arm m c).2.2.2.declIn P := by
  obtain ⟨a, body⟩ := arm
  cases body with
  | leaf ty => exact ⟨genLeaf_declsIn hS m _ _ _ hb h.right, hn⟩
  | cont len items =>
    exact ⟨declsIn_append (genConstrict_declsIn hS m _ _ _ (MentionsIn.left (b := items.exprs) h.right))
      (genItems_declsIn hS items _ _ _ hb (MentionsIn.right (a := len.toList) h.right)), hn⟩

theorem genArms_declsIn (hS : ∀ n, Verif.DeclsIn P (S.uses n)) (n : String) (hn : P n) (src : Target) : ∀ (arms : List Arm) (m : RegMap) (c : Nat),
    (∀ a ∈ arms, a.body.DeclsIn P) → MentionsIn P (arms.flatMap Arm.exprs) → (genArms n src arms m c).2.1.DeclsIn P S async
  | [], _, _, _, _ => declsIn_one hS trivial
  | arm :: arms, m, c, hb, h => by
    rw [List.flatMap_cons] at h
    have ih := fun m c => genArms_declsIn hS n hn src arms m c (fun a ha => hb a (by simp [ha])) h.right
    have hc := genCond_declsIn (async := async) hS m arm.attr.cond c h.left.left.left
    have hx := fun s c => genXforms_rev_declsIn (async := async) hS m arm.attr.xfs s c h.left.left.right
    have ha := fun s c => genArm_declsIn (async := async) hS n hn s arm m c (hb arm (by simp)) h.left
    simp only [genArms]
    split
    · exact declsIn_append hc (declsIn_condPred (declsIn_append (declsIn_append (declsIn_append (hx _ _) (ha _ _).1)
        (declsIn_one hS (ha _ _).2)) (declsIn_one hS trivial)) (ih _ _))
    · exact declsIn_append hc (declsIn_append (declsIn_append (hx _ _) (ha _ _).1) (declsIn_one hS (ha _ _).2))

/-- A decoder mentions the type itself, the types of its fields, the enums and bitfields behind them, and the types its
expressions mention. -/
theorem genDecl_declsIn (hS : ∀ n, Verif.DeclsIn P (S.uses n)) (d : Decl) (hn : P d.name) (hb : d.body.DeclsIn P) (h : MentionsIn P d.exprs) :
    (genDecl d).DeclsIn P S async := by
  obtain ⟨n, ps, xfs, body⟩ := d
  have hx := fun c => genXforms_rev_declsIn (async := async) hS (fun _ => none) xfs .direct c h.left
  cases body with
  | leaf cond ty =>
    exact declsIn_append (declsIn_append (genCond_declsIn hS _ _ _ (MentionsIn.left (b := Enc.LTy.exprs ty) h.right))
      (wrapCond_declsIn _ _ (declsIn_append (hx _) (genLeaf_declsIn hS _ _ _ _ hb (MentionsIn.right (a := cond.toList) h.right)))))
      (declsIn_op hS trivial (declsIn_one hS trivial))
  | repr t => exact declsIn_append (hx _) (declsIn_op hS hb (declsIn_one hS trivial))
  | struct len items =>
    exact declsIn_append (declsIn_append (declsIn_append (hx _) (genConstrict_declsIn hS _ _ _ _ (MentionsIn.left (b := items.exprs) h.right)))
      (genItems_declsIn hS _ _ _ _ hb (MentionsIn.right (a := len.toList) h.right))) (declsIn_op hS hn (declsIn_one hS trivial))
  | tagged len arms =>
    refine declsIn_append (declsIn_append (declsIn_append (hx _) (genConstrict_declsIn hS _ _ _ _ (MentionsIn.left (b := arms.flatMap Arm.exprs) h.right)))
      (genArms_declsIn hS _ hn _ _ _ _ hb (MentionsIn.right (a := len.toList) h.right))) ?_
    split
    · exact declsIn_one hS trivial
    · exact declsIn_nil

end
end Dec
end Verif
