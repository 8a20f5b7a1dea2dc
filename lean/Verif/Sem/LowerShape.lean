import Verif.Sem.Lower
import Verif.Sem.ElabProgram
import Verif.Sem.Shape
import Verif.PrintSpec
/-!
# The generators meet the shapes they expect
-/
namespace Verif.Sem
open Verif Props

/-- Neither an impossible shape nor, if `b`, too deep a nesting. -/
def Sound {α} (b : Prop) (x : G α) : Prop := x ≠ .error .shape ∧ (b → x ≠ .error .fuel)

theorem Sound.ok {α} {b : Prop} {a : α} : Sound b (.ok a : G α) := ⟨by simp, fun _ => by simp⟩

theorem Sound.bind {α β} {b : Prop} {x : G α} {f : α → G β} (h : Sound b x)
    (hf : ∀ a, x = .ok a → Sound b (f a)) : Sound b (x >>= f) := by
  cases x with
  | ok a => exact hf a rfl
  | error e =>
    refine ⟨fun he => h.1 ?_, fun hb he => h.2 hb ?_⟩
    · have : (Except.error e : G β) = .error .shape := he
      cases this; rfl
    · have : (Except.error e : G β) = .error .fuel := he
      cases this; rfl

theorem Sound.map {α β} {b : Prop} {x : G α} {f : α → β} (h : Sound b x) : Sound b (x.map f) := by
  cases x with
  | ok a => exact .ok
  | error e =>
    refine ⟨fun he => h.1 ?_, fun hb he => h.2 hb ?_⟩
    · have : (Except.error e : G β) = .error .shape := he
      cases this; rfl
    · have : (Except.error e : G β) = .error .fuel := he
      cases this; rfl

theorem Sound.panic {α} {b : Prop} {p : GenPanic} : Sound b (.error (.panic p) : G α) :=
  ⟨by simp, fun _ => by simp⟩
theorem Sound.outside {α} {b : Prop} : Sound b (.error .outside : G α) :=
  ⟨by simp, fun _ => by simp⟩

theorem Sound.ofR {α} {b : Prop} (x : R α) : Sound b (ofR x) := by
  rcases x with e | a
  · cases e <;> exact ⟨by simp [Sem.ofR], fun _ => by simp [Sem.ofR]⟩
  · exact .ok

theorem castTarget_sound {b : Prop} (t : AType) : Sound b (castTarget t) := by
  unfold castTarget
  split
  · split <;> exact .ok
  · exact .panic

theorem typeOfG_sound {b : Prop} (h : Heap) (e : AExpr) : Sound b (typeOfG h e) := by
  refine Sound.bind (.ofR _) fun t _ => ?_
  split
  · exact .ok
  · exact .panic

theorem castSource_sound {b : Prop} (h : Heap) (e : AExpr) : Sound b (castSource h e) := by
  refine Sound.bind (typeOfG_sound h e) fun t _ => Sound.bind (.ofR _) fun r _ => ?_
  split <;> exact .ok

theorem lenSize_sound {b : Prop} (h : Heap) (t : AType) : Sound b (lenSize h t) := by
  refine Sound.bind (.ofR _) fun r _ => ?_
  split <;> first | exact .ok | exact .panic

theorem blenTarget_sound {b : Prop} (h : Heap) (e : AExpr) : Sound b (blenTarget h e) := by
  unfold blenTarget
  split
  · exact .map (.ofR _)
  · exact .panic

theorem lowerE_sound {b : Prop} (h : Heap) (e : AExpr) : Sound b (lowerE h e) := by
  fun_induction lowerE h e with
  | case1 op l r il ir => exact .bind il fun _ _ => .bind ir fun _ _ => .ok
  | case2 op e ie => exact .bind ie fun _ _ => .ok
  | case3 e ty ie =>
    exact .bind ie fun _ _ => .bind (castTarget_sound _) fun _ _ => .bind (castSource_sound _ _) fun _ _ => .ok
  | case4 a i ia ii => exact .bind ia fun _ _ => .bind ii fun _ _ => .ok
  | case5 f n t v iv => exact .bind (.ofR _) fun _ _ => .bind iv fun _ _ => .ok
  | case6 => exact .ok
  | case7 n t v iv => exact .bind iv fun _ _ => .ok
  | case8 => exact .ok
  | case9 f =>
    refine .bind (.ofR _) fun x _ => ?_
    split
    · exact .outside
    · exact .ok
  | case10 => exact .ok
  | case11 c t f ic it iF => exact .bind ic fun _ _ => .bind it fun _ _ => .bind iF fun _ _ => .ok
  | case12 => exact .ok
  | case13 t a ia =>
    exact .bind (typeOfG_sound _ _) fun _ _ => .bind (lenSize_sound _ _) fun _ _ => .bind ia fun _ _ => .ok
  | case14 t a => exact .bind (blenTarget_sound _ _) fun _ _ => .ok
  | case15 t a ia =>
    refine .bind (typeOfG_sound _ _) fun _ _ => .bind ia fun _ _ => ?_
    split
    · exact .ok
    · exact .panic
  | case16 t a ia => exact .bind ia fun _ _ => .ok
  | case17 t a c ia ic => exact .bind ia fun _ _ => .bind ic fun _ _ => .ok
  | case18 => exact .outside
  | case19 e n t v ie iv => exact .bind ie fun _ _ => .bind iv fun _ _ => .ok

theorem lowerEs_sound {b : Prop} (h : Heap) : ∀ es, Sound b (lowerEs h es)
  | [] => .ok
  | e :: es => .bind (lowerE_sound h e) fun _ _ => .bind (lowerEs_sound h es) fun _ _ => .ok

theorem lowerOpt_sound {b : Prop} (h : Heap) : ∀ e, Sound b (lowerOpt h e)
  | none => .ok
  | some e => .map (lowerE_sound h e)

theorem constInt_sound {b : Prop} (oc : Bool) (h : Heap) (e : AExpr) : Sound b (constInt oc h e) := by
  refine .bind (lowerE_sound h e) fun e' _ => ?_
  split <;> first | exact .ok | exact .outside | exact .panic

theorem lowerVariants_sound {b : Prop} (oc : Bool) (h : Heap) : ∀ vs, Sound b (lowerVariants oc h vs)
  | [] => .ok
  | .default _ :: vs => .bind (lowerVariants_sound oc h vs) fun _ _ => .ok
  | .value (.mk _ _ v) :: vs =>
    .bind (constInt_sound oc h v) fun _ _ => .bind (lowerVariants_sound oc h vs) fun _ _ => .ok

theorem lowerFlags_sound {b : Prop} (oc : Bool) (h : Heap) : ∀ vs, Sound b (lowerFlags oc h vs)
  | [] => .ok
  | .mk _ _ v :: vs =>
    .bind (constInt_sound oc h v) fun _ _ => .bind (lowerFlags_sound oc h vs) fun _ _ => .ok

theorem lowerRepr_sound {b : Prop} (oc : Bool) (h : Heap) (t : AType) : Sound b (lowerRepr oc h t) := by
  unfold lowerRepr
  split
  · exact .bind (lowerVariants_sound _ _ _) fun _ _ => .ok
  · exact .bind (lowerFlags_sound _ _ _) fun _ _ => .ok
  · exact .ok

theorem lowerResolved_sound {b : Prop} (oc : Bool) (h : Heap) (t : AType) :
    Sound b (lowerResolved oc h t) := by
  refine .bind (.ofR _) fun r _ => .bind (lowerRepr_sound _ _ _) fun _ _ => ?_
  split <;> exact .ok

theorem lowerXforms_sound {b : Prop} (h : Heap) : ∀ xs, Sound b (lowerXforms h xs)
  | [] => .ok
  | _ :: xs => .bind (lowerOpt_sound h _) fun _ _ => .bind (lowerEs_sound h _) fun _ _ =>
      .bind (lowerXforms_sound h xs) fun _ _ => .ok

theorem lowerAttr_sound {b : Prop} (h : Heap) (x : AField) : Sound b (lowerAttr h x) :=
  .bind (lowerOpt_sound h _) fun _ _ => .bind (lowerXforms_sound h _) fun _ _ =>
    .bind (lowerOpt_sound h _) fun _ _ => .ok

theorem lowerParams_sound {b : Prop} : ∀ as, Sound b (lowerParams as)
  | [] => .ok
  | a :: as => by
    rw [lowerParams]
    split
    · exact .outside
    · split
      · exact .map (lowerParams_sound as)
      · exact .panic

theorem contItem_sound {b : Prop} {a : FAttr} {l : Option Expr} {i r : Fields} : Sound b (contItem a l i r) := by
  unfold contItem
  split
  · exact .outside
  · split
    · exact .panic
    · exact .ok

/-- The type of a field that is not a container. -/
theorem lowerTy_sound {b : Prop} {p : Prog} {oc : Bool} {h : Heap} : ∀ (ty : Ast.Ty) {sc : Scope} {t : AType}
    {pl : Place}, ElabTy p h sc ty t → PlacedTy pl ty → pl ≠ .body → t.isContainer = false → SpeltT ty →
    Sound b (lowerTy oc h t)
  | .container len fl items, sc, t, pl, he, _, _, hc, _ => by cases he; cases hc
  | .enum rep items, sc, t, pl, he, hp, hb, _, _ => by rw [PlacedTy] at hp; exact (hb hp.1).elim
  | .bitfield rep items, sc, t, pl, he, hp, hb, _, _ => by rw [PlacedTy] at hp; exact (hb hp.1).elim
  | .scalar s, sc, t, pl, he, _, _, _, _ => by cases he; exact .ok
  | .f32, sc, t, pl, he, _, _, _, _ => by cases he; exact .ok
  | .f64, sc, t, pl, he, _, _, _, _ => by cases he; exact .ok
  | .bool, sc, t, pl, he, _, _, _, _ => by cases he; exact .ok
  | .array el x len, sc, t, pl, he, hp, _, _, hs => by
    rw [PlacedTy] at hp
    rw [SpeltT] at hs
    cases he with
    | array he hl =>
      rw [lowerTy]
      refine .bind (lowerTy_sound el he hp.1 (by simp) ?_ hs.1) fun _ _ => .bind ?_ fun _ _ => .ok
      · cases el with
        | container =>
          have := hp.1
          rw [PlacedTy] at this
          exact this.1.elim
        | _ => cases he; rfl
      · cases hl with
        | none =>
          obtain ⟨_, _, rfl | h⟩ := hs
          · exact .ok
          · exact (h rfl).elim
        | some _ => cases x <;> exact .map (lowerE_sound _ _)
  | .ref n args, sc, t, pl, he, _, _, _, _ => by
    cases he with
    | ref hf ha =>
      exact .bind (.ofR _) fun _ _ => .bind (lowerEs_sound _ _) fun _ _ =>
        .bind (lowerResolved_sound _ _ _) fun _ _ => .ok

/-- Facts about the cell of one item of a container. -/
theorem itemCell_cases {p : Prog} {h : Heap} : ∀ {items : List Ast.Item} {sc : Scope}
    {before : List (String × FId)} {k : Nat} {cells : List FId} {n : String} {f : FId},
    ElabItems p h sc before items k cells → (n, f) ∈ itemCells items k cells →
    ∃ x, h[f]? = some x ∧ x.name = n ∧ x.toplevel = false ∧
      ((∃ fld sc', .field n fld ∈ items ∧ x.pad = false ∧ ElabMid p h sc' fld x) ∨
       (∃ e tag len, .pad e ∈ items ∧ x.pad = true ∧ x.condition = none ∧ x.transforms = [] ∧ x.calculated = none ∧
          x.type = .array tag (.scalar Scalar.u8.toE) false (some len)))
  | _, _, _, _, _, _, _, .nil, hm => by simp [itemCells] at hm
  | _, _, _, _, _, n, f, .field (n := n') (fld := fld) (rest := rest) (f := f') (x := x) h1 h2 h3 h4 h5 hr, hm => by
    rw [itemCells] at hm
    rcases List.mem_cons.1 hm with he | hm
    · cases he
      exact ⟨x, h1, h2, h4, .inl ⟨fld, _, List.mem_cons_self, h3, h5⟩⟩
    · obtain ⟨y, a, b, c, d⟩ := itemCell_cases hr hm
      refine ⟨y, a, b, c, ?_⟩
      rcases d with ⟨g, s, d, d'⟩ | ⟨e, tag, len, d, d'⟩
      · exact .inl ⟨g, s, List.mem_cons_of_mem _ d, d'⟩
      · exact .inr ⟨e, tag, len, List.mem_cons_of_mem _ d, d'⟩
  | _, _, _, _, _, n, f, .pad (e := e) (rest := rest) (f := f') (x := x) h1 h2 h3 h4 h5 h6 h7 h8 h9 hr, hm => by
    rw [itemCells] at hm
    rcases List.mem_cons.1 hm with he | hm
    · cases he
      exact ⟨x, h1, h2, h4, .inr ⟨e, _, _, List.mem_cons_self, h3, h5, h6, h7, h8⟩⟩
    · obtain ⟨y, a, b, c, d⟩ := itemCell_cases hr hm
      refine ⟨y, a, b, c, ?_⟩
      rcases d with ⟨g, s, d, d'⟩ | ⟨e, tag, len, d, d'⟩
      · exact .inl ⟨g, s, List.mem_cons_of_mem _ d, d'⟩
      · exact .inr ⟨e, tag, len, List.mem_cons_of_mem _ d, d'⟩

theorem mem_insert {α} {k n : String} {v f : α} : ∀ {m : List (String × α)},
    (n, f) ∈ IMap.insert m k v → (n, f) ∈ m ∨ (n, f) = (k, v)
  | [], h => by simpa [IMap.insert] using h
  | (k', v') :: m, h => by
    rw [IMap.insert] at h
    split at h
    · rcases List.mem_cons.1 h with h | h
      · exact .inr (by simp_all)
      · exact .inl (List.mem_cons_of_mem _ h)
    · rcases List.mem_cons.1 h with h | h
      · exact .inl (h ▸ List.mem_cons_self)
      · rcases mem_insert h with h | h
        · exact .inl (List.mem_cons_of_mem _ h)
        · exact .inr h

theorem mem_insertAll {α} {n : String} {f : α} : ∀ {l m : List (String × α)},
    (n, f) ∈ insertAll m l → (n, f) ∈ m ∨ (n, f) ∈ l
  | [], m, h => .inl h
  | x :: l, m, h => by
    rcases mem_insertAll (l := l) h with h | h
    · rcases mem_insert h with h | h
      · exact .inl h
      · exact .inr (by rw [h]; exact List.mem_cons_self)
    · exact .inr (List.mem_cons_of_mem _ h)

theorem placedItems_mem : ∀ {items : List Ast.Item} {n : String} {fld : Ast.Field}, PlacedItems items →
    .field n fld ∈ items → PlacedField .inside fld
  | .field m g :: rest, n, fld, h, hm => by
    rw [PlacedItems] at h
    rcases List.mem_cons.1 hm with he | hm
    · cases he; exact h.1
    · exact placedItems_mem h.2 hm
  | .pad e :: rest, n, fld, h, hm => by
    rw [PlacedItems] at h
    rcases List.mem_cons.1 hm with he | hm
    · cases he
    · exact placedItems_mem h.2 hm

theorem speltItems_mem : ∀ {items : List Ast.Item} {n : String} {fld : Ast.Field}, SpeltItems items →
    .field n fld ∈ items → SpeltF fld
  | i :: rest, n, fld, h, hm => by
    rw [SpeltItems] at h
    rcases List.mem_cons.1 hm with he | hm
    · subst he; simpa [SpeltItem] using h.1
    · exact speltItems_mem h.2 hm

/-- What is known about the cell of a field. -/
structure FieldOk (p : Prog) (h : Heap) (pl : Place) (size : Nat) (x : AField) : Prop where
  some : ∃ fld sc, ElabMid p h sc fld x ∧ PlacedField pl fld ∧ SpeltF fld ∧ sizeOf fld ≤ size

theorem nested_sound {p : Prog} {h : Heap} {size : Nat} {x : AField} (hx : FieldOk p h .inside size x) :
    (∃ t len items cells ast sc before, x.type = .container t len items false ∧
      items = insertAll [] (itemCells ast 0 cells) ∧ ElabItems p h sc before ast 0 cells ∧ PlacedItems ast ∧
      SpeltItems ast ∧ sizeOf ast < size) ∨
    (x.type.isContainer = false ∧ ∀ b oc, Sound b (lowerTy oc h x.type)) := by
  obtain ⟨⟨ty, fl, cal, cond, xs⟩, sc, he, hp, hs, hz⟩ := hx.some
  rw [PlacedField] at hp
  rw [SpeltF] at hs
  cases he with
  | mk _ ht _ _ =>
    have hp := hp.2.1
    have hs := hs.1
    generalize hxt : x.type = xt at ht
    cases ty with
    | container len fl' items =>
      cases ht with
      | container q1 hf q2 q3 hi hit q4 =>
        rw [PlacedTy] at hp
        rw [SpeltT] at hs
        rename_i tag its isEnum cells
        cases hb : isEnum with
        | true =>
          have := (hp.2.2.2.1 (hf.1 hb)).1
          cases this
        | false =>
          refine .inl ⟨_, _, _, _, _, _, _, rfl, hi, hit, hp.2.2.2.2, hs.2, ?_⟩
          simp at hz
          omega
    | _ =>
      have hc : xt.isContainer = false := by cases ht; rfl
      exact .inr ⟨hc, fun b oc => lowerTy_sound _ ht hp (by simp) hc hs⟩

theorem deref_some {h : Heap} {f : FId} {x : AField} (hx : h[f]? = some x) : deref h f = .ok x := by
  unfold deref; rw [hx]

theorem sizeOf_mem_field {items : List Ast.Item} {n : String} {fld : Ast.Field}
    (hm : Ast.Item.field n fld ∈ items) : sizeOf fld < sizeOf items := by
  have := List.sizeOf_lt_of_mem hm
  simp at this
  omega

theorem lowerItemsWith_sound {b : Prop} {p : Prog} {oc : Bool} {h : Heap} {ast : List Ast.Item} {sc : Scope}
    {before : List (String × FId)} {k : Nat} {cells : List FId} {nested : List (String × FId) → G Fields}
    (he : ElabItems p h sc before ast k cells) (hp : PlacedItems ast) (hs : SpeltItems ast)
    (hn : ∀ its cs as sc bf, its = insertAll [] (itemCells as 0 cs) → ElabItems p h sc bf as 0 cs → PlacedItems as →
      SpeltItems as → sizeOf as < sizeOf ast → Sound b (nested its)) :
    ∀ (its : List (String × FId)), (∀ x ∈ its, x ∈ itemCells ast k cells) →
      Sound b (lowerItemsWith oc h nested its)
  | [], _ => .ok
  | (n, f) :: rest, hm => by
    have ir := lowerItemsWith_sound (oc := oc) he hp hs hn rest fun x hx => hm x (List.mem_cons_of_mem _ hx)
    obtain ⟨x, h1, h2, h3, h4⟩ := itemCell_cases he (hm _ List.mem_cons_self)
    rw [lowerItemsWith]
    refine .bind (.ofR _) fun y hy => ?_
    rw [deref_some h1] at hy
    cases hy
    rw [if_neg (by simp [h2, h3])]
    rcases h4 with ⟨fld, sc', hf, h4, h5⟩ | ⟨e, tag, len, _, h4, h5, h6, h7, h8⟩
    · rw [if_neg (by simp [h4])]
      have ho : FieldOk p h .inside (sizeOf ast) x :=
        ⟨fld, sc', h5, placedItems_mem hp hf, speltItems_mem hs hf, Nat.le_of_lt (sizeOf_mem_field hf)⟩
      rcases nested_sound ho with ⟨t, len, its, cs, as, sc, bf, ht, hi, hit, hpa, hsa, hz⟩ | ⟨hc, hl⟩
      · rw [ht]
        exact .bind (lowerAttr_sound _ _) fun _ _ => .bind (lowerOpt_sound _ _) fun _ _ =>
          .bind (hn _ _ _ _ _ hi hit hpa hsa hz) fun _ _ => .bind ir fun _ _ => contItem_sound
      · have hl := hl b oc
        split
        · rename_i ht; rw [ht] at hc; cases hc
        · rename_i ht; rw [ht] at hc; cases hc
        · exact .bind (lowerAttr_sound _ _) fun _ _ => .bind hl fun _ _ => .bind ir fun _ _ => .ok
    · rw [if_pos h4]
      refine .bind ?_ fun _ _ => .bind ir fun _ _ => .ok
      unfold lowerPad
      rw [h8, h5, h6, h7]
      exact lowerE_sound _ _

theorem lowerItems_sound {p : Prog} {oc : Bool} {h : Heap} : ∀ (m : Nat) {ast : List Ast.Item} {sc : Scope}
    {before : List (String × FId)} {k : Nat} {cells : List FId} {its : List (String × FId)},
    ElabItems p h sc before ast k cells → PlacedItems ast → SpeltItems ast →
    (∀ x ∈ its, x ∈ itemCells ast k cells) → Sound (sizeOf ast ≤ m) (lowerItems oc h m its)
  | 0, ast, _, _, _, _, _, _, _, _, _ => ⟨by simp [lowerItems], fun hz => by cases ast <;> simp at hz <;> omega⟩
  | m + 1, ast, _, _, _, _, its, he, hp, hs, hm => by
    rw [lowerItems]
    refine lowerItemsWith_sound he hp hs ?_ its hm
    intro its cs as sc bf hi hit hpa hsa hz
    have := lowerItems_sound (oc := oc) m hit hpa hsa (its := its) (by
      intro x hx
      rw [hi] at hx
      rcases mem_insertAll hx with h | h
      · cases h
      · exact h)
    exact ⟨this.1, fun hb => this.2 (by omega)⟩

theorem armItems_no_pad : ∀ {items : List Ast.Item} {e : Ast.Expression}, ArmItems items → .pad e ∉ items
  | [], _, _ => by simp
  | .pad _ :: _, _, h => h.elim
  | .field _ _ :: rest, e, h => by
    have := armItems_no_pad (e := e) h.2
    simp [this]

theorem lowerArms_sound {m : Nat} {p : Prog} {oc : Bool} {h : Heap} {ast : List Ast.Item} {sc : Scope}
    {before : List (String × FId)} {k : Nat} {cells : List FId}
    (he : ElabItems p h sc before ast k cells) (hp : PlacedItems ast) (hs : SpeltItems ast) (ha : ArmItems ast) :
    ∀ (its : List (String × FId)), (∀ x ∈ its, x ∈ itemCells ast k cells) →
      Sound (sizeOf ast ≤ m) (lowerArms oc h m its)
  | [], _ => .ok
  | (n, f) :: rest, hm => by
    have ir := lowerArms_sound (m := m) (oc := oc) he hp hs ha rest fun x hx => hm x (List.mem_cons_of_mem _ hx)
    obtain ⟨x, h1, h2, h3, h4⟩ := itemCell_cases he (hm _ List.mem_cons_self)
    rw [lowerArms]
    refine .bind ?_ fun _ _ => .bind ir fun _ _ => .ok
    rw [lowerArm]
    refine .bind (.ofR _) fun y hy => ?_
    rw [deref_some h1] at hy
    cases hy
    rcases h4 with ⟨fld, sc', hf, h4, h5⟩ | ⟨e, tag, len, hf, h4, h5, h6, h7, h8⟩
    · rw [if_neg (by simp [h2, h3, h4])]
      refine .bind (lowerAttr_sound _ _) fun a _ => ?_
      split
      · exact .outside
      have ho : FieldOk p h .inside (sizeOf ast) x :=
        ⟨fld, sc', h5, placedItems_mem hp hf, speltItems_mem hs hf, Nat.le_of_lt (sizeOf_mem_field hf)⟩
      rcases nested_sound ho with ⟨t, len, its, cs, as, sc, bf, ht, hi, hit, hpa, hsa, hz⟩ | ⟨hc, hl⟩
      · rw [ht]
        refine .bind (lowerOpt_sound _ _) fun _ _ => .bind ?_ fun _ _ => .ok
        have := lowerItems_sound (oc := oc) m hit hpa hsa (its := its) (by
          intro x hx
          rw [hi] at hx
          rcases mem_insertAll hx with h | h
          · cases h
          · exact h)
        exact ⟨this.1, fun hb => this.2 (by omega)⟩
      · have hl := hl (sizeOf ast ≤ m) oc
        split
        · rename_i ht; rw [ht] at hc; cases hc
        · rename_i ht; rw [ht] at hc; cases hc
        · exact .bind hl fun _ _ => .ok
    · exact (armItems_no_pad ha hf).elim

theorem bind_some {α β} {x : G α} {g : α → β} {r : Option β} (h : (x >>= fun v => .ok (some (g v))) = .ok r) :
    ∃ v, r = some v := by
  cases x with
  | ok a => exact ⟨g a, (Except.ok.inj h).symm⟩
  | error e => cases h

/-- A declaration. -/
theorem lowerDecl_sound {m : Nat} {p : Prog} {oc : Bool} {h : Heap} {id : FId} {x : AField} {f : Ast.Field}
    {sc : Scope} (hx : h[id]? = some x) (he : ElabMid p h sc f x) (hp : PlacedField .body f) (hs : SpeltF f) :
    Sound (sizeOf f ≤ m) (lowerDecl oc h m id) := by
  unfold lowerDecl
  refine .bind (.ofR _) fun y hy => ?_
  rw [deref_some hx] at hy
  cases hy
  refine .bind (lowerParams_sound _) fun ps _ => .bind (lowerXforms_sound _ _) fun _ _ => .bind ?_ fun _ _ => ?_
  · unfold lowerBody
    refine .bind (lowerOpt_sound _ _) fun c _ => ?_
    obtain ⟨ty, fl, cal, cond, xs⟩ := f
    rw [PlacedField] at hp
    rw [SpeltF] at hs
    cases he with
    | mk _ ht _ _ =>
      have hp := hp.2.1
      have hs := hs.1
      generalize x.type = xt at ht
      have plain : ∀ {r}, PlacedTy .inside ty → xt.isContainer = false → lowerRepr oc h xt = .ok r →
          r = none → Sound (sizeOf (Ast.Field.mk ty fl cal cond xs) ≤ m) (match r with
            | some r => if c.isSome then .error .outside else .ok (.repr r)
            | none => do
              let ty ← lowerTy oc h xt
              .ok (.leaf c ty) : G Body) := by
        intro r hp hc hr e
        subst e
        exact .bind (lowerTy_sound ty ht hp (by simp) hc hs) fun _ _ => .ok
      cases ty with
      | container len fl' items =>
        cases ht with
        | container q1 hf q2 q3 hi hit q4 =>
          rename_i tag its isEnum cells
          rw [PlacedTy] at hp
          rw [SpeltT] at hs
          refine .bind (lowerOpt_sound _ _) fun l _ => ?_
          split
          · exact .outside
          have hm : ∀ x ∈ its, x ∈ itemCells items 0 cells := by
            intro x hx
            rw [hi] at hx
            rcases mem_insertAll hx with h | h
            · cases h
            · exact h
          split
          · rename_i hb
            refine .bind ?_ fun _ _ => .ok
            have := lowerArms_sound (m := m) (oc := oc) hit hp.2.2.2.2 hs.2 (hp.2.2.2.1 (hf.1 hb)).2 its hm
            exact ⟨this.1, fun hz => this.2 (by simp at hz; omega)⟩
          · refine .bind ?_ fun _ _ => .ok
            have := lowerItems_sound (oc := oc) m hit hp.2.2.2.2 hs.2 hm
            exact ⟨this.1, fun hz => this.2 (by simp at hz; omega)⟩
      | enum rep items =>
        cases ht
        refine .bind (lowerRepr_sound _ _ _) fun r hr => ?_
        obtain ⟨v, rfl⟩ := bind_some hr
        show Sound _ (if c.isSome then _ else _)
        split
        · exact .outside
        · exact .ok
      | bitfield rep items =>
        cases ht
        refine .bind (lowerRepr_sound _ _ _) fun r hr => ?_
        obtain ⟨v, rfl⟩ := bind_some hr
        show Sound _ (if c.isSome then _ else _)
        split
        · exact .outside
        · exact .ok
      | scalar s => cases ht; exact .bind (lowerRepr_sound _ _ _) fun r hr => plain (by simp [PlacedTy]) rfl hr (by cases hr; rfl)
      | f32 => cases ht; exact .bind (lowerRepr_sound _ _ _) fun r hr => plain (by simp [PlacedTy]) rfl hr (by cases hr; rfl)
      | f64 => cases ht; exact .bind (lowerRepr_sound _ _ _) fun r hr => plain (by simp [PlacedTy]) rfl hr (by cases hr; rfl)
      | bool => cases ht; exact .bind (lowerRepr_sound _ _ _) fun r hr => plain (by simp [PlacedTy]) rfl hr (by cases hr; rfl)
      | array el e len =>
        have hp : PlacedTy .inside (.array el e len) := by rw [PlacedTy] at hp ⊢; exact hp
        cases ht; exact .bind (lowerRepr_sound _ _ _) fun r hr => plain hp rfl hr (by cases hr; rfl)
      | ref n args =>
        have hp : PlacedTy .inside (.ref n args) := by rw [PlacedTy] at hp ⊢; exact hp
        cases ht; exact .bind (lowerRepr_sound _ _ _) fun r hr => plain hp rfl hr (by cases hr; rfl)
  · split
    · exact .outside
    · exact .ok

end Verif.Sem
