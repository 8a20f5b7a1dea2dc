import Verif.Sem.LowerFirm
import Verif.Sem.LowerShape
import Verif.Sem.Dups
import Verif.Lexical
/-!
# References of accepted programs stay in scope all the way to the generators
-/
namespace Verif.Sem
open Verif Props Enc

/-- The cells that can be named in a scope. -/
def Vis (sc : Scope) (f : FId) : Prop := ∃ n, FieldVisible sc n f

theorem elabE_of {p : Prog} {h : Heap} {N : Nat} {sc : Scope} {src : Ast.Expression} {S : FId → Prop}
    (hC : ∀ {e}, ElabC p h sc src e → WfE N S e → WfE N (Vis sc) e) {e : AExpr}
    (he : ElabE p h sc src e) (hw : WfE N S e) : WfE N (Vis sc) e := by
  cases he with
  | exact he => exact hC he hw
  | widened he => rw [WfE] at hw ⊢; exact ⟨hC he hw.1, hw.2⟩

mutual
/-- The fields an expression refers to are visible. -/
theorem elabC_wf {p : Prog} {h : Heap} {N : Nat} : ∀ (src : Ast.Expression) {sc : Scope} {S : FId → Prop} {e : AExpr},
    ElabC p h sc src e → WfE N S e → WfE N (Vis sc) e
  | .binary op l r, sc, S, e, he, hw => by
    cases he with
    | binary h1 h2 =>
      rw [WfE] at hw ⊢
      exact ⟨elabE_of (elabC_wf l) h1 hw.1, elabE_of (elabC_wf r) h2 hw.2⟩
  | .member x m, sc, S, e, he, hw => by
    cases he with
    | member h1 h2 => rw [WfE] at hw ⊢; exact ⟨elabE_of (elabC_wf x) h1 hw.1, hw.2⟩
  | .unary op x, sc, S, e, he, hw => by
    cases he with
    | unary h1 => rw [WfE] at hw ⊢; exact elabE_of (elabC_wf x) h1 hw
  | .cast x ty, sc, S, e, he, hw => by
    cases he with
    | cast h1 h2 => rw [WfE] at hw ⊢; exact ⟨elabE_of (elabC_wf x) h1 hw.1, hw.2⟩
  | .index a i, sc, S, e, he, hw => by
    cases he with
    | index h1 h2 =>
      rw [WfE] at hw ⊢
      exact ⟨elabE_of (elabC_wf a) h1 hw.1, elabE_of (elabC_wf i) h2 hw.2⟩
  | .enumAccess n v, sc, S, e, he, hw => by
    cases he with
    | enumAccess h1 h2 => rw [WfE] at hw ⊢; exact hw
  | .int v t, sc, S, e, he, hw => by
    cases he with
    | int h1 h2 => rw [WfE]; trivial
  | .ref n, sc, S, e, he, hw => by
    cases he with
    | ref h1 =>
      cases h1 with
      | field h1 => rw [WfE] at hw ⊢; exact ⟨hw.1, n, h1⟩
      | input h1 h2 => rw [WfE] at hw ⊢; exact hw
      | const h1 h2 h3 => rw [WfE] at hw ⊢; exact hw
  | .str c, sc, S, e, he, hw => by
    cases he with
    | str => rw [WfE]; trivial
  | .ternary c t f, sc, S, e, he, hw => by
    cases he with
    | ternary h1 h2 h3 =>
      rw [WfE] at hw ⊢
      exact ⟨elabE_of (elabC_wf c) h1 hw.1, elabE_of (elabC_wf t) h2 hw.2.1, elabE_of (elabC_wf f) h3 hw.2.2⟩
  | .bool b, sc, S, e, he, hw => by
    cases he with
    | bool => rw [WfE]; trivial
  | .call fn args, sc, S, e, he, hw => by
    cases he with
    | call h1 h2 => rw [WfE] at hw ⊢; exact ⟨hw.1, elabArgs_wf args h2 hw.2⟩
theorem elabArgs_wf {p : Prog} {h : Heap} {N : Nat} : ∀ (src : List Ast.Expression) {sc : Scope} {S : FId → Prop}
    {es : List AExpr}, ElabArgs p h sc src es → WfEs N S es → WfEs N (Vis sc) es
  | [], sc, S, es, he, hw => by cases he; rw [WfEs]; trivial
  | x :: xs, sc, S, es, he, hw => by
    cases he with
    | cons h1 h2 => rw [WfEs] at hw ⊢; exact ⟨elabE_of (elabC_wf x) h1 hw.1, elabArgs_wf xs h2 hw.2⟩
end

theorem elabE_wf {p : Prog} {h : Heap} {N : Nat} {src : Ast.Expression} {sc : Scope} {S : FId → Prop} {e : AExpr}
    (he : ElabE p h sc src e) (hw : WfE N S e) : WfE N (Vis sc) e := elabE_of (elabC_wf src) he hw

theorem elabOpt_wf {p : Prog} {h : Heap} {N : Nat} {src : Option Ast.Expression} {sc : Scope} {S : FId → Prop}
    {e : Option AExpr} (he : ElabOpt p h sc src e) (hw : WfOpt N S e) : WfOpt N (Vis sc) e := by
  cases he with
  | none => rw [WfOpt]; trivial
  | some he => rw [WfOpt] at hw ⊢; exact elabE_wf he hw

/-! ## Names -/

/-- The names of the visible fields that are no containers are in `T`. -/
def Sight (h : Heap) (sc : Scope) (T : String → Prop) : Prop :=
  ∀ (n : String) (f : FId) (x : AField), FieldVisible sc n f → h[f]? = some x → x.type.isContainer = false → T x.name

theorem Sight.mono {h : Heap} {sc : Scope} {S T : String → Prop} (hs : ∀ n, S n → T n) (hi : Sight h sc S) : Sight h sc T :=
  fun n f x h1 h2 h3 => hs _ (hi n f x h1 h2 h3)

theorem Sight.refs {h : Heap} {sc : Scope} {T : String → Prop} (hi : Sight h sc T) {e : Expr}
    (he : RefsIn h (Vis sc) e) : ∀ n ∈ e.refs, T n := by
  intro n hn
  obtain ⟨f, x, ⟨m, h1⟩, h2, rfl, h4⟩ := he n hn
  exact hi m f x h1 h2 h4

theorem Sight.cons {h : Heap} {sc : Scope} {T : String → Prop} (hi : Sight h sc T) {fs : List (String × FId)}
    {is : List (String × AType)}
    (hf : ∀ m ∈ fs, ∀ (x : AField), h[m.2]? = some x → x.type.isContainer = false → T x.name) :
    Sight h (⟨fs, is⟩ :: sc) T := by
  intro n f x hv h2 h3
  cases hv with
  | here hg => exact hf (n, f) (IMap.get_mem hg) x h2 h3
  | outer _ hv => exact hi n f x hv h2 h3

theorem lowerE_in {p : Prog} {h : Heap} (hh : WfHeap h) {sc : Scope} {src : Ast.Expression} {e : AExpr}
    {S : FId → Prop} {T : String → Prop} (he : ElabE p h sc src e) (hw : WfE h.length S e) (hi : Sight h sc T)
    {e' : Expr} (hl : lowerE h e = .ok e') : ∀ n ∈ e'.refs, T n :=
  hi.refs ((lowerE_firm hh e (elabE_wf he hw)).2 _ hl)

theorem lowerEs_in {p : Prog} {h : Heap} (hh : WfHeap h) {sc : Scope} {src : List Ast.Expression} {es : List AExpr}
    {S : FId → Prop} {T : String → Prop} (he : ElabArgs p h sc src es) (hw : WfEs h.length S es) (hi : Sight h sc T)
    {es' : List Expr} (hl : lowerEs h es = .ok es') : In T es' :=
  fun e hm => hi.refs ((lowerEs_firm hh es (elabArgs_wf src he hw)).2 _ hl e hm)

theorem lowerOpt_in {p : Prog} {h : Heap} (hh : WfHeap h) {sc : Scope} {src : Option Ast.Expression} {e : Option AExpr}
    {S : FId → Prop} {T : String → Prop} (he : ElabOpt p h sc src e) (hw : WfOpt h.length S e) (hi : Sight h sc T)
    {e' : Option Expr} (hl : lowerOpt h e = .ok e') : In T e'.toList :=
  fun x hm => hi.refs ((lowerOpt_firm hh e (elabOpt_wf he hw)).2 _ hl x hm)

theorem gbind_ok {α β} {x : G α} {f : α → G β} {b : β} : (x >>= f) = .ok b ↔ ∃ a, x = .ok a ∧ f a = .ok b := by
  cases x with
  | ok a =>
    constructor
    · intro h; exact ⟨a, rfl, h⟩
    · rintro ⟨a', he, h⟩; cases he; exact h
  | error e => exact ⟨fun h => (nomatch h), fun ⟨_, h, _⟩ => nomatch h⟩

theorem gmap_ok {α β} {x : G α} {f : α → β} {b : β} : x.map f = .ok b ↔ ∃ a, x = .ok a ∧ f a = b := by
  cases x with
  | ok a =>
    constructor
    · intro h; cases h; exact ⟨a, rfl, rfl⟩
    · rintro ⟨a', he, rfl⟩; cases he; rfl
  | error e => exact ⟨fun h => (nomatch h), fun ⟨_, h, _⟩ => nomatch h⟩

theorem ofR_ok {α} {r : R α} {a : α} : ofR r = .ok a ↔ r = .ok a := by
  rcases r with e | b
  · cases e <;> simp [ofR]
  · simp [ofR]

theorem lowerTy_in {p : Prog} {oc : Bool} {h : Heap} (hh : WfHeap h) {T : String → Prop} : ∀ (src : Ast.Ty) {sc : Scope}
    {t : AType} {ty : LTy}, ElabTy p h sc src t → WfTy h.length t → Sight h sc T → lowerTy oc h t = .ok ty →
    In T (LTy.exprs ty)
  | .container len fl items, sc, t, ty, he, _, _, hl => by cases he; cases hl
  | .enum rep items, sc, t, ty, he, _, _, hl => by cases he; cases hl
  | .bitfield rep items, sc, t, ty, he, _, _, hl => by cases he; cases hl
  | .scalar s, sc, t, ty, he, _, _, hl => by cases he; cases hl; intro e hm; cases hm
  | .f32, sc, t, ty, he, _, _, hl => by cases he; cases hl; intro e hm; cases hm
  | .f64, sc, t, ty, he, _, _, hl => by cases he; cases hl; intro e hm; cases hm
  | .bool, sc, t, ty, he, _, _, hl => by cases he; cases hl; intro e hm; cases hm
  | .array el x len, sc, t, ty, he, hw, hi, hl => by
    cases he with
    | array he hlen =>
      rw [WfTy] at hw
      rw [lowerTy] at hl
      simp only [gbind_ok] at hl
      obtain ⟨el', h1, len', h2, h3⟩ := hl
      cases h3
      have i1 := lowerTy_in hh el he hw.1 hi h1
      intro e hm
      simp only [LTy.exprs, List.mem_append] at hm
      rcases hm with hm | hm
      · unfold lowerLen at h2
        split at h2
        · cases h2; cases hm
        · rw [gmap_ok] at h2
          obtain ⟨a, ha, rfl⟩ := h2
          rw [List.mem_singleton] at hm; subst hm
          cases hlen with
          | some hlen => have := hw.2; rw [WfOpt] at this; exact lowerE_in hh hlen this hi ha
        · rw [gmap_ok] at h2
          obtain ⟨a, ha, rfl⟩ := h2
          rw [List.mem_singleton] at hm; subst hm
          cases hlen with
          | some hlen => have := hw.2; rw [WfOpt] at this; exact lowerE_in hh hlen this hi ha
        · cases h2
      · exact i1 e hm
  | .ref n args, sc, t, ty, he, hw, hi, hl => by
    cases he with
    | ref hf ha =>
      rw [WfTy] at hw
      rw [lowerTy] at hl
      simp only [gbind_ok] at hl
      obtain ⟨x, -, as, h2, r, -, h4⟩ := hl
      cases h4
      exact lowerEs_in hh ha hw.2 hi h2

theorem lowerXforms_in {p : Prog} {h : Heap} (hh : WfHeap h) {T : String → Prop} : ∀ (src : List Ast.Transform)
    {sc : Scope} {xs : List AXform} {ys : List XformUse}, ElabXforms p h sc src xs → (∀ x ∈ xs, WfX h.length x) →
    Sight h sc T → lowerXforms h xs = .ok ys → In T (ys.flatMap XformUse.exprs)
  | [], sc, xs, ys, he, _, _, hl => by cases he; cases hl; intro e hm; cases hm
  | .mk n args cond :: rest, sc, xs, ys, he, hw, hi, hl => by
    cases he with
    | cons h1 h2 h3 h4 =>
      rw [lowerXforms] at hl
      simp only [gbind_ok] at hl
      obtain ⟨c, hc, as, has, r, hr, he⟩ := hl
      cases he
      have hx := hw _ List.mem_cons_self
      have i1 := lowerOpt_in hh h3 hx.1 hi hc
      have i2 := lowerEs_in hh h2 hx.2 hi has
      have i3 := lowerXforms_in hh rest h4 (fun x hx => hw x (List.mem_cons_of_mem _ hx)) hi hr
      intro e hm
      rw [List.flatMap_cons, List.mem_append] at hm
      rcases hm with hm | hm
      · unfold XformUse.exprs at hm
        rw [List.mem_append] at hm
        exact hm.elim (i1 e) (i2 e)
      · exact i3 e hm

/-- The attributes of a field, calculated value aside. -/
theorem lowerAttr_in {p : Prog} {h : Heap} (hh : WfHeap h) {T : String → Prop} {fld : Ast.Field} {sc : Scope}
    {x : AField} {a : FAttr} (he : ElabMid p h sc fld x) (hw : WfField h.length x) (hi : Sight h sc T)
    (hl : lowerAttr h x = .ok a) :
    a.name = x.name ∧ lowerOpt h x.calculated = .ok a.auto ∧ In T (FAttr.exprs a) := by
  cases he with
  | mk hf ht hc hx =>
    unfold lowerAttr at hl
    simp only [gbind_ok] at hl
    obtain ⟨c, h1, xs, h2, au, h3, he⟩ := hl
    cases he
    refine ⟨rfl, h3, ?_⟩
    have i1 := lowerOpt_in hh hc hw.condition hi h1
    have i2 := lowerXforms_in hh _ hx hw.transforms hi h2
    intro e hm
    unfold FAttr.exprs at hm
    rw [List.mem_append] at hm
    exact hm.elim (i1 e) (i2 e)

/-! ## Items are filed in order -/

theorem padName_inj {a b : Nat} (h : padName a = padName b) : a = b := by
  unfold padName at h
  have h1 := congrArg String.toList h
  rw [String.toList_append, String.toList_append, List.append_cancel_left_eq] at h1
  have h2 : Nat.toDigits 10 a = Nat.toDigits 10 b := by rw [← Nat.toList_repr, ← Nat.toList_repr]; exact h1
  rw [← Nat.ofDigitChars_ten_toDigits (n := a), h2, Nat.ofDigitChars_ten_toDigits]

theorem insertAll_nodup {α} : ∀ (l m : List (String × α)), ((m ++ l).map Prod.fst).Nodup → insertAll m l = m ++ l
  | [], m, _ => by simp [insertAll]
  | x :: l, m, h => by
    have hn : x.1 ∉ m.map Prod.fst := by
      rw [List.map_append, List.map_cons, List.nodup_append] at h
      intro hx
      exact h.2.2 _ hx _ List.mem_cons_self rfl
    have hi : IMap.insert m x.1 x.2 = m ++ [x] := by
      clear h
      induction m with
      | nil => rfl
      | cons y m ih =>
        rw [List.map_cons, List.mem_cons, not_or] at hn
        rw [IMap.insert, if_neg (fun h => hn.1 h.symm), ih hn.2]
        rfl
    show insertAll (IMap.insert m x.1 x.2) l = _
    rw [hi, insertAll_nodup l (m ++ [x]) (by simpa using h)]
    simp

theorem itemCells_names : ∀ (items : List Ast.Item) (k : Nat) (cells : List FId) (n : String),
    n ∈ (itemCells items k cells).map Prod.fst → n ∈ fieldNames items ∨ ∃ j, k ≤ j ∧ n = padName j
  | [], k, cells, n, h => by simp [itemCells] at h
  | .field m _ :: rest, k, [], n, h => by simp [itemCells] at h
  | .pad _ :: rest, k, [], n, h => by simp [itemCells] at h
  | .field m _ :: rest, k, f :: cells, n, h => by
    rw [itemCells, List.map_cons, List.mem_cons] at h
    rw [fieldNames, List.mem_cons]
    rcases h with h | h
    · exact .inl (.inl h)
    · exact (itemCells_names rest k cells n h).imp .inr id
  | .pad _ :: rest, k, f :: cells, n, h => by
    rw [itemCells, List.map_cons, List.mem_cons] at h
    rw [fieldNames]
    rcases h with h | h
    · exact .inr ⟨k, Nat.le_refl _, h⟩
    · exact (itemCells_names rest (k + 1) cells n h).imp id fun ⟨j, h1, h2⟩ => ⟨j, by omega, h2⟩

theorem itemCells_nodup : ∀ (items : List Ast.Item) (k : Nat) (cells : List FId), (fieldNames items).Nodup →
    (∀ n ∈ fieldNames items, ∀ j, n ≠ padName j) → ((itemCells items k cells).map Prod.fst).Nodup
  | [], k, cells, _, _ => by simp [itemCells]
  | .field m _ :: rest, k, [], _, _ => by simp [itemCells]
  | .pad _ :: rest, k, [], _, _ => by simp [itemCells]
  | .field m _ :: rest, k, f :: cells, hd, hp => by
    rw [fieldNames, List.nodup_cons] at hd
    rw [itemCells, List.map_cons, List.nodup_cons]
    refine ⟨fun h => ?_, itemCells_nodup rest k cells hd.2 fun n hn => hp n (by rw [fieldNames]; exact List.mem_cons_of_mem _ hn)⟩
    rcases itemCells_names _ _ _ _ h with h | ⟨j, -, h⟩
    · exact hd.1 h
    · exact hp m (by rw [fieldNames]; exact List.mem_cons_self) j h
  | .pad _ :: rest, k, f :: cells, hd, hp => by
    rw [fieldNames] at hd hp
    rw [itemCells, List.map_cons, List.nodup_cons]
    refine ⟨fun h => ?_, itemCells_nodup rest (k + 1) cells hd hp⟩
    rcases itemCells_names _ _ _ _ h with h | ⟨j, h1, h⟩
    · exact hp _ h k rfl
    · have := padName_inj h
      omega

theorem filed {items : List Ast.Item} {cells : List FId} (hd : (fieldNames items).Nodup)
    (hp : ∀ n ∈ fieldNames items, ∀ j, n ≠ padName j) :
    insertAll [] (itemCells items 0 cells) = itemCells items 0 cells :=
  insertAll_nodup _ [] (itemCells_nodup items 0 cells hd hp)

/-! ## Containers -/

/-- The calculated values of the items see these names. -/
theorem calc_in {p : Prog} {h : Heap} (hh : WfHeap h) {A : String → Prop} {sc : Scope} {src : Option Ast.Expression}
    {x : AField} {o : Option Expr} (he : ElabOpt p h (⟨[], []⟩ :: sc) src x.calculated) (hw : WfField h.length x)
    (hi : Sight h sc A) (hl : lowerOpt h x.calculated = .ok o) : In A o.toList :=
  lowerOpt_in hh he hw.calculated (hi.cons (by simp)) hl

theorem elabMid_type {p : Prog} {h : Heap} {sc : Scope} {fld : Ast.Field} {x : AField} (he : ElabMid p h sc fld x) :
    ∃ ty, (∃ fl c d xs, fld = .mk ty fl c d xs) ∧ ElabTy p h sc ty x.type := by
  cases he with
  | mk hf ht hc hx => exact ⟨_, ⟨_, _, _, _, rfl⟩, ht⟩

theorem get_concat {α} {k n : String} {v : α} : ∀ (m : List (String × α)),
    IMap.get (m ++ [(n, v)]) k = (match IMap.get m k with | some x => some x | none => if n = k then some v else none)
  | [] => by simp [IMap.get]
  | (k', v') :: m => by
    rw [List.cons_append, IMap.get, IMap.get]
    split
    · rfl
    · exact get_concat m

/-- One more field declared. -/
theorem Sight.append {h : Heap} {sc : Scope} {S T : String → Prop} {before : List (String × FId)} {n : String} {f : FId}
    (hi : Sight h (⟨before, []⟩ :: sc) S) (hs : ∀ n, S n → T n)
    (hf : ∀ (x : AField), h[f]? = some x → x.type.isContainer = false → T x.name) :
    Sight h (⟨before ++ [(n, f)], []⟩ :: sc) T := by
  intro m g z hv hz hc
  cases hg : IMap.get before m with
  | some g' =>
    have hga : IMap.get (before ++ [(n, f)]) m = some g' := by rw [get_concat, hg]
    cases hv with
    | here h1 =>
      simp only at h1
      rw [hga] at h1; cases h1
      exact hs _ (hi m _ z (.here hg) hz hc)
    | outer h1 _ => simp only at h1; rw [hga] at h1; cases h1
  | none =>
    cases hv with
    | here h1 =>
      simp only [get_concat, hg] at h1
      split at h1
      · cases h1; exact hf z hz hc
      · cases h1
    | outer _ hv => exact hs _ (hi m g z (.outer hg hv) hz hc)

/-- What is known of the view of a nested container. -/
def NestedOk (p : Prog) (h : Heap) (nested : List (String × FId) → G Fields) : Prop :=
  ∀ (items : List Ast.Item) (sc : Scope) (cells : List FId) (T : String → Prop) (fs : Fields),
    ElabItems p h sc [] items 0 cells → ElabCalcs p h (⟨fieldCells items cells, []⟩ :: sc) items cells →
    (fieldNames items).Nodup → DistinctItems items → (∀ n ∈ fieldNames items, ∀ k, n ≠ padName k) →
    PadFreeItems items → Sight h sc T → nested (itemCells items 0 cells) = .ok fs →
    Lexical (fun n => T n ∨ n ∈ own fs) fs T

/-- The fields of a container that are no containers are among the names of its view. -/
theorem lowerItemsWith_own {p : Prog} {oc : Bool} {h : Heap} {nested : List (String × FId) → G Fields} :
    ∀ (items : List Ast.Item) {sc : Scope} {before : List (String × FId)} {k : Nat} {cells : List FId} {fs : Fields},
    ElabItems p h sc before items k cells → lowerItemsWith oc h nested (itemCells items k cells) = .ok fs →
    ∀ m ∈ fieldCells items cells, ∀ (x : AField), h[m.2]? = some x → x.type.isContainer = false → x.name ∈ own fs
  | [], sc, before, k, cells, fs, he, hl, m, hm, x, hx, hc => by cases he; simp [fieldCells] at hm
  | .field n fld :: rest, sc, before, k, cells, fs, he, hl, m, hm, y, hy, hc => by
    cases he with
    | field h1 h2 h3 h4 h5 hr =>
      rename_i f cells x
      rw [itemCells, lowerItemsWith, deref_some h1] at hl
      simp only [gbind_ok, ofR_ok, Except.ok.injEq, exists_eq_left'] at hl
      rw [if_neg (by simp [h2, h4]), if_neg (by simp [h3])] at hl
      rw [fieldCells] at hm
      split at hl
      · cases hl
      · rename_i ht
        simp only [gbind_ok] at hl
        obtain ⟨a, ha, l, hlen, i, hi, r, hr', hl⟩ := hl
        unfold contItem at hl
        split at hl
        · cases hl
        · split at hl
          · cases hl
          · cases hl
            rcases List.mem_cons.1 hm with rfl | hm
            · rw [h1] at hy; cases hy
              rw [ht] at hc; cases hc
            · exact lowerItemsWith_own rest hr hr' m hm y hy hc
      · simp only [gbind_ok] at hl
        obtain ⟨a, ha, ty, hty, r, hr', hl⟩ := hl
        cases hl
        rw [own]
        rcases List.mem_cons.1 hm with rfl | hm
        · rw [h1] at hy; cases hy
          unfold lowerAttr at ha
          simp only [gbind_ok] at ha
          obtain ⟨_, _, _, _, _, _, ha⟩ := ha
          cases ha
          exact List.mem_cons_self
        · exact List.mem_cons_of_mem _ (lowerItemsWith_own rest hr hr' m hm y hy hc)
  | .pad e :: rest, sc, before, k, cells, fs, he, hl, m, hm, y, hy, hc => by
    cases he with
    | pad h1 h2 h3 h4 h5 h6 h7 h8 h9 hr =>
      rename_i f cells x tag len
      rw [itemCells, lowerItemsWith, deref_some h1] at hl
      simp only [gbind_ok, ofR_ok, Except.ok.injEq, exists_eq_left'] at hl
      rw [if_neg (by simp [h2, h4]), if_pos h3] at hl
      simp only [gbind_ok] at hl
      obtain ⟨a, ha, r, hr', hl⟩ := hl
      cases hl
      rw [fieldCells] at hm
      exact lowerItemsWith_own rest hr hr' m hm y hy hc

theorem lowerItemsWith_lexical {p : Prog} {oc : Bool} {h : Heap} (hh : WfHeap h)
    {nested : List (String × FId) → G Fields} (hn : NestedOk p h nested) :
    ∀ (items : List Ast.Item) {sc csc : Scope} {before : List (String × FId)} {k : Nat} {cells : List FId}
      {fs : Fields} {A T : String → Prop},
    ElabItems p h sc before items k cells → ElabCalcs p h csc items cells →
    DistinctItems items → PadFreeItems items → Sight h (⟨before, []⟩ :: sc) T → Sight h csc A →
    lowerItemsWith oc h nested (itemCells items k cells) = .ok fs → Lexical A fs T
  | [], sc, csc, before, k, cells, fs, A, T, he, hcs, hd, hp, hi, ha, hl => by cases he; cases hl; trivial
  | .field n (.mk ty flags cal cond xs) :: rest, sc, csc, before, k, cells, fs, A, T, he, hcs, hd, hp, hi, hA, hl => by
    cases hcs with
    | field c1 c2 c3 =>
    cases he with
    | field h1 h2 h3 h4 h5 hr =>
      rename_i f cells x y
      have hxy : x = y := by rw [h1] at c1; exact (Option.some.inj c1).symm
      subst hxy
      have hw := hh f x h1
      rw [DistinctItems] at hd
      rw [PadFreeItems] at hp
      have hi' : Sight h (⟨[], []⟩ :: ⟨before, []⟩ :: sc) T := hi.cons (by simp)
      rw [itemCells, lowerItemsWith, deref_some h1] at hl
      simp only [gbind_ok, ofR_ok, Except.ok.injEq, exists_eq_left'] at hl
      rw [if_neg (by simp [h2, h4]), if_neg (by simp [h3])] at hl
      split at hl
      · cases hl
      · rename_i tag len its ht
        simp only [gbind_ok] at hl
        obtain ⟨a, ha, l, hlen, i, hnest, r, hr', hl⟩ := hl
        unfold contItem at hl
        split at hl
        · cases hl
        · split at hl
          · cases hl
          · cases hl
            have hat := (lowerAttr_in hh h5 hw hi' ha).2.2
            obtain ⟨ty', ⟨_, _, _, _, hfld⟩, het⟩ := elabMid_type h5
            cases hfld
            rw [ht] at het
            have hwt := hw.type
            rw [ht, WfTy] at hwt
            cases het with
            | container q1 hf q2 q3 q4 hit q5 =>
              rename_i fl' items' cells'
              have hd1 := hd.1
              rw [DistinctField, DistinctTy] at hd1
              have hp1 := hp.1
              rw [PadFreeField, PadFreeTy] at hp1
              rw [q4, filed hd1.1 hp1.1] at hnest
              refine ⟨hat, lowerOpt_in hh q1 hwt.1 hi' hlen, ?_, ?_⟩
              · exact hn _ _ _ _ _ hit q5 hd1.1 hd1.2 hp1.1 hp1.2 hi' hnest
              · refine lowerItemsWith_lexical hh hn rest hr c3 hd.2 hp.2 ?_ hA hr'
                refine hi.append (fun _ h => h) fun z hz hc => ?_
                rw [h1] at hz; cases hz
                rw [ht] at hc; cases hc
      · simp only [gbind_ok] at hl
        obtain ⟨a, ha, lt, hty, r, hr', hl⟩ := hl
        cases hl
        obtain ⟨n1, n2, n3⟩ := lowerAttr_in hh h5 hw hi' ha
        obtain ⟨ty', ⟨_, _, _, _, hfld⟩, het⟩ := elabMid_type h5
        cases hfld
        refine ⟨n3, lowerTy_in hh _ het hw.type hi' hty, calc_in hh c2 hw hA n2, ?_⟩
        refine lowerItemsWith_lexical hh hn rest hr c3 hd.2 hp.2 ?_ hA hr'
        refine hi.append (fun _ h => .inl h) fun z hz hc => ?_
        rw [h1] at hz; cases hz
        exact .inr n1.symm
  | .pad e :: rest, sc, csc, before, k, cells, fs, A, T, he, hcs, hd, hp, hi, hA, hl => by
    cases hcs with
    | pad c3 =>
    cases he with
    | pad h1 h2 h3 h4 h5 h6 h7 h8 h9 hr =>
      rename_i f cells x tag len
      have hw := hh f x h1
      rw [DistinctItems] at hd
      rw [PadFreeItems] at hp
      rw [itemCells, lowerItemsWith, deref_some h1] at hl
      simp only [gbind_ok, ofR_ok, Except.ok.injEq, exists_eq_left'] at hl
      rw [if_neg (by simp [h2, h4]), if_pos h3] at hl
      simp only [gbind_ok] at hl
      obtain ⟨a, ha, r, hr', hl⟩ := hl
      cases hl
      refine ⟨?_, lowerItemsWith_lexical hh hn rest hr c3 hd hp hi hA hr'⟩
      unfold lowerPad at ha
      rw [h8] at ha
      simp only at ha
      have hwt := hw.type
      rw [h8, WfTy, WfOpt] at hwt
      split at ha
      · intro e' hm
        rw [List.mem_singleton] at hm; subst hm
        exact lowerE_in hh h9 hwt.2 hi ha
      · cases ha

theorem lowerItems_lexical {p : Prog} {oc : Bool} {h : Heap} (hh : WfHeap h) : ∀ m, NestedOk p h (lowerItems oc h m)
  | 0 => by intro items sc cells T fs _ _ _ _ _ _ _ hl; cases hl
  | m + 1 => by
    intro items sc cells T fs he hcs hn hd hpn hp hi hl
    refine lowerItemsWith_lexical hh (lowerItems_lexical hh m) items he hcs hd hp (hi.cons (by simp)) ?_ hl
    refine Sight.cons (hi.mono fun _ h => .inl h) fun q hq x hx hc => .inr ?_
    exact lowerItemsWith_own items he hl q hq x hx hc

theorem lowerArms_lexical {p : Prog} {oc : Bool} {h : Heap} (hh : WfHeap h) (m : Nat) :
    ∀ (items : List Ast.Item) {sc : Scope} {before : List (String × FId)} {k : Nat} {cells : List FId}
      {arms : List Arm} {T : String → Prop},
    ElabItems p h sc before items k cells →
    DistinctItems items → PadFreeItems items → Sight h (⟨before, []⟩ :: sc) T →
    lowerArms oc h m (itemCells items k cells) = .ok arms → LexicalArms arms T
  | [], sc, before, k, cells, arms, T, he, hd, hp, hi, hl => by cases he; cases hl; trivial
  | .field n (.mk ty flags cal cond xs) :: rest, sc, before, k, cells, arms, T, he, hd, hp, hi, hl => by
    cases he with
    | field h1 h2 h3 h4 h5 hr =>
      rename_i f cells x
      have hw := hh f x h1
      rw [DistinctItems] at hd
      rw [PadFreeItems] at hp
      have hi' : Sight h (⟨[], []⟩ :: ⟨before, []⟩ :: sc) T := hi.cons (by simp)
      rw [itemCells, lowerArms] at hl
      simp only [gbind_ok] at hl
      obtain ⟨arm, harm, r, hr', hl⟩ := hl
      cases hl
      unfold lowerArm at harm
      rw [deref_some h1] at harm
      simp only [gbind_ok, ofR_ok, Except.ok.injEq, exists_eq_left'] at harm
      rw [if_neg (by simp [h2, h3, h4])] at harm
      simp only [gbind_ok] at harm
      obtain ⟨a, ha, harm⟩ := harm
      obtain ⟨n1, n2, n3⟩ := lowerAttr_in hh h5 hw hi' ha
      obtain ⟨ty', ⟨_, _, _, _, hfld⟩, het⟩ := elabMid_type h5
      cases hfld
      split at harm
      · cases harm
      · split at harm
        · cases harm
        · rename_i tag len its ht
          simp only [gbind_ok] at harm
          obtain ⟨l, hlen, i, hnest, he⟩ := harm
          cases he
          rw [ht] at het
          have hwt := hw.type
          rw [ht, WfTy] at hwt
          cases het with
          | container q1 hf q2 q3 q4 hit q5 =>
            rename_i fl' items' cells'
            have hd1 := hd.1
            rw [DistinctField, DistinctTy] at hd1
            have hp1 := hp.1
            rw [PadFreeField, PadFreeTy] at hp1
            rw [q4, filed hd1.1 hp1.1] at hnest
            refine ⟨n3, lowerOpt_in hh q1 hwt.1 hi' hlen,
              lowerItems_lexical hh m _ _ _ _ _ hit q5 hd1.1 hd1.2 hp1.1 hp1.2 hi' hnest, ?_⟩
            refine lowerArms_lexical hh m rest hr hd.2 hp.2 ?_ hr'
            refine hi.append (fun _ h => h) fun z hz hc => ?_
            rw [h1] at hz; cases hz
            rw [ht] at hc; cases hc
        · simp only [gbind_ok] at harm
          obtain ⟨lt, hty, he⟩ := harm
          cases he
          refine ⟨n3, lowerTy_in hh _ het hw.type hi' hty, ?_⟩
          refine lowerArms_lexical hh m rest hr hd.2 hp.2 ?_ hr'
          refine hi.append (fun _ h => .inl h) fun z hz hc => ?_
          rw [h1] at hz; cases hz
          exact .inr n1.symm
  | .pad e :: rest, sc, before, k, cells, arms, T, he, hd, hp, hi, hl => by
    cases he with
    | pad h1 h2 h3 h4 h5 h6 h7 h8 h9 hr =>
      rename_i f cells x tag len
      rw [itemCells, lowerArms] at hl
      simp only [gbind_ok] at hl
      obtain ⟨arm, harm, r, hr', hl⟩ := hl
      unfold lowerArm at harm
      rw [deref_some h1] at harm
      simp only [gbind_ok, ofR_ok, Except.ok.injEq, exists_eq_left'] at harm
      rw [if_pos (by simp [h3])] at harm
      cases harm

theorem sight_top {h : Heap} {as : List AArg} : Sight h (paramFrame as :: topScope) (fun _ => False) := by
  intro n f x hv hx hc
  cases hv with
  | here hg => simp [paramFrame, IMap.get] at hg
  | outer _ hv =>
    cases hv with
    | here hg => simp [IMap.get] at hg
    | outer _ hv => cases hv

theorem lowerDecl_lexical {p : Prog} {oc : Bool} {h : Heap} (hh : WfHeap h) {m : Nat} {id : FId} {x : AField}
    {f : Ast.Field} {d : Decl} (hx : h[id]? = some x) (he : ElabMid p h (paramFrame x.arguments :: topScope) f x)
    (hd : DistinctField f) (hp : PadFreeField f) (hl : lowerDecl oc h m id = .ok d) : LexicalDecl d := by
  have hw := hh id x hx
  have hi := sight_top (h := h) (as := x.arguments)
  unfold lowerDecl at hl
  rw [deref_some hx] at hl
  simp only [gbind_ok, ofR_ok, Except.ok.injEq, exists_eq_left'] at hl
  obtain ⟨ps, -, xs, hxs, b, hb, hl⟩ := hl
  cases he with
  | mk hf ht hc hxf =>
    have i1 := lowerXforms_in hh _ hxf hw.transforms hi hxs
    split at hl
    · cases hl
    · cases hl
      refine ⟨i1, ?_⟩
      simp only
      unfold lowerBody at hb
      simp only [gbind_ok] at hb
      obtain ⟨c, hcl, hb⟩ := hb
      have i2 := lowerOpt_in hh hc hw.condition hi hcl
      split at hb
      · rename_i tag len its isEnum hxt
        simp only [gbind_ok] at hb
        obtain ⟨l, hlen, hb⟩ := hb
        rw [hxt] at ht
        have hwt := hw.type
        rw [hxt, WfTy] at hwt
        cases ht with
        | container q1 hf q2 q3 q4 hit q5 =>
          rename_i fl' items' cells'
          rw [DistinctField, DistinctTy] at hd
          rw [PadFreeField, PadFreeTy] at hp
          rw [q4, filed hd.1 hp.1] at hb
          have i3 := lowerOpt_in hh q1 hwt.1 hi hlen
          split at hb
          · cases hb
          · split at hb
            · simp only [gbind_ok] at hb
              obtain ⟨arms, harms, hb⟩ := hb
              cases hb
              exact ⟨i3, lowerArms_lexical hh m _ hit hd.2 hp.2 (hi.cons (by simp)) harms⟩
            · simp only [gbind_ok] at hb
              obtain ⟨fs, hfs, hb⟩ := hb
              cases hb
              exact ⟨i3, lowerItems_lexical hh m _ _ _ _ _ hit q5 hd.1 hd.2 hp.1 hp.2 hi hfs⟩
      · simp only [gbind_ok] at hb
        obtain ⟨r, -, hb⟩ := hb
        split at hb
        · split at hb
          · cases hb
          · cases hb; trivial
        · simp only [gbind_ok] at hb
          obtain ⟨ty, hty, hb⟩ := hb
          cases hb
          exact ⟨i2, lowerTy_in hh _ ht hw.type hi hty⟩

end Verif.Sem
