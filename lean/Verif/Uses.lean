import Verif.DecodeSpec
import Verif.EncodeSpec
/-!
# What of a library a schema uses

The generated code of a schema depends on a transform only if the schema names it. This is used to compare the functions
`*_sync` and `*_async`, which are generated from the same instruction lists (`compiler/mod.rs` 190-262) and differ in the
crates that do the transforms (`prelude/gzip.rs`).
-/
namespace Verif
open Verif

def xnames (xs : List XformUse) : List String := xs.map (·.name)

/-- The transforms named by the items of a container. -/
def Fields.xforms : Fields → List String
  | .nil => []
  | .pad _ _ rest => rest.xforms
  | .leaf a _ rest => xnames a.xfs ++ rest.xforms
  | .cont a _ items rest => xnames a.xfs ++ items.xforms ++ rest.xforms

def Arm.xforms (arm : Arm) : List String :=
  xnames arm.attr.xfs ++ (match arm.body with
    | .leaf _ => []
    | .cont _ items => items.xforms)

/-- The transforms named by a declaration. -/
def Decl.xforms (d : Decl) : List String :=
  xnames d.xfs ++ (match d.body with
    | .leaf _ _ => []
    | .repr _ => []
    | .struct _ items => items.xforms
    | .tagged _ arms => arms.flatMap Arm.xforms)

/-- The transforms named by a schema. -/
def Schema.xforms (sch : Schema) : List String := sch.flatMap Decl.xforms

theorem find_mem {sch : Schema} {n : String} {d : Decl} (h : sch.find n = some d) : d ∈ sch := List.mem_of_find?_eq_some h

namespace Dec

structure Same (N : List String) (X Y : Ext) : Prop where
  oc : X.oc = Y.oc
  input : X.input = Y.input
  call : X.call = Y.call
  foreign : X.foreign = Y.foreign
  xform : ∀ n ∈ N, X.xform n = Y.xform n

variable {N : List String} {X Y : Ext}

theorem Same.ev (h : Same N X Y) : ev X = ev Y := by
  funext env e
  unfold Dec.ev
  rw [h.oc, h.input]

theorem Same.leaf (h : Same N X Y) : decLeaf X = decLeaf Y := by
  funext env ty
  induction ty with
  | prim p => rfl
  | ref t f r args =>
    funext bs
    simp only [decLeaf, h.ev, h.call, h.foreign]
  | array el len ih =>
    funext bs
    cases len <;> simp only [decLeaf, h.ev, h.oc, ih]

theorem Same.xforms {α} (h : Same N X Y) (env : Env) (k : Bytes → Res (α × Bytes)) :
    ∀ xs, (∀ x ∈ xs, x.name ∈ N) → ∀ bs, decXforms X env xs bs k = decXforms Y env xs bs k := by
  intro xs
  induction xs with
  | nil => exact fun _ _ => rfl
  | cons x xs ih =>
    intro hx bs
    have ih := ih fun y hy => hx y (by simp [hy])
    simp only [decXforms, h.ev, h.xform x.name (hx x (by simp)), ih]

theorem Same.limited (h : Same N X Y) : @decLimited = @decLimited → (∀ {α} env len bs (k : Bytes → Res (α × Bytes)),
    decLimited X env len bs k = decLimited Y env len bs k) := by
  intro _ α env len bs k
  cases len with
  | none => rfl
  | some e => simp only [decLimited, h.ev]

theorem Same.cond (h : Same N X Y) (env : Env) (c : Option Expr) (names : List String) (bs : Bytes)
    (k : Bytes → Res (List (String × Val) × Bytes)) : decCond X env c names bs k = decCond Y env c names bs k := by
  cases c with
  | none => rfl
  | some e => simp only [decCond, h.ev]

theorem mem_xnames {xs : List XformUse} {l : List String} (h : xnames xs ⊆ l) : ∀ x ∈ xs.reverse, x.name ∈ l := by
  intro x hx
  exact h (List.mem_map.2 ⟨x, by simpa using hx, rfl⟩)

theorem Same.items (h : Same N X Y) : ∀ fs : Fields, fs.xforms ⊆ N → decItems X fs = decItems Y fs := by
  intro fs
  induction fs with
  | nil => exact fun _ => rfl
  | pad n e rest ih =>
    intro hn
    funext env bs
    simp only [decItems, h.ev, ih hn]
  | leaf a ty rest ih =>
    intro hn
    simp only [Fields.xforms, List.append_subset] at hn
    funext env bs
    simp only [decItems, h.cond, h.xforms env _ _ (mem_xnames hn.1), h.leaf, ih hn.2]
  | cont a len items rest ihi ih =>
    intro hn
    simp only [Fields.xforms, List.append_subset] at hn
    funext env bs
    simp only [decItems, h.cond, h.xforms env _ _ (mem_xnames hn.1.1), h.limited rfl, ihi hn.1.2, ih hn.2]

theorem Same.arm (h : Same N X Y) (n : String) (arm : Arm) (hn : arm.xforms ⊆ N) : decArm X n arm = decArm Y n arm := by
  funext bs
  simp only [Arm.xforms, List.append_subset] at hn
  unfold decArm
  rw [h.xforms .empty _ _ (mem_xnames hn.1)]
  have hb := hn.2
  cases ha : arm.body with
  | leaf ty => simp only [h.leaf]
  | cont len items =>
    rw [ha] at hb
    simp only [h.limited rfl, h.items items hb]

theorem Same.arms (h : Same N X Y) (n : String) : ∀ arms : List Arm, arms.flatMap Arm.xforms ⊆ N → decArms X n arms = decArms Y n arms := by
  intro arms
  induction arms with
  | nil => exact fun _ => rfl
  | cons arm arms ih =>
    intro hn
    simp only [List.flatMap_cons, List.append_subset] at hn
    funext bs
    simp only [decArms, h.arm n arm hn.1, ih hn.2, h.ev]

theorem Same.decl (h : Same N X Y) (d : Decl) (hn : d.xforms ⊆ N) : decDecl X d = decDecl Y d := by
  funext bs
  simp only [Decl.xforms, List.append_subset] at hn
  have hx := mem_xnames hn.1
  have hb := hn.2
  unfold decDecl
  cases hd : d.body with
  | leaf c ty => simp only [h.cond, h.xforms .empty _ _ hx, h.leaf]
  | repr t => simp only [h.xforms .empty _ _ hx]
  | struct len items =>
    rw [hd] at hb
    simp only [h.xforms .empty _ _ hx, h.limited rfl, h.items items hb]
  | tagged len arms =>
    rw [hd] at hb
    simp only [h.xforms .empty _ _ hx, h.limited rfl, h.arms d.name arms hb]

/-- Decoding depends only on the transforms the schema names. -/
theorem specDecode_uses {sch : Schema} {L M : Lib} (hoc : L.oc = M.oc) (hf : L.foreign = M.foreign)
    (hx : ∀ n ∈ sch.xforms, L.xform n = M.xform n) : specDecode sch L = specDecode sch M := by
  funext fuel
  unfold specDecode
  induction fuel with
  | zero => rfl
  | succ fuel ih =>
    funext n args bs
    unfold callDecl
    cases hd : sch.find n with
    | none => rfl
    | some d =>
      have hs : Same sch.xforms ⟨L.oc, bindArgs d.params args, callDecl sch L decDecl fuel, L.foreign, L.xform⟩
        ⟨M.oc, bindArgs d.params args, callDecl sch M decDecl fuel, M.foreign, M.xform⟩ := ⟨hoc, rfl, ih, hf, hx⟩
      simp only [hs.decl d fun y hy => List.mem_flatMap.2 ⟨d, find_mem hd, hy⟩]

end Dec

namespace Enc

structure Same (N : List String) (X Y : Ext) : Prop where
  oc : X.oc = Y.oc
  input : X.input = Y.input
  call : X.call = Y.call
  foreign : X.foreign = Y.foreign
  xform : ∀ n ∈ N, X.xform n = Y.xform n

variable {N : List String} {X Y : Ext}

theorem Same.ev (h : Same N X Y) : ev X = ev Y := by
  funext env e
  unfold Enc.ev
  rw [h.oc, h.input]

theorem Same.leaf (h : Same N X Y) : encLeaf X = encLeaf Y := by
  funext env ty
  induction ty with
  | prim p => rfl
  | ref t f r args =>
    funext bs
    simp only [encLeaf, h.ev, h.call, h.foreign]
  | array el len ih =>
    funext bs
    cases len <;> simp only [encLeaf, h.ev, ih]

theorem Same.xforms {α} (h : Same N X Y) (env : Env) (k : Res (α × Bytes)) :
    ∀ xs, (∀ x ∈ xs, x.name ∈ N) → encXforms X env xs k = encXforms Y env xs k := by
  intro xs
  induction xs with
  | nil => exact fun _ => rfl
  | cons x xs ih =>
    intro hx
    have ih := ih fun y hy => hx y (by simp [hy])
    simp only [encXforms, h.ev, h.xform x.name (hx x (by simp)), ih]

theorem mem_xnames {xs : List XformUse} {l : List String} (h : xnames xs ⊆ l) : ∀ x ∈ xs, x.name ∈ l := by
  intro x hx
  exact h (List.mem_map.2 ⟨x, hx, rfl⟩)

theorem Same.field (h : Same N X Y) (env : Env) (a : FAttr) (ha : xnames a.xfs ⊆ N) (ty : LTy) :
    encField X env a ty = encField Y env a ty := by
  funext v
  unfold encField
  simp only [h.xforms env _ _ (mem_xnames ha), h.leaf, h.ev]

theorem Same.evBlen (h : Same N X Y) : evBlen X = evBlen Y := by
  funext env lens a
  unfold Enc.evBlen
  simp only [h.ev]

theorem Same.flush (h : Same N X Y) (p : Plan) (lens : Env) :
    ∀ ds : List Def, (∀ d ∈ ds, xnames d.attr.xfs ⊆ N) → ∀ env, encFlush X p lens ds env = encFlush Y p lens ds env := by
  intro ds
  induction ds with
  | nil => exact fun _ _ => rfl
  | cons d ds ih =>
    intro hd env
    have ih := ih fun y hy => hd y (by simp [hy])
    have hf := fun env => h.field env d.attr (hd d (by simp)) d.ty
    simp only [encFlush, ih, h.evBlen, hf]

/-- The waiting fields name only transforms of `N`. -/
def Named (N : List String) (ds : List Def) : Prop := ∀ d ∈ ds, xnames d.attr.xfs ⊆ N

theorem put_named : ∀ {ds : List Def} {bs : Bytes}, Named N ds → Named N (put ds bs).1
  | [], bs, _ => fun d hd => by cases hd
  | [d], bs, h => fun d' hd => by
    simp only [put, List.mem_singleton] at hd
    subst hd
    exact h d (by simp)
  | d :: d' :: ds, bs, h => fun x hx => by
    simp only [put, List.mem_cons] at hx
    rcases hx with rfl | hx
    · exact h _ (by simp)
    · exact put_named (ds := d' :: ds) (fun y hy => h y (by simp [List.mem_cons.1 hy])) x hx

theorem bind_inv {α β} {r : Res α} {k : α → Res β} {b : β} (h : r >>= k = .ok b) : ∃ a, r = .ok a ∧ k a = .ok b := by
  cases r with
  | ok a => exact ⟨a, rfl, h⟩
  | error f => cases h

theorem flush_named (p : Plan) (lens : Env) : ∀ {ds : List Def}, Named N ds → ∀ {env r}, encFlush X p lens ds env = .ok r → Named N r.2.1 := by
  intro ds
  induction ds with
  | nil => intro _ env r h; cases h; exact fun d hd => by cases hd
  | cons d ds ih =>
    intro hd env r h
    simp only [encFlush] at h
    obtain ⟨r1, h1, h⟩ := bind_inv h
    have hr1 := ih (fun y hy => hd y (by simp [hy])) h1
    split at h
    · obtain ⟨v, _, h⟩ := bind_inv h
      obtain ⟨b, _, h⟩ := bind_inv h
      split at h
      · rename_i d' rs hrest
        cases h
        intro x hx
        rw [hrest] at hr1
        rcases List.mem_cons.1 hx with rfl | hx
        · exact hr1 d' (by simp)
        · exact hr1 x (by simp [hx])
      · cases h
        exact fun d hd => by cases hd
    · cases h
      intro x hx
      rcases List.mem_cons.1 hx with rfl | hx
      · exact hd _ (by simp)
      · exact hr1 x hx

theorem bind_same {α β} {r r' : Res α} {k k' : α → Res β} (hr : r = r') (hk : ∀ a, r' = .ok a → k a = k' a) :
    r >>= k = r' >>= k' := by
  subst hr
  cases r with
  | ok a => exact hk a rfl
  | error f => rfl

theorem Same.items (h : Same N X Y) : ∀ fs : Fields, fs.xforms ⊆ N → ∀ cond p env lens ds, Named N ds →
    encItems X cond fs p env lens ds = encItems Y cond fs p env lens ds := by
  intro fs
  induction fs with
  | nil => exact fun _ _ _ _ _ _ _ => rfl
  | pad n e rest ih =>
    intro hn cond p env lens ds hds
    simp only [encItems, h.ev]
    refine bind_same rfl fun v _ => bind_same rfl fun bs _ => ?_
    have hp := put_named (bs := bs) hds
    refine bind_same (h.flush p lens _ hp env) fun r hr => ?_
    rw [ih hn cond p r.1 lens r.2.1 (flush_named p lens hp hr)]
  | leaf a ty rest ih =>
    intro hn cond p env lens ds hds
    simp only [Fields.xforms, List.append_subset] at hn
    simp only [encItems]
    split
    · refine bind_same ?_ fun env1 _ => bind_same rfl fun v _ => bind_same (by rw [h.field env1 a hn.1 ty]) fun bs _ => ?_
      · unfold withBlen
        rw [h.evBlen]
      · have hp := put_named (bs := bs) hds
        refine bind_same (h.flush p lens _ hp env1) fun r hr => ?_
        rw [ih hn.2 cond p r.1 lens r.2.1 (flush_named p lens hp hr)]
    · refine ih hn.2 cond _ env lens _ fun d hd => ?_
      rcases List.mem_append.1 hd with hd | hd
      · exact hds d hd
      · rw [List.mem_singleton.1 hd]
        exact hn.1
  | cont a len items rest ihi ih =>
    intro hn cond p env lens ds hds
    simp only [Fields.xforms, List.append_subset] at hn
    simp only [encItems]
    refine bind_same ?_ fun r _ => ?_
    · have hg : ∀ c after body, guarded X env c after body = guarded Y env c after body := by
        intro c after body
        unfold guarded
        rw [h.ev]
      have hc : checkCapacity X env a.name len p = checkCapacity Y env a.name len p := by
        unfold checkCapacity
        rw [h.ev]
      rw [hg, h.xforms env _ _ (mem_xnames hn.1.1), hc]
      have hi := fun env1 => ihi hn.1.2 (a.cond.isSome || cond) p env1 lens [] (fun d hd => by cases hd)
      simp only [hi]
    · have hp := put_named (bs := r.2) hds
      refine bind_same (h.flush _ _ _ hp _) fun q hq => ?_
      rw [ih hn.2 cond _ q.1 _ q.2.1 (flush_named _ _ hp hq)]

theorem Same.calculated (h : Same N X Y) : ∀ as env, encCalculated X as env = encCalculated Y as env := by
  intro as
  induction as with
  | nil => exact fun _ => rfl
  | cons a as ih =>
    intro env
    simp only [encCalculated, h.ev, ih]

theorem Same.arm (h : Same N X Y) (n : String) (arm : Arm) (hn : arm.xforms ⊆ N) (p : Plan) (v : Val) :
    encArm X n arm p v = encArm Y n arm p v := by
  simp only [Arm.xforms, List.append_subset] at hn
  unfold encArm
  have hb := hn.2
  cases ha : arm.body with
  | leaf ty => simp only [h.xforms .empty _ _ (mem_xnames hn.1), h.leaf]
  | cont len items =>
    rw [ha] at hb
    have hi := fun env1 => h.items items hb false p env1 .empty [] (fun d hd => by cases hd)
    simp only [h.calculated, hi]

theorem Same.arms (h : Same N X Y) (n : String) (v : Val) :
    ∀ arms : List Arm, arms.flatMap Arm.xforms ⊆ N → ∀ p, encArms X n arms p v = encArms Y n arms p v := by
  intro arms
  induction arms with
  | nil => exact fun _ _ => rfl
  | cons arm arms ih =>
    intro hn p
    simp only [List.flatMap_cons, List.append_subset] at hn
    simp only [encArms, h.arm n arm hn.1, ih hn.2, h.ev]

theorem Same.decl (h : Same N X Y) (d : Decl) (hn : d.xforms ⊆ N) (v : Val) : encDecl X d v = encDecl Y d v := by
  simp only [Decl.xforms, List.append_subset] at hn
  have hx := mem_xnames hn.1
  have hb := hn.2
  have hc : ∀ len, checkCapacity X .empty d.name len .init = checkCapacity Y .empty d.name len .init := by
    intro len
    unfold checkCapacity
    rw [h.ev]
  unfold encDecl
  cases hd : d.body with
  | leaf c ty =>
    have hf := h.field .empty ⟨d.name, c, d.xfs, none⟩ hn.1 ty
    simp only [hf]
  | repr t => simp only [h.xforms .empty _ _ hx]
  | struct len items =>
    rw [hd] at hb
    have hi := fun env1 => h.items items hb false .init env1 .empty [] (fun d hd => by cases hd)
    simp only [h.xforms .empty _ _ hx, hc, h.calculated, hi]
  | tagged len arms =>
    rw [hd] at hb
    simp only [h.xforms .empty _ _ hx, hc, h.arms d.name v arms hb]

/-- Encoding depends only on the transforms the schema names. -/
theorem specEncode_uses {sch : Schema} {L M : Lib} (hoc : L.oc = M.oc) (hf : L.foreign = M.foreign)
    (hx : ∀ n ∈ sch.xforms, L.xform n = M.xform n) : specEncode sch L = specEncode sch M := by
  funext fuel
  unfold specEncode
  induction fuel with
  | zero => rfl
  | succ fuel ih =>
    funext n args v
    unfold callDecl
    cases hd : sch.find n with
    | none => rfl
    | some d =>
      have hs : Same sch.xforms ⟨L.oc, Dec.bindArgs d.params args, _, L.foreign, L.xform⟩
        ⟨M.oc, Dec.bindArgs d.params args, _, M.foreign, M.xform⟩ := ⟨hoc, rfl, ih, hf, hx⟩
      simp only [hs.decl d fun y hy => List.mem_flatMap.2 ⟨d, find_mem hd, hy⟩]

end Enc
end Verif
