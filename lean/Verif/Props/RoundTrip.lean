import Verif.RoundTrip
import Verif.Props.Decode
/-!
# Decoding what was encoded: C04, C15, C16
-/
namespace Verif.Props
open Verif Verif.Enc Verif.RT

/-! ### Which values and declarations -/

/-- The fields written (`σ`, with contents `content`) are within the declared types, and the declared
length of the container covers its content. -/
def FitsItems (X : Ext) (G : Goods) (C : Closed) (len : Option Expr) (items : Fields) (σ : Env) (content : Bytes) :
    Prop :=
  Fits X G C items σ ∧ FitsLen X .empty len (closedF C items) content

/-- Values of an arm of a tagged enum. -/
def FitsArm (X : Ext) (G : Goods) (C : Closed) (en : String) (arm : Arm) (v : Val) : Prop :=
  match arm.body with
  | .leaf ty => ∃ w, v = .variant en arm.attr.name w ∧ FitsLeaf X G .empty ty w
  | .cont len items => ∃ fs, v = .variantS en arm.attr.name fs ∧ fs.map (·.1) = items.names ∧
      ∀ σ Lg content, (∀ p ∈ fs, σ p.1 = some p.2) → wire X items σ = .ok (Lg, content) →
        FitsItems X G C len items σ content

/-- Values of a tagged enum: of the first arm whose condition holds, and there is one (else nothing is
written: `no_arm_writes_nothing`). -/
def FitsArms (X : Ext) (G : Goods) (C : Closed) (en : String) : List Arm → Val → Prop
  | [], _ => False
  | arm :: arms, v =>
    match arm.attr.cond with
    | none => FitsArm X G C en arm v
    | some e =>
      (ev X .empty e = .ok (.bool true) → FitsArm X G C en arm v) ∧
      (ev X .empty e = .ok (.bool false) → FitsArms X G C en arms v)

/-- The field values that are written for the container value `v`, the lengths of the containers in it,
and its content, as in `encoded_in_order`. -/
def Written (X : Ext) (v : Val) (items : Fields) (σ : Env) (Lg : List (String × Nat)) (content : Bytes) : Prop :=
  Holds X v items σ ∧ Calculated X Lg items σ ∧ wire X items σ = .ok (Lg, content)

/-- Whether an arm may be followed by other bytes. -/
def closedA (C : Closed) (arm : Arm) : Bool :=
  closedX C arm.attr.xfs (match arm.body with
    | .leaf ty => closedL C ty
    | .cont l items => l.isSome || closedF C items)

/-- Values of a declared type. The calculated fields of a container hold what is written for them. -/
def FitsDecl (X : Ext) (G : Goods) (C : Closed) (d : Decl) (v : Val) : Prop :=
  match d.body with
  | .leaf cond ty => ∃ w, v = .newtype d.name w ∧
      match cond with
      | none => FitsLeaf X G .empty ty w
      | some e =>
        (ev X .empty e = .ok (.bool true) → ∃ u, w = .opt (some u) ∧ FitsLeaf X G .empty ty u) ∧
        (ev X .empty e = .ok (.bool false) → w = .opt none)
  | .repr t => HasRepr t v
  | .struct len items => ∃ fs, v = .struct d.name fs ∧ fs.map (·.1) = items.names ∧
      ∀ σ Lg content, Written X v items σ Lg content →
        FitsItems X G C len items σ content ∧ ∀ p ∈ fs, σ p.1 = some p.2
  | .tagged len arms =>
      FitsArms X G C d.name arms v ∧
      ∀ content, encArms X d.name arms .init v = .ok content →
        FitsLen X .empty len (arms.all (closedA C)) content

/-- Whether a value of the declared type may be followed by other bytes. -/
def closedD (C : Closed) (d : Decl) : Bool :=
  closedX C d.xfs (match d.body with
    | .leaf _ ty => closedL C ty
    | .repr _ => true
    | .struct len items => len.isSome || closedF C items
    | .tagged len arms => len.isSome || arms.all (closedA C))

/-- Containers that round trip: see `wfF`, `Scoped`, `oneWaiting`. -/
def WfItems (C : Closed) (items : Fields) : Prop :=
  items.names.Nodup ∧ Scoped anyField items nothing ∧ wfF C items = true

/-- Arms that round trip. The struct arms have no transforms (the encoder ignores them:
`tagged_arm_ignores_transforms`) and no calculated fields. -/
def WfArm (C : Closed) (arm : Arm) : Prop :=
  arm.attr.xfs.length ≤ 1 ∧
  match arm.body with
  | .leaf ty => wfL C ty = true
  | .cont _ items => arm.attr.xfs = [] ∧ WfItems C items ∧ ∀ a ∈ items.leaves, a.auto = none

/-- Declarations that round trip. -/
def WfDecl (C : Closed) (d : Decl) : Prop :=
  d.xfs.length ≤ 1 ∧
  match d.body with
  | .leaf _ ty => wfL C ty = true
  | .repr _ => True
  | .struct _ items => WfItems C items ∧ oneWaiting items .init none = true
  | .tagged _ arms => ∀ arm ∈ arms, WfArm C arm

theorem WfDecl.nodup {C : Closed} {d : Decl} (h : WfDecl C d) : d.FieldsNodup := by
  unfold WfDecl at h
  unfold Decl.FieldsNodup
  cases hb : d.body with
  | leaf c t => trivial
  | repr t => trivial
  | struct len items => rw [hb] at h; exact h.2.1.1
  | tagged len arms =>
    rw [hb] at h
    intro arm harm
    have := (h.2 arm harm).2
    cases hab : arm.body with
    | leaf ty => simp
    | cont l items => rw [hab] at this; exact fun l' items' he => by cases he; exact this.2.1.1

/-! ### One declaration -/

theorem no_autos : ∀ {items : Fields}, (∀ a ∈ items.leaves, a.auto = none) →
    blenAutos items = [] ∧ ∀ p, oneWaiting items p none = true
  | .nil, _ => ⟨rfl, fun _ => rfl⟩
  | .pad _ _ r, h => by
    obtain ⟨h1, h2⟩ := no_autos (items := r) h
    exact ⟨h1, fun p => by simp [oneWaiting, h2]⟩
  | .leaf a _ r, h => by
    obtain ⟨h1, h2⟩ := no_autos (items := r) fun b hb => h b (by simp [Fields.leaves, hb])
    have : FAttr.blens a = [] := by simp [FAttr.blens, h a (by simp [Fields.leaves])]
    exact ⟨by simp [blenAutos, h1, this], fun p => by simp [oneWaiting, this, h2]⟩
  | .cont a _ i r, h => by
    obtain ⟨h1, h2⟩ := no_autos (items := r) fun b hb => h b (by simp [Fields.leaves, hb])
    obtain ⟨h3, h4⟩ := no_autos (items := i) fun b hb => h b (by simp [Fields.leaves, hb])
    exact ⟨by simp [blenAutos, h1, h3], fun p => by simp [oneWaiting, h2, h4]⟩

theorem same_fields {σ : Env} : ∀ {fs gs : List (String × Val)}, fs.map (·.1) = gs.map (·.1) →
    (∀ p ∈ fs, σ p.1 = some p.2) → (∀ p ∈ gs, σ p.1 = some p.2) → fs = gs
  | [], [], _, _, _ => rfl
  | [], _ :: _, h, _, _ => by cases h
  | _ :: _, [], h, _, _ => by cases h
  | (n, v) :: fs, (m, w) :: gs, h, h1, h2 => by
    simp only [List.map_cons, List.cons.injEq] at h
    obtain ⟨rfl, h⟩ := h
    have e1 := h1 (n, v) (by simp)
    have e2 := h2 (n, w) (by simp)
    simp only [e1, Option.some.injEq] at e2
    subst e2
    rw [same_fields h (fun p hp => h1 p (by simp [hp])) (fun p hp => h2 p (by simp [hp]))]

theorem lookup_mem {fs : List (String × Val)} (hnd : (fs.map (·.1)).Nodup) {p : String × Val} (hp : p ∈ fs) :
    fs.lookup p.1 = some p.2 := by
  induction fs with
  | nil => cases hp
  | cons q fs ih =>
    simp only [List.map_cons, List.nodup_cons] at hnd
    rcases List.mem_cons.1 hp with rfl | hp
    · simp [List.lookup]
    · have : (p.1 == q.1) = false := by
        rw [beq_eq_false_iff_ne]
        intro he
        exact hnd.1 (List.mem_map.2 ⟨p, hp, he⟩)
      simp only [List.lookup, this, ih hnd.2 hp]

theorem mapM_lookup {fs : List (String × Val)} (hnd : (fs.map (·.1)).Nodup) : ∀ {gs : List (String × Val)},
    (∀ p ∈ gs, p ∈ fs) → ((gs.map (·.1)).mapM fun f => optRes (fs.lookup f)) = .ok (gs.map (·.2))
  | [], _ => rfl
  | p :: gs, h => by
    have ih := mapM_lookup hnd (gs := gs) fun q hq => h q (by simp [hq])
    simp only [List.map_cons, List.mapM_cons]
    rw [lookup_mem hnd (h p (by simp)), ih]
    rfl

theorem bindNames_ne {n : String} : ∀ (ns : List String) (vs : List Val) (env : Env), n ∉ ns →
    bindNames ns vs env n = env n
  | [], _, _, _ => by cases ‹List Val› <;> rfl
  | m :: ns, [], _, _ => rfl
  | m :: ns, v :: vs, env, h => by
    simp only [List.mem_cons, not_or] at h
    simp only [bindNames]
    rw [bindNames_ne ns vs _ h.2, upd_ne _ _ h.1]

theorem bindNames_pairs : ∀ (fs : List (String × Val)) (env : Env), (fs.map (·.1)).Nodup → ∀ p ∈ fs,
    bindNames (fs.map (·.1)) (fs.map (·.2)) env p.1 = some p.2
  | [], _, _, _, h => by cases h
  | q :: fs, env, hnd, p, hp => by
    simp only [List.map_cons, List.nodup_cons] at hnd
    simp only [List.map_cons, bindNames]
    rcases List.mem_cons.1 hp with rfl | hp
    · rw [bindNames_ne _ _ _ hnd.1, upd_same]
    · exact bindNames_pairs fs _ hnd.2 p hp

section
variable {XE : Ext} {XD : Dec.Ext} {G : Goods} {C : Closed}

/-- Nothing can be referred to. -/
theorem none_sub {env : Dec.Env} : ∀ n, (fun _ : String => True) n → ∀ v, (Env.empty : Env) n = some v → env n = some v :=
  fun _ _ _ h => nomatch h

theorem anyIn (es : List Expr) : In (fun _ : String => True) es := fun _ _ _ _ => trivial

/-- The items of a container or struct arm, between them and the bytes limited by the declared length. -/
theorem content_back (hp : Paired XE XD G C) {len : Option Expr} {items : Fields} {σ : Env} {Lg : List (String × Nat)}
    {content : Bytes} (hw : WfItems C items) (hf : FitsItems XE G C len items σ content)
    (h : wire XE items σ = .ok (Lg, content)) :
    ∃ vs : List (String × Val), vs.map (·.1) = items.names ∧ (∀ p ∈ vs, σ p.1 = some p.2) ∧
      Reads (fun b => Dec.decLimited XD .empty len b (Dec.decItems XD items .empty)) (len.isSome || closedF C items)
        content vs := by
  obtain ⟨vs, k1, k2, k3⟩ := items_back hp items (S := nothing) (env := .empty) (fun _ h => h.elim) (fun _ h => h.elim)
    hw.1 hw.2.1 hw.2.2 hf.1 h
  exact ⟨vs, k1, k2, limited_back hp (σ := .empty) none_sub (anyIn _) hf.2 k3⟩

theorem arm_back (hp : Paired XE XD G C) {en : String} {arm : Arm} (hw : WfArm C arm) {v : Val}
    (hf : FitsArm XE G C en arm v) {p : Plan} {bs : Bytes} (h : encArm XE en arm p v = .ok bs) :
    Reads (Dec.decArm XD en arm) (closedA C arm) bs v := by
  obtain ⟨hx, hw⟩ := hw
  cases hb : arm.body with
  | leaf ty =>
    simp only [FitsArm, hb] at hf
    obtain ⟨w, rfl, hf⟩ := hf
    simp only [hb] at hw
    simp only [encArm, hb, unwrapEnum, ne_eq, not_true, if_false, if_true, ok_bind] at h
    obtain ⟨⟨u, o⟩, hx', h⟩ := ok_of_bind h
    cases h
    obtain ⟨content, hk⟩ := encXforms_inner hx'
    rw [hk] at hx'
    obtain ⟨ct, hct, hk⟩ := ok_of_bind hk
    cases hk
    have hl := leaf_back hp (env := Dec.Env.empty) none_sub ty hw (anyIn _) hf hct
    have := xforms_back hp (env := Dec.Env.empty) none_sub hx (anyIn _) hx' rfl
      (k := fun b => do
        let (v, r) ← Dec.decLeaf XD .empty ty b
        .ok (Val.variant en arm.attr.name v, r)) (c := closedL C ty) (v := Val.variant en arm.attr.name w)
      (fun tail ht => by simp only [hl tail ht, ok_bind])
    simp only [closedA, hb]
    unfold Dec.decArm
    simp only [hb]
    exact this
  | cont len items =>
    simp only [FitsArm, hb] at hf
    obtain ⟨fs, rfl, hn, hf⟩ := hf
    simp only [hb] at hw
    obtain ⟨hx0, hwi, hau⟩ := hw
    obtain ⟨n1, n2⟩ := no_autos hau
    obtain ⟨vs, σ, Lg, k1, k2, k3⟩ := arm_in_order_partial XE en arm hb hwi.1 hwi.2.1 n1 p (n2 p) _ bs h
    have hnd : (fs.map (·.1)).Nodup := by rw [hn]; exact hwi.1
    simp only [unwrapStruct, ne_eq, not_true, if_false, if_true] at k1
    rw [← hn, mapM_lookup hnd fun _ h => h] at k1
    cases k1
    have hσ : ∀ q ∈ fs, σ q.1 = some q.2 := by
      intro q hq
      have : q.1 ∈ items.names := by rw [← hn]; exact List.mem_map.2 ⟨q, hq, rfl⟩
      obtain ⟨a, ha, han⟩ := List.mem_map.1 this
      have := k2 a ha (hau a ha)
      rw [← hn] at this
      rw [han] at this
      rw [this, bindNames_pairs fs _ hnd q hq]
    obtain ⟨ws, j1, j2, j3⟩ := content_back hp hwi (hf σ Lg bs hσ k3) k3
    have : ws = fs := same_fields (by rw [j1, hn]) j2 hσ
    subst this
    intro tail ht
    simp only [closedA, hb, hx0, closedX] at ht
    have := j3 tail ht
    simp only at this
    simp only [Dec.decArm, hb, hx0, List.reverse_nil, Dec.decXforms, this, ok_bind]

theorem arms_back (hp : Paired XE XD G C) {en : String} : ∀ {arms : List Arm}, (∀ arm ∈ arms, WfArm C arm) → ∀ {v : Val},
    FitsArms XE G C en arms v → ∀ {p : Plan} {bs : Bytes}, encArms XE en arms p v = .ok bs →
    Reads (Dec.decArms XD en arms) (arms.all (closedA C)) bs v
  | [], _, _, hf, _, _, _ => hf.elim
  | arm :: arms, hw, v, hf, p, bs, h => by
    have hhead : ∀ {p bs}, FitsArm XE G C en arm v → encArm XE en arm p v = .ok bs →
        Reads (Dec.decArm XD en arm) ((arm :: arms).all (closedA C)) bs v := fun hf h =>
      (arm_back hp (hw arm (by simp)) hf h).mono (by simp only [List.all_cons, Bool.and_eq_true]; exact (·.1))
    simp only [FitsArms] at hf
    simp only [encArms] at h
    cases hc : arm.attr.cond with
    | none =>
      simp only [hc] at hf h
      intro tail ht
      simp only [Dec.decArms, hc]
      exact hhead hf h tail ht
    | some e =>
      simp only [hc] at hf h
      obtain ⟨cv, hcv, h1⟩ := ok_of_bind h
      obtain ⟨t, htb, h2⟩ := ok_of_bind h1
      have := toBool_ok htb
      subst this
      have hd := ev_back hp (env := Dec.Env.empty) (e := e) none_sub (fun _ _ => trivial) _ hcv
      intro tail ht
      simp only [Dec.decArms, hc, hd, htb, ok_bind]
      cases t with
      | true =>
        simp only [if_true] at h2 ⊢
        exact hhead (hf.1 hcv) h2 tail ht
      | false =>
        simp only [Bool.false_eq_true, if_false] at h2 ⊢
        exact arms_back hp (fun a ha => hw a (by simp [ha])) (hf.2 hcv) h2 tail
          (ht.imp (by simp only [List.all_cons, Bool.and_eq_true]; exact (·.2)) id)

/-- Containers: what is read is what was written, calculated fields included. -/
theorem struct_back (hp : Paired XE XD G C) {d : Decl} {len items} (hb : d.body = .struct len items)
    (hw : WfDecl C d) {v : Val}
    (hf : ∀ σ Lg content, Written XE v items σ Lg content → FitsItems XE G C len items σ content)
    {bs : Bytes} (h : runDecl XE d v = .ok bs) :
    ∃ (σ : Env) (Lg : List (String × Nat)) (content : Bytes) (vs : List (String × Val)),
      Written XE v items σ Lg content ∧ vs.map (·.1) = items.names ∧ (∀ p ∈ vs, σ p.1 = some p.2) ∧
      Reads (Dec.decDecl XD d) (closedD C d) bs (.struct d.name vs) := by
  obtain ⟨hx, hw⟩ := hw
  simp only [hb] at hw
  obtain ⟨σ, Lg, content, h1, h2, h3, h4⟩ := encoded_in_order XE d hb hw.1.1 hw.1.2.1 hw.2 v bs h
  obtain ⟨vs, j1, j2, j3⟩ := content_back hp hw.1 (hf σ Lg content ⟨h1, h2, h3⟩) h3
  refine ⟨σ, Lg, content, vs, ⟨h1, h2, h3⟩, j1, j2, ?_⟩
  have := xforms_back hp (env := Dec.Env.empty) none_sub hx (anyIn _) h4 rfl
    (k := fun b => do
      let (vs, r) ← Dec.decLimited XD .empty len b (Dec.decItems XD items .empty)
      .ok (Val.struct d.name vs, r)) (c := len.isSome || closedF C items) (v := Val.struct d.name vs)
    (fun tail ht => by
      have := j3 tail ht
      simp only at this
      simp only [this, ok_bind])
  simp only [closedD, hb]
  unfold Dec.decDecl
  simp only [hb]
  exact this

theorem decl_back (hp : Paired XE XD G C) {d : Decl} (hw : WfDecl C d) {v : Val} (hf : FitsDecl XE G C d v)
    {bs : Bytes} (h : runDecl XE d v = .ok bs) : Reads (Dec.decDecl XD d) (closedD C d) bs v := by
  cases hb : d.body with
  | struct len items =>
    simp only [FitsDecl, hb] at hf
    obtain ⟨fs, rfl, hn, hf⟩ := hf
    obtain ⟨σ, Lg, content, vs, h1, h2, h3, h4⟩ := struct_back hp hb hw (fun σ Lg content h => (hf σ Lg content h).1) h
    have : vs = fs := same_fields (by rw [h2, hn]) h3 (hf _ _ _ h1).2
    rw [this] at h4
    exact h4
  | repr t =>
    rw [runDecl_eq] at h
    split at h
    rotate_left
    · cases h
    obtain ⟨hx, hw⟩ := hw
    simp only [FitsDecl, hb] at hf
    simp only [encDecl, hb] at h
    obtain ⟨⟨u, o⟩, hx', h⟩ := ok_of_bind h
    cases h
    obtain ⟨content, hk⟩ := encXforms_inner hx'
    rw [hk] at hx'
    obtain ⟨ct, hct, hk⟩ := ok_of_bind hk
    cases hk
    simp only [closedD, hb]
    unfold Dec.decDecl
    simp only [hb]
    exact xforms_back hp none_sub hx (anyIn _) hx' rfl (reads_repr hf hct)
  | leaf cond ty =>
    rw [runDecl_eq] at h
    split at h
    rotate_left
    · cases h
    obtain ⟨hx, hw⟩ := hw
    simp only [hb] at hw
    simp only [FitsDecl, hb] at hf
    obtain ⟨w, rfl, hf⟩ := hf
    simp only [encDecl, hb, innerOf, ok_bind] at h
    have body : ∀ {w : Val} {out : Bytes}, FitsLeaf XE G .empty ty w →
        (do
          let (_, bs) ← encXforms XE .empty d.xfs do
            let bs ← encLeaf XE .empty ty w
            (.ok ((), bs) : Res (Unit × Bytes))
          .ok bs) = .ok out →
        Reads (fun b => Dec.decXforms XD .empty d.xfs.reverse b fun b' => do
          let (v, r) ← Dec.decLeaf XD .empty ty b'
          .ok ([(d.name, v)], r)) (closedX C d.xfs (closedL C ty)) out [(d.name, w)] := by
      intro w out hw' h
      obtain ⟨⟨u, o⟩, hx', h⟩ := ok_of_bind h
      cases h
      obtain ⟨content, hk⟩ := encXforms_inner hx'
      rw [hk] at hx'
      obtain ⟨ct, hct, hk⟩ := ok_of_bind hk
      cases hk
      have hl := leaf_back hp (env := Dec.Env.empty) none_sub ty hw (anyIn _) hw' hct
      refine xforms_back hp none_sub hx (anyIn _) hx' rfl (fun tail ht => ?_)
      simp only [hl tail ht, ok_bind]
    simp only [closedD, hb]
    intro tail ht
    unfold Dec.decDecl
    simp only [hb]
    cases cond with
    | none =>
      simp only at hf
      simp only [encField, Option.isSome_none, Bool.false_and, Bool.false_eq_true, if_false, ok_bind] at h
      have := body hf h tail ht
      simp only at this
      simp only [Dec.decCond, this, ok_bind]
    | some e =>
      simp only at hf
      simp only [encField, Option.isSome_some, Option.isNone_none, Bool.and_self, if_true] at h
      obtain ⟨cv, hcv, h1⟩ := ok_of_bind h
      obtain ⟨t, htb, h2⟩ := ok_of_bind h1
      have := toBool_ok htb
      subst this
      have hd := ev_back hp (env := Dec.Env.empty) (e := e) none_sub (fun _ _ => trivial) _ hcv
      simp only [Dec.decCond, hd, htb, ok_bind]
      cases t with
      | true =>
        obtain ⟨u, rfl, hu⟩ := hf.1 hcv
        simp only [nullCheck, ok_bind, if_true] at h2 ⊢
        have := body hu h2 tail ht
        simp only at this
        simp only [this, ok_bind, List.map_cons, List.map_nil]
      | false =>
        have := hf.2 hcv
        subst this
        simp only [Bool.false_eq_true, if_false] at h2 ⊢
        cases h2
        rfl
  | tagged len arms =>
    rw [runDecl_eq] at h
    split at h
    rotate_left
    · cases h
    obtain ⟨hx, hw⟩ := hw
    simp only [hb] at hw
    simp only [FitsDecl, hb] at hf
    simp only [encDecl, hb] at h
    obtain ⟨⟨u, o⟩, hx', h⟩ := ok_of_bind h
    cases h
    obtain ⟨content, hk⟩ := encXforms_inner hx'
    rw [hk] at hx'
    obtain ⟨_, _, hk⟩ := ok_of_bind hk
    obtain ⟨ct, hct, hk⟩ := ok_of_bind hk
    cases hk
    have ha := arms_back hp hw hf.1 hct
    have hl := limited_back hp (σ := .empty) (env := Dec.Env.empty) none_sub (anyIn _) (hf.2 _ hct) ha
    simp only [closedD, hb]
    unfold Dec.decDecl
    simp only [hb]
    exact xforms_back hp none_sub hx (anyIn _) hx' rfl hl

end

/-! ### Schemas -/

/-- The outside world of the encoder of a declaration called with `args`. -/
abbrev encExt (sch : Schema) (L : Lib) (fuel : Nat) (d : Decl) (args : List Val) : Ext :=
  ⟨L.oc, Dec.bindArgs d.params args, runEncode sch L fuel, L.foreign, L.xform⟩

/-- Values of the declared types of a schema, nested at most `fuel` deep; `ext` says which values of
foreign types are considered. -/
def Fitting (sch : Schema) (L : Lib) (C : Closed) (ext : String → List Val → Val → Prop) :
    Nat → String → List Val → Val → Prop
  | 0, _, _, _ => False
  | fuel + 1, n, args, v => ∀ d, sch.find n = some d →
      FitsDecl (encExt sch L fuel d args) ⟨Fitting sch L C ext fuel, ext⟩ C d v

/-- Foreign types and transforms decode what they encode. The transforms of `C.xform` and the types of
`C.ext` leave what follows alone, the others need the end of the stream. -/
structure Inverse (LE : Lib) (LD : Dec.Lib) (C : Closed) (ext : String → List Val → Val → Prop) : Prop where
  oc : LE.oc = LD.oc
  foreign : ∀ n args v b, ext n args v → LE.foreign n args v = .ok b →
    ∀ tail, (C.ext n = true ∨ tail = []) → LD.foreign n args (b ++ tail) = .ok (v, tail)
  xform : ∀ n args data b, LE.xform n args data = .ok b →
    ∀ tail, (C.xform n = true ∨ tail = []) → LD.xform n args (b ++ tail) = .ok (data, tail)

/-- The schema is in the fragment, and the types `C.decl` considers followable are. -/
def WfSchema (C : Closed) (sch : Schema) : Prop :=
  (∀ d ∈ sch, WfDecl C d) ∧ ∀ n d, sch.find n = some d → C.decl n = true → closedD C d = true

theorem paired_of {sch : Schema} {LE : Lib} {LD : Dec.Lib} {C : Closed} {ext : String → List Val → Val → Prop}
    (hl : Inverse LE LD C ext) {fuel : Nat} {d : Decl} {args : List Val}
    (ih : ∀ n args v bs, Fitting sch LE C ext fuel n args v → runEncode sch LE fuel n args v = .ok bs →
      Reads (Dec.runDecode sch LD fuel n args) (C.decl n) bs v) :
    Paired (encExt sch LE fuel d args)
      ⟨LD.oc, Dec.bindArgs d.params args, Dec.runDecode sch LD fuel, LD.foreign, LD.xform⟩
      ⟨Fitting sch LE C ext fuel, ext⟩ C :=
  ⟨hl.oc, rfl, ih, fun n args v b h1 h2 => hl.foreign n args v b h1 h2, fun n args d b h => hl.xform n args d b h⟩

theorem runEncode_succ {sch : Schema} {L : Lib} {fuel : Nat} {n : String} {args : List Val} {v : Val} {bs : Bytes}
    (h : runEncode sch L (fuel + 1) n args v = .ok bs) :
    ∃ d, sch.find n = some d ∧ d.params.length = args.length ∧ runDecl (encExt sch L fuel d args) d v = .ok bs := by
  simp only [runEncode, callDecl] at h
  cases hd : sch.find n with
  | none => simp [hd] at h
  | some d =>
    simp only [hd] at h
    by_cases hp : d.params.length = args.length
    · rw [if_neg (by simp [hp])] at h
      exact ⟨d, rfl, hp, h⟩
    · rw [if_pos (by simpa using hp)] at h
      cases h

theorem runDecode_succ {sch : Schema} {L : Dec.Lib} {fuel : Nat} {n : String} {args : List Val} {d : Decl} {bs : Bytes}
    (hd : sch.find n = some d) (hp : d.params.length = args.length) (hnd : d.FieldsNodup) :
    Dec.runDecode sch L (fuel + 1) n args bs =
      Dec.decDecl ⟨L.oc, Dec.bindArgs d.params args, Dec.runDecode sch L fuel, L.foreign, L.xform⟩ d bs := by
  conv => lhs; simp only [Dec.runDecode, Dec.callDecl, hd]
  rw [if_neg (by simp [hp])]
  exact Dec.runProg_genDecl _ d hnd bs

theorem find_mem {sch : Schema} {n : String} {d : Decl} (h : sch.find n = some d) : d ∈ sch :=
  List.mem_of_find?_eq_some h

/-- **C04.** If the generated encoder writes `bs` for the value `v` of a declared type, the generated
decoder reads `v` back from `bs` followed by anything, and leaves what follows (nothing may follow a type
that reads to the end of its stream). -/
theorem decode_after_encode (sch : Schema) (LE : Lib) (LD : Dec.Lib) (C : Closed)
    (ext : String → List Val → Val → Prop) (hl : Inverse LE LD C ext) (hw : WfSchema C sch) :
    ∀ (fuel : Nat) (n : String) (args : List Val) (v : Val) (bs : Bytes),
      Fitting sch LE C ext fuel n args v → runEncode sch LE fuel n args v = .ok bs →
      ∀ tail, (C.decl n = true ∨ tail = []) → Dec.runDecode sch LD fuel n args (bs ++ tail) = .ok (v, tail)
  | 0, _, _, _, _, hf, _, _, _ => hf.elim
  | fuel + 1, n, args, v, bs, hf, h, tail, ht => by
    obtain ⟨d, hd, hp, h⟩ := runEncode_succ h
    have hwd := hw.1 d (find_mem hd)
    rw [runDecode_succ hd hp hwd.nodup]
    exact decl_back (paired_of hl fun n args v bs h1 h2 => decode_after_encode sch LE LD C ext hl hw fuel n args v bs h1 h2)
      hwd (hf d hd) h tail (ht.imp (hw.2 n d hd) id)

/-- **C04 for containers with calculated fields.** The stored fields of the value read are those of `v`;
the calculated ones have the values that were written for them (`Written`), whatever `v` holds there. -/
theorem decode_after_encode_calculated (sch : Schema) (LE : Lib) (LD : Dec.Lib) (C : Closed)
    (ext : String → List Val → Val → Prop) (hl : Inverse LE LD C ext) (hw : WfSchema C sch)
    (fuel : Nat) (n : String) (args : List Val) (v : Val) (bs : Bytes) {d : Decl} {len items}
    (hd : sch.find n = some d) (hb : d.body = .struct len items)
    (hf : ∀ σ Lg content, Written (encExt sch LE fuel d args) v items σ Lg content →
      FitsItems (encExt sch LE fuel d args) ⟨Fitting sch LE C ext fuel, ext⟩ C len items σ content)
    (h : runEncode sch LE (fuel + 1) n args v = .ok bs) :
    ∃ (σ : Env) (Lg : List (String × Nat)) (content : Bytes) (vs : List (String × Val)),
      Written (encExt sch LE fuel d args) v items σ Lg content ∧
      vs.map (·.1) = items.names ∧ (∀ p ∈ vs, σ p.1 = some p.2) ∧
      ∀ tail, (C.decl n = true ∨ tail = []) →
        Dec.runDecode sch LD (fuel + 1) n args (bs ++ tail) = .ok (.struct d.name vs, tail) := by
  obtain ⟨d', hd', hp, h⟩ := runEncode_succ h
  rw [hd] at hd'
  cases hd'
  have hwd := hw.1 d (find_mem hd)
  obtain ⟨σ, Lg, content, vs, h1, h2, h3, h4⟩ := struct_back
    (paired_of hl fun n args v bs h1 h2 => decode_after_encode sch LE LD C ext hl hw fuel n args v bs h1 h2)
    hb hwd hf h
  refine ⟨σ, Lg, content, vs, h1, h2, h3, fun tail ht => ?_⟩
  rw [runDecode_succ hd hp hwd.nodup]
  exact h4 tail (ht.imp (hw.2 n d hd) id)

/-! ### Cases -/

/-- All declared types may be followed by other bytes, no transform may. -/
def openEnds : Closed := ⟨fun _ => true, fun _ => true, fun _ => false⟩

theorem noLib_inverse : Inverse noEncLib noLib openEnds (fun _ _ _ => False) :=
  ⟨rfl, fun _ _ _ _ h => h.elim, fun _ _ _ _ h => nomatch h⟩

theorem scoped_len : Scoped anyField lenItems nothing := by
  simp [lenItems, Scoped, In, FAttr.exprs, LTy.exprs, Expr.refs, Expr.blens, lenOf, plain, u8T, u16T]

theorem wf_len : WfSchema openEnds [lenDecl] := by
  refine ⟨?_, ?_⟩
  · intro d hd
    rw [List.mem_singleton] at hd
    subst hd
    exact ⟨by decide, ⟨by decide, scoped_len, by decide⟩, by decide⟩
  · intro n d hd _
    have := find_mem hd
    rw [List.mem_singleton] at this
    subst this
    decide

theorem byte_inRange {n : Nat} (h : n < 256) : Scalar.u8.InRange n := by
  have h1 : Scalar.u8.min = 0 := by decide
  have h2 : Scalar.u8.max = 255 := by decide
  unfold Scalar.InRange
  omega

theorem usize_byte {n : Nat} (h : n < 256) : asUsize (vu8 n) = .ok n := by
  have h1 : Scalar.u64.min = 0 := by decide
  have h2 : Scalar.u64.max = 2 ^ 64 - 1 := by decide
  simp only [asUsize, vu8, Val.toInt, ok_bind]
  rw [Scalar.wrap_eq_self .u64 n (by unfold Scalar.InRange; omega)]
  simp

/-- The value of `lenDecl` with the given fields. -/
def lenVal (n mid : Int) (xs : List Val) (last : Int) : Val :=
  .struct "m" [("n", vu8 n), ("mid", vu16 mid), ("xs", .arr xs), ("last", vu8 last)]

/-- Every value of `lenDecl` with at most 255 items comes back with the length filled in. -/
theorem len_round_trip (n mid last : Int) (xs : List Val) (hm : Scalar.u16.InRange mid) (hl : Scalar.u8.InRange last)
    (hx : ∀ x ∈ xs, HasPrim (.scalar ⟨.u8, .big⟩) x) (hn : xs.length < 256) (bs : Bytes)
    (h : runEncode [lenDecl] noEncLib 1 "m" [] (lenVal n mid xs last) = .ok bs) (tail : Bytes) :
    Dec.runDecode [lenDecl] noLib 1 "m" [] (bs ++ tail) = .ok (lenVal xs.length mid xs last, tail) := by
  have key : ∀ σ Lg content, Written (encExt [lenDecl] noEncLib 0 lenDecl []) (lenVal n mid xs last) lenItems σ Lg content →
      σ "n" = some (vu8 xs.length) ∧ σ "mid" = some (vu16 mid) ∧ σ "xs" = some (.arr xs) ∧ σ "last" = some (vu8 last) ∧
      ∀ l c, wire (encExt [lenDecl] noEncLib 0 lenDecl []) (.leaf (plain "xs") (.array u8T .unbounded) .nil) σ = .ok (l, c) →
        c.length = xs.length := by
    rintro σ Lg content ⟨h1, h2, h3⟩
    have f1 : σ "mid" = some (vu16 mid) := by
      obtain ⟨x, hx1, hx2⟩ := (h1 (plain "mid") (by decide)).1 rfl
      cases hx1; exact hx2
    have f2 : σ "xs" = some (.arr xs) := by
      obtain ⟨x, hx1, hx2⟩ := (h1 (plain "xs") (by decide)).1 rfl
      cases hx1; exact hx2
    have f3 : σ "last" = some (vu8 last) := by
      obtain ⟨x, hx1, hx2⟩ := (h1 (plain "last") (by decide)).1 rfl
      cases hx1; exact hx2
    have f4 : ∀ l c, wire (encExt [lenDecl] noEncLib 0 lenDecl []) (.leaf (plain "xs") (.array u8T .unbounded) .nil) σ = .ok (l, c) →
        c.length = xs.length := by
      intro l c hw
      simp only [wire, plain, f2, optRes, ok_bind] at hw
      obtain ⟨b, hb, hw⟩ := ok_of_bind hw
      cases hw
      simp only [encField, encXforms, encLeaf, u8T, LTy.resolved, Option.isSome_none, Bool.false_and, Bool.false_eq_true, if_false, ok_bind] at hb
      obtain ⟨⟨_, b'⟩, hb1, hb2⟩ := ok_of_bind hb
      cases hb2
      obtain ⟨b2, hb3, hb4⟩ := ok_of_bind hb1
      cases hb4
      obtain ⟨_, _, hc⟩ := primArray_bytes hx hb3
      obtain ⟨hlen, _⟩ := chunks_concat (g := fun b => .ok (primOfBytes (.scalar ⟨.u8, .big⟩) b)) (size := 1)
        (fun x hx' b hb => by obtain ⟨h1, h2⟩ := prim_bytes (hx x hx') hb; exact ⟨h1, by rw [h2]⟩) hc
      simpa using hlen
    refine ⟨?_, f1, f2, f3, f4⟩
    obtain ⟨k, hk, hv⟩ := length_field_value (s := .u8) h2.1 rfl
    have : k = xs.length := by
      simp only [lenItems, wire] at h3
      obtain ⟨_, _, h3⟩ := ok_of_bind h3
      obtain ⟨_, _, h3⟩ := ok_of_bind h3
      obtain ⟨⟨l1, b1⟩, h4, h3⟩ := ok_of_bind h3
      cases h3
      obtain ⟨_, _, h4⟩ := ok_of_bind h4
      obtain ⟨_, _, h4⟩ := ok_of_bind h4
      obtain ⟨⟨l1, b1⟩, h5, h4⟩ := ok_of_bind h4
      cases h4
      obtain ⟨⟨l2, b2⟩, h6, h5⟩ := ok_of_bind h5
      obtain ⟨⟨l3, b3⟩, h7, h5⟩ := ok_of_bind h5
      cases h5
      simp only [plain, whenHolds, encXforms, inside] at h6
      obtain ⟨⟨l4, b4⟩, h8, h6⟩ := ok_of_bind h6
      cases h6
      have e1 := f4 l4 b4 h8
      have e2 : l4 = [] := by
        obtain ⟨_, _, h8⟩ := ok_of_bind h8
        obtain ⟨_, _, h8⟩ := ok_of_bind h8
        cases h8; rfl
      have e3 : l3 = [] := by
        obtain ⟨_, _, h7⟩ := ok_of_bind h7
        obtain ⟨_, _, h7⟩ := ok_of_bind h7
        cases h7; rfl
      subst e2 e3
      simp only [List.append_nil, List.mem_singleton, Prod.mk.injEq] at hk
      rw [hk.2, e1]
    subst this
    have hw : Scalar.u8.wrap (xs.length : Int) = xs.length := by
      exact Scalar.wrap_eq_self _ _ (byte_inRange hn)
    rw [hw] at hv
    exact hv
  obtain ⟨σ, Lg, content, vs, k1, k2, k3, k4⟩ := decode_after_encode_calculated [lenDecl] noEncLib noLib openEnds
    (fun _ _ _ => False) noLib_inverse wf_len 0 "m" [] _ bs (d := lenDecl) (len := none) (items := lenItems) rfl rfl
    (by
      intro σ Lg content hw
      obtain ⟨g1, g2, g3, g4, g5⟩ := key σ Lg content hw
      refine ⟨?_, fun _ h => nomatch h⟩
      simp only [lenItems, Fits, lenOf, plain, u8T, u16T, FitsLeaf, inside, Option.isSome_none, Bool.false_eq_true, if_false, LTy.resolved]
      refine ⟨?_, ?_, ⟨fun _ => ⟨⟨?_, trivial⟩, ?_⟩, (fun _ h => nomatch h), ?_, trivial⟩⟩
      · rw [g1]
        rintro v ⟨⟩
        exact ⟨xs.length, rfl, byte_inRange hn⟩
      · rw [g2]; rintro v ⟨⟩; exact ⟨mid, rfl, hm⟩
      · rw [g3]; rintro v ⟨⟩; exact ⟨xs, rfl, hx⟩
      · intro l c hc e he
        cases he
        refine ⟨vu8 xs.length, xs.length, ?_, ?_, .inl (g5 l c hc)⟩
        · show runE _ _ _ = _
          simp only [runE, evalE, g1, optRes]
        · exact usize_byte hn
      · rw [g4]; rintro v ⟨⟩; exact ⟨last, rfl, hl⟩) h
  rw [k4 tail (.inl rfl)]
  obtain ⟨g1, g2, g3, g4, _⟩ := key σ Lg content k1
  have : vs = [("n", vu8 xs.length), ("mid", vu16 mid), ("xs", .arr xs), ("last", vu8 last)] :=
    same_fields (σ := σ) k2 k3 (by
      intro p hp
      simp only [List.mem_cons, List.not_mem_nil, or_false] at hp
      rcases hp with rfl | rfl | rfl | rfl
      · exact g1
      · exact g2
      · exact g3
      · exact g4)
  rw [this]
  rfl

/-- A value of `itemDecl`: `opt` is there if and only if `flag` is 1. -/
def itemVal (flag : Int) (data : List Val) (opt : Option Int) : Val :=
  .struct "item" [("len", vu8 data.length), ("flag", vu8 flag), ("data", .arr data),
    ("opt", .opt (opt.map vu16))]

def listVal (n : Int) (item : Val) : Val := .struct "list" [("n", vu8 n), ("first", item)]

theorem scoped_item : WfItems openEnds
    (.leaf (plain "len") u8T
    (.leaf (plain "flag") u8T
    (.leaf (plain "data") (.array u8T (.fixed (.fieldRef "len")))
    (.leaf ⟨"opt", some (.binary .eq (.fieldRef "flag") (.int ⟨.u8, 1⟩)), [], none⟩ u16T .nil)))) := by
  refine ⟨by decide, ?_, by decide⟩
  simp [Scoped, In, FAttr.exprs, LTy.exprs, Expr.refs, plain, u8T, u16T]

theorem scoped_list : WfItems openEnds
    (.leaf (plain "n") u8T
    (.cont (plain "inner") (some (.fieldRef "n"))
      (.leaf (plain "first") (.ref "item" false .other []) .nil) .nil)) := by
  refine ⟨by decide, ?_, by decide⟩
  simp [Scoped, In, FAttr.exprs, LTy.exprs, Expr.refs, plain, u8T]

theorem wf_demo : WfSchema openEnds demoSchema := by
  refine ⟨?_, ?_⟩
  · intro d hd
    simp only [demoSchema, List.mem_cons, List.not_mem_nil, or_false] at hd
    rcases hd with rfl | rfl
    · exact ⟨by decide, scoped_item, by decide⟩
    · exact ⟨by decide, scoped_list, by decide⟩
  · intro n d hd _
    have := find_mem hd
    simp only [demoSchema, List.mem_cons, List.not_mem_nil, or_false] at this
    rcases this with rfl | rfl <;> decide

theorem item_fits (flag : Int) (data : List Val) (opt : Option Int) (hf : Scalar.u8.InRange flag)
    (hd : ∀ x ∈ data, HasPrim (.scalar ⟨.u8, .big⟩) x) (hn : data.length < 256)
    (ho : ∀ x, opt = some x → Scalar.u16.InRange x) (hof : opt.isSome = true ↔ flag = 1) (fuel : Nat) :
    Fitting demoSchema noEncLib openEnds (fun _ _ _ => False) (fuel + 1) "item" [] (itemVal flag data opt) := by
  intro d hd'
  cases hd'
  refine ⟨_, rfl, rfl, ?_⟩
  rintro σ Lg content ⟨h1, -, -⟩
  have get : ∀ a ∈ Fields.leaves (.leaf (plain "len") u8T
      (.leaf (plain "flag") u8T
      (.leaf (plain "data") (.array u8T (.fixed (.fieldRef "len")))
      (.leaf ⟨"opt", some (.binary .eq (.fieldRef "flag") (.int ⟨.u8, 1⟩)), [], none⟩ u16T .nil)))),
      a.auto = none → ∀ x, fieldOf (itemVal flag data opt) a.name = .ok x → σ a.name = some x := by
    intro a ha hau x hx
    obtain ⟨y, hy, hσ⟩ := (h1 a ha).1 hau
    rw [hx] at hy
    cases hy
    exact hσ
  have g1 : σ "len" = some (vu8 data.length) := get (plain "len") (by decide) rfl _ rfl
  have g2 : σ "flag" = some (vu8 flag) := get (plain "flag") (by decide) rfl _ rfl
  have g3 : σ "data" = some (.arr data) := get (plain "data") (by decide) rfl _ rfl
  have g4 : σ "opt" = some (.opt (opt.map vu16)) :=
    get ⟨"opt", some (.binary .eq (.fieldRef "flag") (.int ⟨.u8, 1⟩)), [], none⟩ (by decide) rfl _ rfl
  refine ⟨⟨?_, fun _ h => nomatch h⟩, ?_⟩
  · simp only [Fits, plain, u8T, u16T, FitsLeaf, LTy.resolved]
    refine ⟨?_, ?_, ?_, ?_, trivial⟩
    · rw [g1]; rintro v ⟨⟩; exact ⟨_, rfl, byte_inRange hn⟩
    · rw [g2]; rintro v ⟨⟩; exact ⟨_, rfl, hf⟩
    · rw [g3]; rintro v ⟨⟩; exact ⟨_, rfl, hd, by simp [Prim.size, Scalar.size]; omega⟩
    · rw [g4]
      rintro v ⟨⟩
      have he : ∀ b, ev (encExt demoSchema noEncLib fuel itemDecl []) σ
          (.binary .eq (.fieldRef "flag") (.int ⟨.u8, 1⟩)) = .ok (.bool b) → (b = true ↔ flag = 1) := by
        intro b hb
        simp only [ev, runE, evalE, g2, optRes, ok_bind, vu8] at hb
        rw [if_neg (by simp)] at hb
        simp only [rtBin, rtEq, if_true, ok_bind, Except.ok.injEq, Val.bool.injEq] at hb
        rw [← hb, decide_eq_true_iff]
      refine ⟨fun h => ?_, fun h => ?_⟩
      · have := (he _ h).1 rfl
        cases opt with
        | none => exact absurd (hof.2 this) (by simp)
        | some x => exact ⟨_, rfl, x, rfl, ho x rfl⟩
      · have := mt (he _ h).2 (by simp)
        cases opt with
        | none => rfl
        | some x => exact absurd (hof.1 rfl) this
  · intro p hp
    simp only [List.mem_cons, List.not_mem_nil, or_false] at hp
    rcases hp with rfl | rfl | rfl | rfl
    · exact g1
    · exact g2
    · exact g3
    · exact g4

/-- Every `item` with at most 255 items comes back, and leaves what follows. -/
theorem item_round_trip (flag : Int) (data : List Val) (opt : Option Int) (hf : Scalar.u8.InRange flag)
    (hd : ∀ x ∈ data, HasPrim (.scalar ⟨.u8, .big⟩) x) (hn : data.length < 256)
    (ho : ∀ x, opt = some x → Scalar.u16.InRange x) (hof : opt.isSome = true ↔ flag = 1) (bs : Bytes)
    (h : runEncode demoSchema noEncLib 1 "item" [] (itemVal flag data opt) = .ok bs) (tail : Bytes) :
    Dec.runDecode demoSchema noLib 1 "item" [] (bs ++ tail) = .ok (itemVal flag data opt, tail) :=
  decode_after_encode demoSchema noEncLib noLib openEnds _ noLib_inverse wf_demo 1 "item" [] _ bs
    (item_fits flag data opt hf hd hn ho hof 0) h tail (.inl rfl)

example : runEncode demoSchema noEncLib 1 "item" [] (itemVal 1 [vu8 7, vu8 8] (some 9)) = .ok [2, 1, 7, 8, 0, 9] := by
  rw [encode_refines]; rfl

/-- A container that limits a reference to another declared type. The length may be larger than needed. -/
theorem list_fits (n : Nat) (item : Val) (fuel : Nat)
    (hi : Fitting demoSchema noEncLib openEnds (fun _ _ _ => False) (fuel + 1) "item" [] item) (hn : n < 256)
    (hl : ∀ b, runEncode demoSchema noEncLib (fuel + 1) "item" [] item = .ok b → b.length ≤ n) :
    Fitting demoSchema noEncLib openEnds (fun _ _ _ => False) (fuel + 2) "list" [] (listVal n item) := by
  intro d hd'
  cases hd'
  refine ⟨_, rfl, rfl, ?_⟩
  rintro σ Lg content ⟨h1, -, -⟩
  have g1 : σ "n" = some (vu8 n) := by
    obtain ⟨x, hx1, hx2⟩ := (h1 (plain "n") (by decide)).1 rfl
    cases hx1; exact hx2
  have g2 : σ "first" = some item := by
    obtain ⟨x, hx1, hx2⟩ := (h1 (plain "first") (by decide)).1 rfl
    cases hx1; exact hx2
  refine ⟨⟨?_, fun _ h => nomatch h⟩, ?_⟩
  · simp only [Fits, plain, u8T, FitsLeaf, inside, Option.isSome_none, Bool.false_eq_true, if_false]
    refine ⟨?_, fun _ => ⟨⟨?_, trivial⟩, ?_⟩, (fun _ h => nomatch h), trivial⟩
    · rw [g1]; rintro v ⟨⟩; exact ⟨_, rfl, byte_inRange hn⟩
    · intro v hv vs hvs
      have hv : σ "first" = some v := hv
      rw [g2] at hv
      cases hv
      cases hvs
      exact hi
    · intro l c hc e he
      cases he
      refine ⟨vu8 n, n, ?_, usize_byte hn, .inr ⟨rfl, ?_⟩⟩
      · show runE _ _ _ = _
        simp only [runE, evalE, g1, optRes]
      · have hc : wire (encExt demoSchema noEncLib (fuel + 1) listDecl [])
            (.leaf (plain "first") (.ref "item" false .other []) .nil) σ = .ok (l, c) := hc
        simp only [wire, plain, g2, optRes, ok_bind, encField, encXforms, encLeaf, Option.isSome_none, Bool.false_and,
          Bool.false_eq_true, if_false, List.mapM_nil] at hc
        obtain ⟨b, hb, hc⟩ := ok_of_bind hc
        cases hc
        obtain ⟨⟨_, b'⟩, hb, hb'⟩ := ok_of_bind hb
        cases hb'
        obtain ⟨b2, hb2, hb3⟩ := ok_of_bind hb
        cases hb3
        obtain ⟨b3, hb4, hb5⟩ := ok_of_bind hb2
        cases hb5
        have := hl _ hb4
        simpa using this
  · intro p hp
    simp only [List.mem_cons, List.not_mem_nil, or_false] at hp
    rcases hp with rfl | rfl
    · exact g1
    · exact g2

/-- `list` of an `item`. -/
example (tail : Bytes) : runEncode demoSchema noEncLib 2 "list" [] (listVal 6 (itemVal 1 [vu8 7, vu8 8] (some 9))) =
      .ok [6, 2, 1, 7, 8, 0, 9] ∧
    Dec.runDecode demoSchema noLib 2 "list" [] ([6, 2, 1, 7, 8, 0, 9] ++ tail) =
      .ok (listVal 6 (itemVal 1 [vu8 7, vu8 8] (some 9)), tail) := by
  have he : runEncode demoSchema noEncLib 2 "list" [] (listVal 6 (itemVal 1 [vu8 7, vu8 8] (some 9))) =
      .ok [6, 2, 1, 7, 8, 0, 9] := by rw [encode_refines]; rfl
  have hi := item_fits 1 [vu8 7, vu8 8] (some 9) (by decide) (by
    intro x hx
    simp only [List.mem_cons, List.not_mem_nil, or_false] at hx
    rcases hx with rfl | rfl
    · exact ⟨7, rfl, by decide⟩
    · exact ⟨8, rfl, by decide⟩) (by decide) (by rintro x ⟨⟩; decide) (by decide) 0
  refine ⟨he, decode_after_encode demoSchema noEncLib noLib openEnds _ noLib_inverse wf_demo 2 "list" [] _ _
    (list_fits 6 _ 0 hi (by decide) fun b hb => ?_) he tail (.inl rfl)⟩
  have : runEncode demoSchema noEncLib 1 "item" [] (itemVal 1 [vu8 7, vu8 8] (some 9)) = .ok [2, 1, 7, 8, 0, 9] := by
    rw [encode_refines]; rfl
  rw [this] at hb
  cases hb
  decide


/-! ### Tagged enums -/

theorem wf_tag : WfSchema openEnds [tagDecl] := by
  refine ⟨?_, ?_⟩
  · intro d hd
    rw [List.mem_singleton] at hd
    subst hd
    refine ⟨by decide, ?_⟩
    intro arm ha
    simp only [List.mem_cons, List.not_mem_nil, or_false] at ha
    rcases ha with rfl | rfl
    · exact ⟨by decide, rfl⟩
    · refine ⟨by decide, rfl, ⟨by decide, ?_, by decide⟩, by decide⟩
      simp [Scoped, In, FAttr.exprs, LTy.exprs, plain, u16T]
  · intro n d hd _
    have := find_mem hd
    rw [List.mem_singleton] at this
    subst this
    decide

/-- Both arms of `tagDecl` round trip. -/
theorem tag_round_trip (x : Int) (hx : Scalar.u16.InRange x) (y : Int) (hy : Scalar.u8.InRange y) (bs : Bytes)
    (tail : Bytes) :
    (runEncode [tagDecl] noEncLib 1 "t" [vu8 2] (.variantS "t" "b" [("x", vu16 x)]) = .ok bs →
      Dec.runDecode [tagDecl] noLib 1 "t" [vu8 2] (bs ++ tail) = .ok (.variantS "t" "b" [("x", vu16 x)], tail)) ∧
    (runEncode [tagDecl] noEncLib 1 "t" [vu8 1] (.variant "t" "a" (vu8 y)) = .ok bs →
      Dec.runDecode [tagDecl] noLib 1 "t" [vu8 1] (bs ++ tail) = .ok (.variant "t" "a" (vu8 y), tail)) := by
  refine ⟨fun h => ?_, fun h => ?_⟩
  · refine decode_after_encode _ _ _ openEnds _ noLib_inverse wf_tag 1 "t" _ _ bs ?_ h tail (.inl rfl)
    intro d hd
    cases hd
    refine ⟨⟨(fun h => nomatch h), fun _ => ⟨fun _ => ⟨[("x", vu16 x)], rfl, rfl, ?_⟩, (fun h => nomatch h)⟩⟩,
      fun _ _ _ h => nomatch h⟩
    intro σ Lg content hσ _
    refine ⟨⟨?_, trivial⟩, fun _ h => nomatch h⟩
    intro v hv
    have := hσ ("x", vu16 x) (by simp)
    have hv' : σ "x" = some v := hv
    rw [this] at hv'
    cases hv'
    exact ⟨x, rfl, hx⟩
  · refine decode_after_encode _ _ _ openEnds _ noLib_inverse wf_tag 1 "t" _ _ bs ?_ h tail (.inl rfl)
    intro d hd
    cases hd
    exact ⟨⟨fun _ => ⟨vu8 y, rfl, y, rfl, hy⟩, (fun h => nomatch h)⟩, fun _ _ _ h => nomatch h⟩

/-! ### C16 -/

/-- Bytes as values of `u8`. -/
def byteVals (data : Bytes) : List Val := data.map fun b => vu8 b.toNat

theorem bytes_fit (data : Bytes) : ∀ x ∈ byteVals data, HasPrim (.scalar ⟨.u8, .big⟩) x := by
  intro x hx
  obtain ⟨b, _, rfl⟩ := List.mem_map.1 hx
  exact ⟨b.toNat, rfl, byte_inRange b.toNat_lt⟩

/-- **C16, a single transform.** For every transform with an inverse, `type t = u8[..] -> x(args);` (or
`-> x(args) {cond}`) gives the data back. -/
theorem transform_round_trip (LE : Lib) (LD : Dec.Lib) (x : XformUse) (params : List String) (args : List Val)
    (hoc : LE.oc = LD.oc)
    (hx : ∀ n args data b, LE.xform n args data = .ok b → LD.xform n args b = .ok (data, []))
    (data bs : Bytes)
    (h : runEncode [⟨"t", params, [x], .leaf none (.array u8T .unbounded)⟩] LE 1 "t" args
      (.newtype "t" (.arr (byteVals data))) = .ok bs) :
    Dec.runDecode [⟨"t", params, [x], .leaf none (.array u8T .unbounded)⟩] LD 1 "t" args bs =
      .ok (.newtype "t" (.arr (byteVals data)), []) := by
  have := decode_after_encode [⟨"t", params, [x], .leaf none (.array u8T .unbounded)⟩] LE LD
    ⟨fun _ => false, fun _ => false, fun _ => false⟩ (fun _ _ _ => False)
    ⟨hoc, fun _ _ _ _ h => h.elim, fun n args d b h tail ht => by
      rcases ht with ht | rfl
      · cases ht
      · simpa using hx n args d b h⟩
    ⟨by
      intro d hd
      rw [List.mem_singleton] at hd
      subst hd
      exact ⟨by simp, rfl⟩, fun _ _ _ h => nomatch h⟩ 1 "t" args _ bs
    (by
      intro d hd
      cases hd
      exact ⟨_, rfl, _, rfl, bytes_fit data⟩) h [] (.inr rfl)
  simpa using this

/-- The tag transforms meet the hypotheses of `transform_round_trip`. -/
example : (∀ n args data b, tagEncLib.xform n args data = .ok b → tagDecLib.xform n args b = .ok (data, [])) ∧
    runEncode [⟨"t", [], [⟨"a", none, []⟩], .leaf none (.array u8T .unbounded)⟩] tagEncLib 1 "t" []
      (.newtype "t" (.arr (byteVals [7, 8]))) = .ok [1, 7, 8] := by
  refine ⟨fun n args data b h => ?_, ?_⟩
  · cases h
    simp [tagDecLib]
  · rw [encode_refines]; rfl

/-! ### C15 -/

theorem byteVals_toBytes (data : Bytes) : (Val.arr (byteVals data)).toBytes = some data := by
  simp only [Val.toBytes, byteVals]
  induction data with
  | nil => rfl
  | cons b data ih =>
    have hb : Val.byteOf (vu8 b.toNat) = some b := by
      simp [vu8, Val.byteOf]
    simp only [List.map_cons, List.mapM_cons, hb, ih]
    rfl

/-- **C15, round trip.** `type t = u8[.."X"];` gives back data in which the terminator does not come up
before the end: at no position of the data does the data followed by the terminator start with the
terminator. The terminator is consumed and what follows it is left. -/
theorem terminated_round_trip (term data bs tail : Bytes)
    (ht : ∀ pre post, data = pre ++ post → post ≠ [] → ¬ term <+: post ++ term)
    (h : runEncode [⟨"t", [], [], .leaf none (.array u8T (.term (.str term)))⟩] noEncLib 1 "t" []
      (.newtype "t" (.arr (byteVals data))) = .ok bs) :
    Dec.runDecode [⟨"t", [], [], .leaf none (.array u8T (.term (.str term)))⟩] noLib 1 "t" [] (bs ++ tail) =
      .ok (.newtype "t" (.arr (byteVals data)), tail) := by
  refine decode_after_encode _ _ _ openEnds _ noLib_inverse ?_ 1 "t" [] _ bs ?_ h tail (.inl rfl)
  · refine ⟨?_, fun n d hd _ => ?_⟩
    · intro d hd
      rw [List.mem_singleton] at hd
      subst hd
      exact ⟨by simp, rfl⟩
    · have := find_mem hd
      rw [List.mem_singleton] at this
      subst this
      rfl
  · intro d hd
    cases hd
    refine ⟨_, rfl, _, rfl, fun x hx => ⟨bytes_fit data x hx, ?_⟩, ?_⟩
    · obtain ⟨b, _, rfl⟩ := List.mem_map.1 hx
      intro he
      cases he
    · intro t tb h1 h2 pre post bs' hp hpo hc hpre
      cases h1
      have h3 : term = tb := by
        have := byteVals_toBytes term
        exact Option.some.inj (this.symm.trans h2)
      subst h3
      obtain ⟨p1, p2, rfl, hp1, hp2⟩ := List.map_eq_append_iff.1 hp
      refine ht p1 p2 rfl (fun h => hpo (by rw [← hp2, h]; rfl)) ?_
      have : concatM (encLeaf (encExt [⟨"t", [], [], .leaf none (.array u8T (.term (.str term)))⟩] noEncLib 0
          ⟨"t", [], [], .leaf none (.array u8T (.term (.str term)))⟩ []) .empty u8T) (byteVals p2) = .ok p2 := by
        clear hp2 hp hc ht h
        induction p2 with
        | nil => rfl
        | cons b p2 ih =>
          simp only [byteVals, List.map_cons, concatM, encLeaf, u8T, encPrim, numBytes, vu8, ok_bind] at ih ⊢
          rw [ih, intBytes_byte]
          rfl
      rw [← hp2] at hc
      have := this.symm.trans hc
      cases this
      exact hpre

/-- No byte of the data is the terminator: the hypothesis is met. -/
example : (∀ pre post : Bytes, [7, 8] = pre ++ post → post ≠ [] → ¬ [0] <+: post ++ [(0 : UInt8)]) ∧
    runEncode [⟨"t", [], [], .leaf none (.array u8T (.term (.str [0])))⟩] noEncLib 1 "t" []
      (.newtype "t" (.arr (byteVals [7, 8]))) = .ok [7, 8, 0] := by
  refine ⟨fun pre post h hp => ?_, ?_⟩
  · cases post with
    | nil => exact absurd rfl hp
    | cons b post =>
      intro hpre
      have hb : b ∈ [(7 : UInt8), 8] := by rw [h]; simp
      simp only [List.cons_append, List.cons_prefix_cons] at hpre
      rw [← hpre.1] at hb
      revert hb; decide
  · rw [encode_refines]; rfl

end Verif.Props
