import Verif.DecodeSpec
/-!
# Decoders that know where their value ends

`delimited` is a check of a schema. `specDecode_stable`: what a decoder of a type that passes it makes of an input does not depend on what
comes after the bytes it reads.

This is an analysis of schemas that the theorems of `Props/Delimited` use as a hypothesis, not code of `/repo`.
-/
namespace Verif.Dec
open Verif

/-- More input behind what has been read changes nothing. -/
def Stable {α} (f : Bytes → Res (α × Bytes)) : Prop :=
  ∀ bs a rest, f bs = .ok (a, rest) → ∀ more, f (bs ++ more) = .ok (a, rest ++ more)

theorem res_bind_inv {α β} {x : Res α} {k : α → Res β} {b : β} (h : x >>= k = .ok b) : ∃ a, x = .ok a ∧ k a = .ok b := by
  cases x with
  | ok a => exact ⟨a, rfl, h⟩
  | error f => cases h

theorem Stable.bind {α β} {f : Bytes → Res (α × Bytes)} {g : α → Bytes → Res (β × Bytes)} (hf : Stable f)
    (hg : ∀ a, Stable (g a)) : Stable fun bs => f bs >>= fun y => g y.1 y.2 := by
  intro bs b rest h more
  obtain ⟨⟨a, r⟩, h1, h2⟩ := res_bind_inv h
  simp only [hf bs a r h1 more, ok_bind]
  exact hg a r b rest h2 more

theorem Stable.after {α β} (x : Res α) {g : α → Bytes → Res (β × Bytes)} (hg : ∀ a, Stable (g a)) :
    Stable fun bs => x >>= fun a => g a bs := by
  intro bs b rest h more
  obtain ⟨a, h1, h2⟩ := res_bind_inv h
  simp only [h1, ok_bind]
  exact hg a bs b rest h2 more

theorem Stable.pure {α} (a : α) : Stable fun bs => .ok (a, bs) := by
  intro bs b rest h more
  cases h
  rfl

theorem Stable.map {α β} {f : Bytes → Res (α × Bytes)} (hf : Stable f) (g : α → β) :
    Stable fun bs => f bs >>= fun y => .ok (g y.1, y.2) := hf.bind fun a => .pure (g a)

theorem Stable.error {α} (f : Fault) : Stable fun _ => (.error f : Res (α × Bytes)) := by
  intro bs b rest h
  cases h

/-! ## Single items -/

theorem readExact_stable (n : Nat) : Stable (readExact n) := by
  intro bs a rest h more
  unfold readExact at h ⊢
  split at h
  · cases h
  · rename_i hl
    cases h
    rw [if_neg (by simp; omega), List.take_append_of_le_length (by omega), List.drop_append_of_le_length (by omega)]

theorem decPrim_stable (p : Prim) : Stable (decPrim p) := (readExact_stable _).map _

theorem decRepr_stable (t : ReprTy) : Stable (decRepr t) :=
  (readExact_stable t.rep.scalar.size).bind (g := fun raw r => ofRepr t (bytesInt t.rep raw) >>= fun v => .ok (v, r))
    fun _ => Stable.after _ fun v => .pure v

theorem readItems_stable (oc : Bool) (size n : Nat) : Stable (readItems oc size (some n)) :=
  Stable.after _ fun total => Stable.after _ fun _ => readExact_stable total

theorem decPrimArray_stable (oc : Bool) (p : Prim) (n : Nat) : Stable (decPrimArray oc p (some n)) := by
  unfold decPrimArray
  split
  · exact .error _
  · exact (readItems_stable oc p.size n).map fun raw => Val.arr ((chunksExact p.size raw).map (primOfBytes p))

theorem decReprArray_stable (oc : Bool) (t : ReprTy) (n : Nat) : Stable (decReprArray oc t (some n)) :=
  (readItems_stable oc t.rep.scalar.size n).bind
    (g := fun raw r => ((chunksExact t.rep.scalar.size raw).mapM fun c => ofRepr t (bytesInt t.rep c)) >>= fun vs => .ok (Val.arr vs, r))
    fun _ => Stable.after _ fun vs => .pure (Val.arr vs)

theorem skipBytes_stable (n : Nat) : Stable (skipBytes n) :=
  Stable.after _ fun _ => (readExact_stable n).map fun _ => ()

theorem decN_stable {f : Bytes → Res (Val × Bytes)} (hf : Stable f) : ∀ n, Stable (decN f n) := by
  intro n
  induction n with
  | zero => exact .pure []
  | succ n ih => exact hf.bind fun v => ih.map (v :: ·)

/-! ## The check -/

/-- Which declared types, foreign types and transforms know where they end. The first is verified by the check. -/
structure Ends where
  own : String → Bool
  foreign : String → Bool
  xform : String → Bool

def delimLeaf (D : Ends) : LTy → Bool
  | .prim _ => true
  | .ref n foreign _ _ => if foreign then D.foreign n else D.own n
  | .array el (.fixed _) => decide (el.resolved ≠ .other) || delimLeaf D el
  | .array _ _ => false

/-- Transforms that know where they end, around something that does; or one that is always applied around
anything: what it decodes from is no longer the input itself. -/
def delimXforms (D : Ends) (xs : List XformUse) (inner : Bool) : Bool :=
  xs.all (fun x => D.xform x.name) && (inner || xs.any fun x => x.cond.isNone)

def delimItems (D : Ends) : Fields → Bool
  | .nil => true
  | .pad _ _ rest => delimItems D rest
  | .leaf a ty rest => delimXforms D a.xfs (delimLeaf D ty) && delimItems D rest
  | .cont a _ items rest => delimXforms D a.xfs (delimItems D items) && delimItems D rest

def delimArm (D : Ends) (arm : Arm) : Bool :=
  delimXforms D arm.attr.xfs
    (match arm.body with
    | .leaf ty => delimLeaf D ty
    | .cont _ items => delimItems D items)

def delimDecl (D : Ends) (d : Decl) : Bool :=
  delimXforms D d.xfs
    (match d.body with
    | .leaf _ ty => delimLeaf D ty
    | .repr _ => true
    | .struct _ items => delimItems D items
    | .tagged _ arms => arms.all (delimArm D))

/-- Every type of which `D` says that it knows where it ends does so. -/
def delimited (D : Ends) (sch : Schema) : Bool := sch.all fun d => !D.own d.name || delimDecl D d

/-! ## Soundness -/

structure ExtEnds (D : Ends) (X : Ext) : Prop where
  call : ∀ n vs, D.own n = true → Stable (X.call n vs)
  foreign : ∀ n vs, D.foreign n = true → Stable (X.foreign n vs)
  xform : ∀ n vs, D.xform n = true → Stable (X.xform n vs)

variable {D : Ends} {X : Ext}

theorem decLeaf_stable (hX : ExtEnds D X) (env : Env) : ∀ ty, delimLeaf D ty = true → Stable (decLeaf X env ty)
  | .prim p, _ => by
    have := decPrim_stable p
    unfold Stable
    simp only [decLeaf]
    exact this
  | .ref n foreign res args, h => by
    have : Stable fun bs => (args.mapM (ev X env)) >>= fun vs =>
        if foreign then X.foreign n vs bs else X.call n vs bs := by
      refine Stable.after _ fun vs => ?_
      cases foreign with
      | true => exact hX.foreign n vs h
      | false => exact hX.call n vs h
    unfold Stable
    simp only [decLeaf]
    exact this
  | .array el (.fixed e), h => by
    have : Stable fun bs => ev X env e >>= fun v =>
        match el.resolved with
        | .prim p => asUsize v >>= fun n => decPrimArray X.oc p (some n) bs
        | .repr t => asUsize v >>= fun n => decReprArray X.oc t (some n) bs
        | .other => loopCount v >>= fun n => decN (decLeaf X env el) n bs >>= fun y => .ok (.arr y.1, y.2) := by
      refine Stable.after _ fun v => ?_
      cases hr : el.resolved with
      | prim p => exact Stable.after _ fun n => decPrimArray_stable X.oc p n
      | repr t => exact Stable.after _ fun n => decReprArray_stable X.oc t n
      | other =>
        have hel : delimLeaf D el = true := by simpa [delimLeaf, hr] using h
        exact Stable.after _ fun n => (decN_stable (decLeaf_stable hX env el hel) n).map Val.arr
    unfold Stable
    simp only [decLeaf]
    exact this
  | .array el .unbounded, h => by simp [delimLeaf] at h
  | .array el (.term e), h => by simp [delimLeaf] at h

theorem decXforms_stable {α} (hX : ExtEnds D X) (env : Env) {k : Bytes → Res (α × Bytes)} :
    ∀ (xs : List XformUse), (∀ x ∈ xs, D.xform x.name = true) → (Stable k ∨ ∃ x ∈ xs, x.cond = none) →
      Stable fun bs => decXforms X env xs bs k := by
  intro xs
  induction xs with
  | nil =>
    intro _ h
    simp only [decXforms]
    rcases h with h | ⟨x, hx, _⟩
    · exact h
    · cases hx
  | cons x xs ih =>
    intro hxs h
    have ih := ih fun y hy => hxs y (by simp [hy])
    have happ : Stable fun bs => x.args.mapM (ev X env) >>= fun vs => X.xform x.name vs bs >>= fun y =>
        decXforms X env xs y.1 k >>= fun z => .ok (z.1, y.2) := by
      refine Stable.after _ fun vs => ?_
      refine (hX.xform x.name vs (hxs x (by simp))).bind (g := fun dec rest => decXforms X env xs dec k >>= fun z => .ok (z.1, rest))
        fun dec => ?_
      exact Stable.after _ fun z => .pure z.1
    unfold Stable
    simp only [decXforms]
    cases hc : x.cond with
    | none => exact happ
    | some e =>
      refine Stable.after (ev X env e) fun c => Stable.after c.toBool fun b => ?_
      cases b with
      | true => exact happ
      | false =>
        refine ih ?_
        rcases h with h | ⟨y, hy, hyc⟩
        · exact .inl h
        · rcases List.mem_cons.1 hy with rfl | hy
          · rw [hc] at hyc; cases hyc
          · exact .inr ⟨y, hy, hyc⟩

theorem delimXforms_stable {α} (hX : ExtEnds D X) (env : Env) {k : Bytes → Res (α × Bytes)} {xs : List XformUse} {inner : Bool}
    (h : delimXforms D xs inner = true) (hk : inner = true → Stable k) :
    Stable fun bs => decXforms X env xs.reverse bs k := by
  simp only [delimXforms, Bool.and_eq_true, Bool.or_eq_true, List.all_eq_true, List.any_eq_true, Option.isNone_iff_eq_none] at h
  refine decXforms_stable hX env _ (fun x hx => h.1 x (List.mem_reverse.1 hx)) ?_
  rcases h.2 with h | ⟨x, hx, hc⟩
  · exact .inl (hk h)
  · exact .inr ⟨x, List.mem_reverse.2 hx, hc⟩

theorem decLimited_stable {α} (env : Env) (len : Option Expr) {k : Bytes → Res (α × Bytes)} (hk : Stable k) :
    Stable fun bs => decLimited X env len bs k := by
  unfold Stable
  simp only [decLimited]
  cases len with
  | none => exact hk
  | some e =>
    refine Stable.after (ev X env e) fun v => Stable.after (asUsize v) fun n => ?_
    intro bs a rest h more
    obtain ⟨⟨b, r⟩, h1, h2⟩ := res_bind_inv h
    cases h2
    simp only
    by_cases hn : n ≤ bs.length
    · rw [List.take_append_of_le_length hn, List.drop_append_of_le_length hn]
      simp only [h1, ok_bind, List.append_assoc]
    · have hn : bs.length ≤ n := by omega
      rw [List.take_of_length_le hn] at h1
      rw [List.take_append, List.take_of_length_le hn, List.drop_append, List.drop_of_length_le hn]
      simp only [hk bs _ _ h1, ok_bind, List.append_assoc, List.nil_append, List.take_append_drop]

theorem decCond_stable (env : Env) (cond : Option Expr) (names : List String)
    {k : Bytes → Res (List (String × Val) × Bytes)} (hk : Stable k) : Stable fun bs => decCond X env cond names bs k := by
  unfold Stable
  simp only [decCond]
  cases cond with
  | none => exact hk
  | some e =>
    refine Stable.after (ev X env e) fun c => Stable.after c.toBool fun b => ?_
    cases b with
    | true => exact hk.map _
    | false => exact .pure _

theorem decItems_stable (hX : ExtEnds D X) : ∀ (items : Fields) (env : Env), delimItems D items = true →
    Stable (decItems X items env) := by
  intro items
  induction items with
  | nil => intro env _; exact .pure []
  | pad n e rest ih =>
    intro env h
    unfold Stable
    simp only [decItems]
    exact Stable.after (ev X env e) fun v => Stable.after (asUsize v) fun n => (skipBytes_stable n).bind fun _ => ih env h
  | leaf a ty rest ih =>
    intro env h
    simp only [delimItems, Bool.and_eq_true] at h
    unfold Stable
    simp only [decItems]
    refine (decCond_stable env a.cond [a.name] (delimXforms_stable hX env h.1 fun hl => ?_)).bind fun vs =>
      (ih _ h.2).map _
    exact (decLeaf_stable hX env ty hl).map fun v => [(a.name, v)]
  | cont a len items rest ihi ih =>
    intro env h
    simp only [delimItems, Bool.and_eq_true] at h
    unfold Stable
    simp only [decItems]
    refine (decCond_stable env a.cond items.names (delimXforms_stable hX env h.1 fun hl => ?_)).bind fun vs =>
      (ih _ h.2).map _
    exact decLimited_stable env len (ihi env hl)

theorem decArm_stable (hX : ExtEnds D X) (n : String) {arm : Arm} (h : delimArm D arm = true) : Stable (decArm X n arm) := by
  refine delimXforms_stable hX Env.empty h fun hi => ?_
  cases hb : arm.body with
  | leaf ty =>
    rw [hb] at hi
    exact (decLeaf_stable hX _ ty hi).map _
  | cont len items =>
    rw [hb] at hi
    exact (decLimited_stable _ len (decItems_stable hX items _ hi)).map _

theorem decArms_stable (hX : ExtEnds D X) (n : String) : ∀ (arms : List Arm), arms.all (delimArm D) = true →
    Stable (decArms X n arms) := by
  intro arms
  induction arms with
  | nil => intro _; exact .error _
  | cons arm arms ih =>
    intro h
    simp only [List.all_cons, Bool.and_eq_true] at h
    unfold Stable
    simp only [decArms]
    cases arm.attr.cond with
    | none => exact decArm_stable hX n h.1
    | some e =>
      refine Stable.after (ev X Env.empty e) fun c => Stable.after c.toBool fun b => ?_
      cases b with
      | true => exact decArm_stable hX n h.1
      | false => exact ih h.2

theorem decDecl_stable (hX : ExtEnds D X) {d : Decl} (h : delimDecl D d = true) : Stable (decDecl X d) := by
  unfold delimDecl at h
  unfold Stable
  simp only [decDecl]
  cases hb : d.body with
  | leaf cond ty =>
    rw [hb] at h
    refine Stable.bind ?_ (g := fun (vs : List (String × Val)) r => match vs with
        | [(_, v)] => .ok (Val.newtype d.name v, r)
        | _ => .error .ill) fun vs => ?_
    · exact decCond_stable Env.empty cond [d.name] (delimXforms_stable hX Env.empty h fun hl =>
        (decLeaf_stable hX _ ty hl).map fun v => [(d.name, v)])
    match vs with
    | [] => exact Stable.error _
    | [(_, v)] => exact Stable.pure _
    | _ :: _ :: _ => exact Stable.error _
  | repr t =>
    rw [hb] at h
    exact delimXforms_stable hX _ h fun _ => decRepr_stable t
  | struct len items =>
    rw [hb] at h
    exact delimXforms_stable hX _ h fun hi => (decLimited_stable _ len (decItems_stable hX items _ hi)).map _
  | tagged len arms =>
    rw [hb] at h
    exact delimXforms_stable hX _ h fun hi => decLimited_stable _ len (decArms_stable hX d.name arms hi)

/-- The foreign types and transforms know where they end, as `D` says. -/
structure LibEnds (D : Ends) (L : Lib) : Prop where
  foreign : ∀ n vs, D.foreign n = true → Stable (L.foreign n vs)
  xform : ∀ n vs, D.xform n = true → Stable (L.xform n vs)

theorem specDecode_stable {sch : Schema} {L : Lib} (hc : delimited D sch = true) (hL : LibEnds D L) :
    ∀ (fuel : Nat) (name : String) (args : List Val), D.own name = true → Stable (specDecode sch L fuel name args) := by
  intro fuel
  induction fuel with
  | zero => intro name args _; exact Stable.error _
  | succ fuel ih =>
    intro name args hn
    unfold Stable
    simp only [specDecode, callDecl]
    cases hf : sch.find name with
    | none => exact Stable.error _
    | some d =>
      have hd : delimDecl D d = true := by
        have hm := List.all_eq_true.1 hc d (List.mem_of_find?_eq_some hf)
        have hdn : d.name = name := by simpa using List.find?_some hf
        rw [hdn, hn] at hm
        exact hm
      by_cases hl : d.params.length ≠ args.length
      · simp only [if_pos hl]; exact Stable.error _
      · simp only [if_neg hl]
        exact decDecl_stable ⟨fun n vs h => ih n vs h, hL.foreign, hL.xform⟩ hd

end Verif.Dec
