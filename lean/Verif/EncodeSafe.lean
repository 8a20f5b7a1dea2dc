import Verif.DecodeSafe
/-!
# The encoders rustc accepts

`encChecks` says that the generated encoders follow Rust's type rules; `specEncode_safe`: such encoders
never go wrong on values of the declared types. The check follows the statements of an encoder from top to
bottom, keeping the types of the variables (`TCtx`) and which lengths have been recorded (`Tys`).
-/
namespace Verif

abbrev Tys := String → Option RTy

/-- A variable gets a (new) type. -/
def TCtx.set (Γ : TCtx) (n : String) (t : RTy) : TCtx := ⟨upd Γ.field n (some t), Γ.input⟩

namespace Enc

/-- A field that is not a container, with a variable of type `t` for it (`coder/encode/field.rs` 35-156). A
stored conditional field is an `Option`, a calculated one is not. -/
def encFieldOk (F : Sig) (sch : Schema) (oc : Bool) (Γ : TCtx) (a : FAttr) (ty : LTy) (t : RTy) : Bool :=
  condOk sch oc Γ a.cond && a.xfs.all (xformOk F sch oc Γ) && alignedTy sch ty && leafOk F sch oc Γ ty &&
  decide (t = (ty.rust F).optional (a.cond.isSome && a.auto.isNone))

/-- The variables and lengths an expression with `blen` sees (`coder/encode/container.rs` 73-97). -/
def blenCtx (Γ : TCtx) (Λ : Tys) (e : Expr) : TCtx :=
  ⟨overlay Γ.field (e.blens.map fun f => (blenName f, Λ f)), Γ.input⟩

/-- The type of a calculated value that uses `blen`. -/
def blenTy (sch : Schema) (oc : Bool) (Γ : TCtx) (Λ : Tys) (a : FAttr) : Option RTy :=
  match a.auto with
  | some e => eTy sch oc (blenCtx Γ Λ e) e.unblen
  | none => none

/-- The waiting fields whose lengths are known (`coder/encode/container.rs` 137-163). -/
def encFlushOk (F : Sig) (sch : Schema) (oc : Bool) (p : Plan) (Λ : Tys) :
    List (FAttr × LTy) → TCtx → Option (TCtx × List (FAttr × LTy))
  | [], Γ => some (Γ, [])
  | d :: ds, Γ => do
    let (Γ1, rest) ← encFlushOk F sch oc p Λ ds Γ
    if p.known (FAttr.blens d.1) then do
      let t ← blenTy sch oc Γ1 Λ d.1
      if encFieldOk F sch oc (Γ1.set d.1.name t) d.1 d.2 t then some (Γ1.set d.1.name t, rest) else none
    else some (Γ1, d :: rest)

/-- Fields that must be present are `Option`s, and are rebound to what is in them. -/
def encNullsOk : List String → TCtx → Option TCtx
  | [], Γ => some Γ
  | n :: ns, Γ =>
    match Γ.field n with
    | some (.opt t) => encNullsOk ns (Γ.set n t)
    | _ => none

def enterOk (cond : Bool) (items : Fields) (Γ : TCtx) : Option TCtx :=
  if cond then encNullsOk (nullNames items) Γ else some Γ

def withBlenOk (sch : Schema) (oc : Bool) (Γ : TCtx) (Λ : Tys) (a : FAttr) : Option TCtx :=
  if (FAttr.blens a).isEmpty then some Γ else (blenTy sch oc Γ Λ a).map fun t => Γ.set a.name t

def capacityOk (sch : Schema) (oc : Bool) (Γ : TCtx) (name : String) (len : Option Expr) (p : Plan) : Bool :=
  match len with
  | some e => decide (name ∈ p.pending) || numberOk sch oc Γ e
  | none => true

def eraseT (ns : List String) (m : Tys) : Tys := fun n => if n ∈ ns then none else m n

/-- The items of a container (`coder/encode/container.rs` 99-270). Returns the types of the variables and
the lengths known afterwards. -/
def encItemsOk (F : Sig) (sch : Schema) (oc : Bool) (cond : Bool) :
    Fields → Plan → TCtx → Tys → List (FAttr × LTy) → Option (TCtx × Tys)
  | .nil, _, Γ, Λ, _ => some (Γ, Λ)
  | .pad _ e rest, p, Γ, Λ, ds =>
    if numberOk sch oc Γ e then do
      let (Γ2, ds2) ← encFlushOk F sch oc p Λ ds Γ
      encItemsOk F sch oc cond rest p Γ2 Λ ds2
    else none
  | .leaf a ty rest, p, Γ, Λ, ds =>
    if (FAttr.blens a).isEmpty || p.known (FAttr.blens a) then do
      let Γ1 ← withBlenOk sch oc Γ Λ a
      let t ← Γ1.field a.name
      if encFieldOk F sch oc Γ1 a ty t then do
        let (Γ2, ds2) ← encFlushOk F sch oc p Λ ds Γ1
        encItemsOk F sch oc cond rest p Γ2 Λ ds2
      else none
    else encItemsOk F sch oc cond rest (p.await a) Γ Λ (ds ++ [(a, ty)])
  | .cont a len items rest, p, Γ, Λ, ds =>
    if condOk sch oc Γ a.cond && a.xfs.all (xformOk F sch oc Γ) && capacityOk sch oc Γ a.name len p then do
      let Γ1 ← enterOk (a.cond.isSome || cond) items Γ
      let (Γ2, Λ2) ← encItemsOk F sch oc (a.cond.isSome || cond) items p Γ1 Λ []
      let p2 := planItems items p
      let Λ3 := if len.isSome && decide (a.name ∈ p2.pending) then upd Λ2 a.name (some (.int .u64)) else Λ2
      let p' := (planItems items p).close a.name len
      let after : TCtx × Tys :=
        if a.cond.isSome then
          (⟨eraseT (nullNames items ++ setNames true items) Γ.field, Γ.input⟩,
            eraseT (p'.log.drop p.log.length) Λ)
        else (Γ2, Λ3)
      let (Γ3, ds3) ← encFlushOk F sch oc p' after.2 ds after.1
      encItemsOk F sch oc cond rest p' Γ3 after.2 ds3
    else none

/-- The calculated fields without `blen` (`coder/encode/container.rs` 40-72). -/
def encCalculatedOk (sch : Schema) (oc : Bool) : List FAttr → TCtx → Option TCtx
  | [], Γ => some Γ
  | a :: as, Γ =>
    match a.auto with
    | some e =>
      if e.blens.isEmpty then
        match eTy sch oc Γ e with
        | some t => encCalculatedOk sch oc as (Γ.set a.name t)
        | none => none
      else encCalculatedOk sch oc as Γ
    | none => encCalculatedOk sch oc as Γ

/-- The stored fields, with the types of the struct. -/
def encStoredOk (ts : List (String × RTy)) : List FAttr → TCtx → Option TCtx
  | [], Γ => some Γ
  | a :: as, Γ =>
    if a.auto.isSome then encStoredOk ts as Γ
    else match ts.lookup a.name with
      | some t => encStoredOk ts as (Γ.set a.name t)
      | none => none

/-- The fields of a struct variant, with its types. -/
def bindNamesOk (ts : List (String × RTy)) : List String → TCtx → Option TCtx
  | [], Γ => some Γ
  | n :: ns, Γ =>
    match ts.lookup n with
    | some t => bindNamesOk ts ns (Γ.set n t)
    | none => none

def encArmOk (F : Sig) (sch : Schema) (oc : Bool) (Γ : TCtx) (arm : Arm) (p : Plan) : Bool :=
  match arm.body with
  | .leaf ty => arm.attr.xfs.all (xformOk F sch oc Γ) && alignedTy sch ty && leafOk F sch oc Γ ty
  | .cont _ items =>
    (do let Γ1 ← bindNamesOk (rustFields F false items) items.names Γ
        let Γ2 ← encCalculatedOk sch oc items.leaves Γ1
        encItemsOk F sch oc false items p Γ2 (fun _ => none) []).isSome

def encArmsOk (F : Sig) (sch : Schema) (oc : Bool) (Γ : TCtx) : List Arm → Plan → Bool
  | [], _ => true
  | arm :: arms, p =>
    condOk sch oc Γ arm.attr.cond && encArmOk F sch oc Γ arm p && encArmsOk F sch oc Γ arms (planArm arm p)

/-- The encoder of a declared type; in a tagged enum, variants have different names. -/
def encDeclOk (F : Sig) (sch : Schema) (oc : Bool) (d : Decl) : Bool :=
  (genDecl d).1.ok &&
  match d.body with
  | .leaf cond ty => encFieldOk F sch oc (d.ctx F) ⟨d.name, cond, d.xfs, none⟩ ty ((ty.rust F).optional cond.isSome)
  | .repr _ => d.xfs.all (xformOk F sch oc (d.ctx F))
  | .struct len items =>
    d.xfs.all (xformOk F sch oc (d.ctx F)) && capacityOk sch oc (d.ctx F) d.name len .init &&
    (do let Γ1 ← encStoredOk (rustFields F false items) items.leaves (d.ctx F)
        let Γ2 ← encCalculatedOk sch oc items.leaves Γ1
        encItemsOk F sch oc false items .init Γ2 (fun _ => none) []).isSome
  | .tagged len arms =>
    d.xfs.all (xformOk F sch oc (d.ctx F)) && capacityOk sch oc (d.ctx F) d.name len .init &&
    decide (arms.map (·.attr.name)).Nodup && encArmsOk F sch oc (d.ctx F) arms .init

/-- The generated encoders follow Rust's type rules. -/
def encChecks (F : Sig) (sch : Schema) (oc : Bool) : Bool := sch.all (encDeclOk F sch oc)

/-! ## Soundness -/

variable {F : Sig} {sch : Schema}

/-- What the outside does with arguments and values of the right types. -/
structure ExtSafe (F : Sig) (sch : Schema) (X : Ext) : Prop where
  call : ∀ n vs v d, sch.find n = some d → d.params.length = (F.params n).length →
    ArgsTyped F sch (F.params n) vs → Belongs F sch false (.named n) v → Sane (fun _ => True) (X.call n vs v)
  foreign : ∀ n vs v, ArgsTyped F sch (F.foreignArgs n) vs → Belongs F sch false (F.foreignTy n) v →
    Sane (fun _ => True) (X.foreign n vs v)
  xform : ∀ n vs bs, ArgsTyped F sch (F.xformArgs n) vs → Sane (fun _ => True) (X.xform n vs bs)

/-- The variables in scope. -/
def EnvTyped (F : Sig) (sch : Schema) (Γ : TCtx) (X : Ext) (env : Env) : Prop :=
  LookTyped F sch Γ ⟨env, X.input⟩

/-- The recorded lengths. -/
def LensTyped (F : Sig) (sch : Schema) (Λ : Tys) (lens : Env) : Prop :=
  ∀ n t, Λ n = some t → ∃ v, lens n = some v ∧ Belongs F sch false t v

variable {X : Ext} {Γ : TCtx} {env : Env}

theorem EnvTyped.set (he : EnvTyped F sch Γ X env) {n : String} {t : RTy} {v : Val}
    (hv : Belongs F sch false t v) : EnvTyped F sch (Γ.set n t) X (upd env n (some v)) := by
  refine ⟨?_, he.2⟩
  intro m u hm
  simp only [TCtx.set, upd] at hm ⊢
  split
  · rename_i h
    rw [if_pos h] at hm
    cases hm
    exact ⟨v, rfl, hv⟩
  · rename_i h
    rw [if_neg h] at hm
    exact he.1 m u hm

theorem args_safe (he : EnvTyped F sch Γ X env) : ∀ {es : List Expr} {ts : List RTy},
    es.map (eTy sch X.oc Γ) = ts.map some → Sane (ArgsTyped F sch ts) (es.mapM (ev X env))
  | [], ts, h => by
    have : ts = [] := by simpa using h.symm
    subst this
    exact ArgsTyped.nil
  | e :: es, ts, h => by
    cases ts with
    | nil => simp at h
    | cons t ts =>
      simp only [List.map_cons, List.cons.injEq] at h
      rw [List.mapM_cons]
      exact (eTy_sound he e t h.1).bind fun v hv => (args_safe he h.2).bind fun vs hvs =>
        ArgsTyped.cons hv hvs

theorem number_bind {β} (he : EnvTyped F sch Γ X env) {e : Expr} (h : numberOk sch X.oc Γ e = true)
    {P : β → Prop} {k : Val → Res β} (hk : ∀ s n, Sane P (k (.int ⟨s, n⟩))) : Sane P (ev X env e >>= k) := by
  unfold numberOk at h
  split at h
  · rename_i s hs
    refine (eTy_sound he e _ hs).bind fun v hv => ?_
    obtain ⟨n, rfl⟩ := inv_int hv
    exact hk _ n
  · cases h

theorem cond_bind {β} (he : EnvTyped F sch Γ X env) {e : Expr} (h : condOk sch X.oc Γ (some e) = true)
    {P : β → Prop} {k : Bool → Res β} (hk : ∀ b, Sane P (k b)) :
    Sane P (ev X env e >>= fun c => c.toBool >>= k) := by
  simp only [condOk, decide_eq_true_eq] at h
  exact (eTy_sound he e _ h).bind fun v hv => bool_ok hv hk

theorem checkCount_safe (n : Option Nat) (vs : List Val) : Sane (fun _ => True) (checkCount n vs) := by
  unfold checkCount
  split
  · split
    · trivial
    · exact fun h => by cases h
  · trivial

theorem concatM_safe {f : Val → Res Bytes} : ∀ (vs : List Val), (∀ v ∈ vs, Sane (fun _ => True) (f v)) →
    Sane (fun _ => True) (concatM f vs)
  | [], _ => trivial
  | v :: vs, h => (h v (by simp)).bind fun _ _ =>
    (concatM_safe vs fun w hw => h w (by simp [hw])).bind fun _ _ => trivial

theorem encPrim_safe {p : Prim} {v : Val} (h : Belongs F sch false p.rust v) :
    Sane (fun _ => True) (encPrim p v) := by
  cases p with
  | bool => obtain ⟨b, rfl⟩ := inv_bool h; trivial
  | f32 => cases h; trivial
  | f64 => cases h; trivial
  | scalar s => obtain ⟨n, rfl⟩ := inv_int h; trivial

theorem encPrimArray_safe {p : Prim} (hp : p ≠ .bool) {v : Val} (h : Belongs F sch false (.vec p.rust) v)
    (n : Option Nat) : Sane (fun _ => True) (encPrimArray p n v) := by
  cases h with
  | vec hvs =>
    rename_i vs
    unfold encPrimArray
    split
    · exact absurd rfl hp
    · refine (checkCount_safe n vs).bind fun _ _ => ?_
      obtain ⟨bs, hbs⟩ := Dec.toBytes_typed (F := F) (sch := sch) (.vec hvs)
      rw [hbs]; trivial
    · exact (checkCount_safe n vs).bind fun _ _ => concatM_safe vs fun v hv => encPrim_safe (hvs v hv)

theorem encRepr_safe {n : String} {d : Decl} {t : ReprTy} (hf : sch.find n = some d) (hb : d.body = .repr t)
    {v : Val} (h : Belongs F sch false (.named n) v) : Sane (fun _ => True) (encRepr t v) := by
  cases h with
  | newtype g1 g2 _ => rw [hf] at g1; cases g1; rw [hb] at g2; cases g2
  | struct g1 g2 _ => rw [hf] at g1; cases g1; rw [hb] at g2; cases g2
  | variant g1 g2 _ _ _ => rw [hf] at g1; cases g1; rw [hb] at g2; cases g2
  | variantS g1 g2 _ _ _ => rw [hf] at g1; cases g1; rw [hb] at g2; cases g2
  | enm g1 g2 g3 _ =>
    rw [hf] at g1; cases g1
    rw [hb] at g2; cases g2
    simp only [encRepr, reprOf, if_pos, g3]
    trivial
  | bits g1 g2 _ =>
    rw [hf] at g1; cases g1
    rw [hb] at g2; cases g2
    simp only [encRepr, reprOf, if_pos]
    trivial

theorem encReprArray_safe {el : LTy} {t : ReprTy} (ha : alignedElem sch el = true) (hr : el.resolved = .repr t)
    {v : Val} (h : Belongs F sch false (.vec (el.rust F)) v) (n : Option Nat) :
    Sane (fun _ => True) (encReprArray t n v) := by
  simp only [alignedElem, hr] at ha
  split at ha
  · rename_i m rs args
    simp only [Bool.and_eq_true, decide_eq_true_eq] at ha
    cases hf : sch.find m with
    | none => simp [hf] at ha
    | some d =>
      simp only [hf, Option.map_some, Option.some.injEq] at ha
      cases h with
      | vec hvs =>
        exact (checkCount_safe n _).bind fun _ _ => concatM_safe _ fun v hv =>
          encRepr_safe hf ha.1 (by simpa [LTy.rust] using hvs v hv)
  · cases ha

theorem encN_safe {f : Val → Res Bytes} {t : RTy} (hf : ∀ v, Belongs F sch false t v → Sane (fun _ => True) (f v))
    {v : Val} (hv : Belongs F sch false (.vec t) v) : ∀ (n i : Nat), Sane (fun _ => True) (encN f v i n)
  | 0, _ => trivial
  | n + 1, i => by
    have ih := encN_safe hf hv n (i + 1)
    cases hv with
    | vec hvs =>
      simp only [encN, itemOf]
      split
      · rename_i x hx
        exact (hf x (hvs x (List.mem_of_getElem? hx))).bind fun _ _ => ih.bind fun _ _ => trivial
      · exact fun h => by cases h

theorem alignedElem_prim {el : LTy} {p : Prim} (ha : alignedElem sch el = true) (hr : el.resolved = .prim p) :
    el = .prim p := by
  simpa [alignedElem, hr] using ha

theorem encLeaf_safe (hX : ExtSafe F sch X) (he : EnvTyped F sch Γ X env) :
    ∀ (ty : LTy), alignedTy sch ty = true → leafOk F sch X.oc Γ ty = true → ∀ v,
      Belongs F sch false (ty.rust F) v → Sane (fun _ => True) (encLeaf X env ty v)
  | .prim p, _, _, v, hv => by simp only [encLeaf]; exact encPrim_safe (by simpa [LTy.rust] using hv)
  | .ref n foreign rs args, _, h, v, hv => by
    simp only [encLeaf]
    cases foreign with
    | true =>
      simp only [leafOk, if_true, argsOk, decide_eq_true_eq] at h
      simp only [LTy.rust, if_true] at hv
      exact (args_safe he h).bind fun vs hvs => hX.foreign n vs v hvs hv
    | false =>
      simp only [leafOk, Bool.false_eq_true, if_false, argsOk, Bool.and_eq_true, decide_eq_true_eq] at h
      simp only [LTy.rust, Bool.false_eq_true, if_false] at hv
      cases hf : sch.find n with
      | none => simp [hf] at h
      | some d =>
        simp only [hf, Option.map_some, Option.some.injEq] at h
        exact (args_safe he h.1).bind fun vs hvs => hX.call n vs v d hf h.2 hvs hv
  | .array el len, ha, h, v, hv => by
    have hel : leafOk F sch X.oc Γ el = true := by
      simp only [leafOk, Bool.and_eq_true] at h; exact h.1
    have hael : alignedTy sch el = true := by
      simp only [alignedTy, Bool.and_eq_true] at ha; exact ha.1
    have ih := encLeaf_safe hX he el hael hel
    simp only [LTy.rust] at hv
    cases len with
    | term e =>
      simp only [leafOk, Bool.and_eq_true, decide_eq_true_eq] at h
      simp only [encLeaf]
      refine (eTy_sound he e _ h.2).bind fun t ht => ?_
      have hl : Sane (fun _ => True) (rtLen v) := by cases hv; trivial
      refine hl.bind fun n _ => (encN_safe ih hv n 0).bind fun bs _ => ?_
      exact (encPrimArray_safe (p := .scalar ⟨.u8, .big⟩) (by intro h; cases h) ht none).bind fun _ _ => trivial
    | fixed e =>
      simp only [leafOk, Bool.and_eq_true] at h
      simp only [alignedTy, Bool.and_eq_true] at ha
      simp only [encLeaf]
      refine number_bind he h.2.1 fun s n => ?_
      cases hr : el.resolved with
      | prim p =>
        have := alignedElem_prim ha.2 hr
        subst this
        exact encPrimArray_safe (Dec.notBool_prim h.2.2 hr) hv _
      | repr t => exact encReprArray_safe ha.2 hr hv _
      | other => exact encN_safe ih hv _ _
    | unbounded =>
      simp only [leafOk, Bool.and_eq_true] at h
      simp only [alignedTy, Bool.and_eq_true] at ha
      simp only [encLeaf]
      cases hr : el.resolved with
      | prim p =>
        have := alignedElem_prim ha.2 hr
        subst this
        exact encPrimArray_safe (Dec.notBool_prim h.2 hr) hv _
      | repr t => exact encReprArray_safe ha.2 hr hv _
      | other =>
        have hl : Sane (fun _ => True) (rtLen v) := by cases hv; trivial
        exact hl.bind fun n _ => encN_safe ih hv n 0

theorem encXforms_safe {α} {P : α → Prop} (hX : ExtSafe F sch X) (he : EnvTyped F sch Γ X env)
    {k : Res (α × Bytes)} (hk : Sane (fun y => P y.1) k) :
    ∀ (xs : List XformUse), xs.all (xformOk F sch X.oc Γ) = true →
      Sane (fun y => P y.1) (encXforms X env xs k)
  | [], _ => by simp only [encXforms]; exact hk
  | x :: xs, h => by
    simp only [List.all_cons, Bool.and_eq_true, xformOk, argsOk, decide_eq_true_eq] at h
    have ih := encXforms_safe hX he hk xs h.2
    have one : Sane (fun y => P y.1) (do
        let vs ← x.args.mapM (ev X env)
        let (a, bs) ← encXforms X env xs k
        let out ← X.xform x.name vs bs
        (.ok (a, out) : Res (α × Bytes))) :=
      (args_safe he h.1.2).bind fun vs hvs => ih.bind fun y hy => (hX.xform x.name vs y.2 hvs).bind fun _ _ => hy
    simp only [encXforms]
    cases hc : x.cond with
    | none => exact one
    | some e =>
      rw [hc] at h
      refine cond_bind he h.1.1 fun b => ?_
      cases b
      · exact ih
      · exact one

theorem nullCheck_safe {t : RTy} {v : Val} (h : Belongs F sch false (.opt t) v) (msg : String) :
    Sane (Belongs F sch false t) (nullCheck msg v) := by
  cases h with
  | none => exact fun h => by cases h
  | some h => exact h

theorem encField_safe (hX : ExtSafe F sch X) (he : EnvTyped F sch Γ X env) {a : FAttr} {ty : LTy} {t : RTy}
    (h : encFieldOk F sch X.oc Γ a ty t = true) {v : Val} (hv : Belongs F sch false t v) :
    Sane (fun _ => True) (encField X env a ty v) := by
  simp only [encFieldOk, Bool.and_eq_true, decide_eq_true_eq] at h
  obtain ⟨⟨⟨⟨h1, h2⟩, h3⟩, h4⟩, h5⟩ := h
  subst h5
  have hbody : Sane (fun _ => True) (do
      let (_, bs) ← encXforms X env a.xfs (do
        let w ← if a.cond.isSome && a.auto.isNone then nullCheck missingMsg v else .ok v
        let bs ← encLeaf X env ty w
        .ok ((), bs))
      (.ok bs : Res Bytes)) := by
    refine Sane.bind (P := fun _ => True) ?_ fun _ _ => trivial
    refine encXforms_safe (P := fun _ => True) hX he ?_ a.xfs h2
    have hk : ∀ w, Belongs F sch false (ty.rust F) w → Sane (fun _ => True) (do
        let bs ← encLeaf X env ty w
        (.ok ((), bs) : Res (Unit × Bytes))) := fun w hw =>
      (encLeaf_safe hX he ty h3 h4 w hw).bind fun _ _ => trivial
    cases hc : (a.cond.isSome && a.auto.isNone) with
    | true =>
      rw [hc] at hv
      exact (nullCheck_safe (by simpa [RTy.optional] using hv) _).bind fun w hw => hk w hw
    | false =>
      rw [hc] at hv
      exact hk v (by simpa [RTy.optional] using hv)
  unfold encField
  cases hc : a.cond with
  | none =>
    rw [hc] at hbody
    exact hbody
  | some e =>
    rw [hc] at hbody h1
    refine cond_bind he h1 fun b => ?_
    cases b
    · trivial
    · exact hbody

theorem overlay_typed {env lens : Env} {Λ : Tys} (he : EnvTyped F sch Γ X env) (hl : LensTyped F sch Λ lens) :
    ∀ (fs : List String), EnvTyped F sch ⟨overlay Γ.field (fs.map fun f => (blenName f, Λ f)), Γ.input⟩ X
      (overlay env (fs.map fun f => (blenName f, lens f)))
  | [] => he
  | f :: fs => by
    refine ⟨?_, he.2⟩
    have ih := overlay_typed he hl fs
    intro m t hm
    simp only [overlay, List.map_cons, List.foldr, upd] at hm ⊢
    split
    · rename_i h
      rw [if_pos h] at hm
      exact hl f t hm
    · rename_i h
      rw [if_neg h] at hm
      exact ih.1 m t hm

theorem evBlen_safe {lens : Env} {Λ : Tys} (he : EnvTyped F sch Γ X env) (hl : LensTyped F sch Λ lens)
    {a : FAttr} {t : RTy} (h : blenTy sch X.oc Γ Λ a = some t) :
    Sane (Belongs F sch false t) (evBlen X env lens a) := by
  unfold blenTy at h
  unfold evBlen
  cases ha : a.auto with
  | none => simp [ha] at h
  | some e =>
    simp only [ha] at h
    exact eTy_sound (overlay_typed he hl e.blens) e.unblen t h

/-- What is known of waiting fields without their bytes. -/
def shape (ds : List Def) : List (FAttr × LTy) := ds.map fun d => (d.attr, d.ty)

theorem shape_put : ∀ (ds : List Def) (bs : Bytes), shape (put ds bs).1 = shape ds
  | [], _ => rfl
  | [d], _ => rfl
  | d :: d' :: ds, bs => by
    have := shape_put (d' :: ds) bs
    simp only [put, shape, List.map_cons] at this ⊢
    rw [this]

theorem encFlush_safe (hX : ExtSafe F sch X) {p : Plan} {lens : Env} {Λ : Tys} (hl : LensTyped F sch Λ lens) :
    ∀ (ds : List Def) {Γ : TCtx} {env : Env} {Γ' : TCtx} {ds' : List (FAttr × LTy)}, EnvTyped F sch Γ X env →
      encFlushOk F sch X.oc p Λ (shape ds) Γ = some (Γ', ds') →
      Sane (fun r => EnvTyped F sch Γ' X r.1 ∧ shape r.2.1 = ds') (encFlush X p lens ds env)
  | [], Γ, env, Γ', ds', he, h => by
    cases h
    exact ⟨he, rfl⟩
  | d :: ds, Γ, env, Γ', ds', he, h => by
    simp only [shape, List.map_cons, encFlushOk] at h
    obtain ⟨⟨Γ1, rest1⟩, h1, h⟩ := obind_some h
    simp only at h
    simp only [encFlush]
    refine (encFlush_safe hX hl ds he h1).bind fun ⟨env1, rest, out⟩ ⟨he1, hs1⟩ => ?_
    simp only at he1 hs1 ⊢
    split at h
    · rename_i hk
      rw [if_pos hk]
      obtain ⟨t, ht, h⟩ := obind_some h
      split at h
      · rename_i hf
        cases h
        refine (evBlen_safe he1 hl ht).bind fun v hv => ?_
        have he2 := he1.set (n := d.attr.name) hv
        refine (encField_safe hX he2 hf hv).bind fun b _ => ?_
        cases rest with
        | nil => exact ⟨he2, hs1⟩
        | cons d' r => exact ⟨he2, by simpa [shape] using hs1⟩
      · cases h
    · rename_i hk
      rw [if_neg hk]
      cases h
      exact ⟨he1, by simp [shape, ← hs1]⟩

theorem encNulls_safe : ∀ (ns : List String) {Γ : TCtx} {env : Env} {Γ' : TCtx}, EnvTyped F sch Γ X env →
    encNullsOk ns Γ = some Γ' → Sane (EnvTyped F sch Γ' X) (encNulls ns env)
  | [], _, _, _, he, h => by cases h; exact he
  | n :: ns, Γ, env, Γ', he, h => by
    simp only [encNullsOk] at h
    split at h
    · rename_i t ht
      obtain ⟨v, hv, hb⟩ := he.1 n _ ht
      simp only at hv
      simp only [encNulls, hv, optRes]
      exact (nullCheck_safe hb _).bind fun w hw => encNulls_safe ns (he.set hw) h
    · cases h

theorem enter_safe {cond : Bool} {items : Fields} {Γ' : TCtx} (he : EnvTyped F sch Γ X env)
    (h : enterOk cond items Γ = some Γ') : Sane (EnvTyped F sch Γ' X) (enter cond items env) := by
  unfold enterOk at h
  unfold enter
  cases cond
  · cases h; exact he
  · exact encNulls_safe _ he h

theorem withBlen_safe {lens : Env} {Λ : Tys} {a : FAttr} {Γ' : TCtx} (he : EnvTyped F sch Γ X env)
    (hl : LensTyped F sch Λ lens) (h : withBlenOk sch X.oc Γ Λ a = some Γ') :
    Sane (EnvTyped F sch Γ' X) (withBlen X env lens a) := by
  unfold withBlenOk at h
  unfold withBlen
  split
  · rename_i hb
    rw [if_pos hb] at h
    cases h; exact he
  · rename_i hb
    rw [if_neg hb] at h
    cases ht : blenTy sch X.oc Γ Λ a with
    | none => simp [ht] at h
    | some t =>
      simp only [ht, Option.map_some, Option.some.injEq] at h
      subst h
      exact (evBlen_safe he hl ht).bind fun v hv => he.set hv

theorem capacity_safe {name : String} {len : Option Expr} {p : Plan} (he : EnvTyped F sch Γ X env)
    (h : capacityOk sch X.oc Γ name len p = true) : Sane (fun _ => True) (checkCapacity X env name len p) := by
  unfold capacityOk at h
  unfold checkCapacity
  cases len with
  | none => trivial
  | some e =>
    simp only [Bool.or_eq_true, decide_eq_true_eq] at h
    simp only
    split
    · trivial
    · rename_i hn
      refine number_bind he (h.resolve_left hn) fun s n => ?_
      show Sane _ (if _ then _ else _)
      split
      · exact fun h => by cases h
      · trivial

theorem erase_typed {m : Tys} {lens : Env} (h : LensTyped F sch m lens) (ns : List String) :
    LensTyped F sch (eraseT ns m) (erase ns lens) := by
  intro n t hn
  simp only [eraseT] at hn
  simp only [erase]
  split
  · rename_i hm
    rw [if_pos hm] at hn
    cases hn
  · rename_i hm
    rw [if_neg hm] at hn
    exact h n t hn

theorem LensTyped.set {Λ : Tys} {lens : Env} (h : LensTyped F sch Λ lens) (n : String) (k : Nat) :
    LensTyped F sch (upd Λ n (some (.int .u64))) (upd lens n (some (.int ⟨.u64, k⟩))) := by
  intro m t hm
  simp only [upd] at hm ⊢
  split
  · rename_i hc
    rw [if_pos hc] at hm
    cases hm
    exact ⟨_, rfl, ht_int⟩
  · rename_i hc
    rw [if_neg hc] at hm
    exact h m t hm

theorem encItems_safe (hX : ExtSafe F sch X) : ∀ (fs : Fields) (cond : Bool) (p : Plan) (Γ : TCtx) (Λ : Tys)
    (env lens : Env) (ds : List Def) (Γ' : TCtx) (Λ' : Tys), EnvTyped F sch Γ X env → LensTyped F sch Λ lens →
    encItemsOk F sch X.oc cond fs p Γ Λ (shape ds) = some (Γ', Λ') →
    Sane (fun r => EnvTyped F sch Γ' X r.1.1 ∧ LensTyped F sch Λ' r.1.2) (encItems X cond fs p env lens ds)
  | .nil, cond, p, Γ, Λ, env, lens, ds, Γ', Λ', he, hl, h => by
    cases h
    exact ⟨he, hl⟩
  | .pad _ e rest, cond, p, Γ, Λ, env, lens, ds, Γ', Λ', he, hl, h => by
    simp only [encItemsOk] at h
    split at h
    · rename_i hn
      obtain ⟨⟨Γ2, ds2⟩, h1, h2⟩ := obind_some h
      simp only at h2
      simp only [encItems]
      refine number_bind he hn fun s n => ?_
      refine Sane.bind (P := fun _ => True) ?_ fun bs _ => ?_
      · show Sane _ (if _ then _ else _)
        split
        · exact fun h => by cases h
        · trivial
      · rw [← shape_put ds bs] at h1
        refine (encFlush_safe hX hl _ he h1).bind fun ⟨env2, ds2', b2⟩ ⟨he2, hs⟩ => ?_
        simp only at he2 hs ⊢
        subst hs
        exact (encItems_safe hX rest cond p _ _ _ _ _ _ _ he2 hl h2).bind fun _ hy => hy
    · cases h
  | .leaf a ty rest, cond, p, Γ, Λ, env, lens, ds, Γ', Λ', he, hl, h => by
    simp only [encItemsOk] at h
    simp only [encItems]
    split at h
    · rename_i hk
      rw [if_pos hk]
      obtain ⟨Γ1, h1, h⟩ := obind_some h
      obtain ⟨t, ht, h⟩ := obind_some h
      split at h
      · rename_i hf
        obtain ⟨⟨Γ2, ds2⟩, h2, h3⟩ := obind_some h
        simp only at h3
        refine (withBlen_safe he hl h1).bind fun env1 he1 => ?_
        obtain ⟨v, hv, hb⟩ := he1.1 a.name t ht
        simp only at hv
        simp only [hv, optRes]
        refine (encField_safe hX he1 hf hb).bind fun bs _ => ?_
        rw [← shape_put ds bs] at h2
        refine (encFlush_safe hX hl _ he1 h2).bind fun ⟨env2, ds2', b2⟩ ⟨he2, hs⟩ => ?_
        simp only at he2 hs ⊢
        subst hs
        exact (encItems_safe hX rest cond p _ _ _ _ _ _ _ he2 hl h3).bind fun _ hy => hy
      · cases h
    · rename_i hk
      rw [if_neg hk]
      refine encItems_safe hX rest cond _ _ _ _ _ _ _ _ he hl ?_
      simpa [shape] using h
  | .cont a len items rest, cond, p, Γ, Λ, env, lens, ds, Γ', Λ', he, hl, h => by
    simp only [encItemsOk] at h
    split at h
    · rename_i hk
      simp only [Bool.and_eq_true] at hk
      obtain ⟨⟨hc, hx⟩, hcap⟩ := hk
      obtain ⟨Γ1, h1, h⟩ := obind_some h
      obtain ⟨⟨Γ2, Λ2⟩, h2, h⟩ := obind_some h
      obtain ⟨⟨Γ3, ds3⟩, h3, h4⟩ := obind_some h
      simp only at h3 h4
      clear h
      simp only [encItems]
      have hbody : Sane (fun y : (Env × Env) × Bytes => EnvTyped F sch Γ2 X y.1.1 ∧ LensTyped F sch
          (if len.isSome && decide (a.name ∈ (planItems items p).pending) then upd Λ2 a.name (some (.int .u64)) else Λ2)
          y.1.2) (encXforms X env a.xfs do
            checkCapacity X env a.name len p
            let env1 ← enter (a.cond.isSome || cond) items env
            let ((env2, lens2), bs) ← encItems X (a.cond.isSome || cond) items p env1 lens []
            let lens3 := if len.isSome && decide (a.name ∈ (planItems items p).pending)
              then upd lens2 a.name (some (.int ⟨.u64, bs.length⟩)) else lens2
            .ok ((env2, lens3), bs)) := by
        refine encXforms_safe (P := fun y : Env × Env => EnvTyped F sch Γ2 X y.1 ∧ LensTyped F sch
          (if len.isSome && decide (a.name ∈ (planItems items p).pending) then upd Λ2 a.name (some (.int .u64)) else Λ2)
          y.2) hX he ?_ a.xfs hx
        refine (capacity_safe he hcap).bind fun _ _ => (enter_safe he h1).bind fun env1 he1 => ?_
        refine (encItems_safe hX items _ p Γ1 Λ env1 lens [] Γ2 Λ2 he1 hl h2).bind fun y hy => ?_
        obtain ⟨⟨env2, lens2⟩, bs⟩ := y
        refine ⟨hy.1, ?_⟩
        simp only at hy ⊢
        split
        · exact hy.2.set _ _
        · exact hy.2
      refine Sane.bind (P := fun y : (Env × Env) × Bytes =>
        EnvTyped F sch (if a.cond.isSome then
          ((⟨eraseT (nullNames items ++ setNames true items) Γ.field, Γ.input⟩,
            eraseT (((planItems items p).close a.name len).log.drop p.log.length) Λ) : TCtx × Tys)
        else (Γ2, if len.isSome && decide (a.name ∈ (planItems items p).pending) then upd Λ2 a.name (some (.int .u64)) else Λ2)).1
          X y.1.1 ∧ LensTyped F sch (if a.cond.isSome then
          ((⟨eraseT (nullNames items ++ setNames true items) Γ.field, Γ.input⟩,
            eraseT (((planItems items p).close a.name len).log.drop p.log.length) Λ) : TCtx × Tys)
        else (Γ2, if len.isSome && decide (a.name ∈ (planItems items p).pending) then upd Λ2 a.name (some (.int .u64)) else Λ2)).2
          y.1.2) ?_ fun y hy => ?_
      · unfold guarded
        cases hcc : a.cond with
        | none =>
          rw [hcc] at hbody
          exact hbody
        | some e =>
          rw [hcc] at hbody hc
          have hafter : EnvTyped F sch ⟨eraseT (nullNames items ++ setNames true items) Γ.field, Γ.input⟩ X
              (erase (nullNames items ++ setNames true items) env) :=
            ⟨erase_typed (m := Γ.field) (lens := env) he.1 _, he.2⟩
          refine cond_bind he hc fun b => ?_
          cases b
          · exact ⟨hafter, erase_typed hl _⟩
          · exact hbody.bind fun _ _ => ⟨hafter, erase_typed hl _⟩
      · obtain ⟨⟨env2, lens2⟩, bs⟩ := y
        simp only at hy ⊢
        rw [← shape_put ds bs] at h3
        refine (encFlush_safe hX hy.2 _ hy.1 h3).bind fun ⟨env3, ds3', b3⟩ ⟨he3, hs⟩ => ?_
        simp only at he3 hs ⊢
        subst hs
        exact (encItems_safe hX rest cond _ _ _ _ _ _ _ _ he3 hy.2 h4).bind fun _ hz => hz
    · cases h

theorem encCalculated_safe : ∀ (as : List FAttr) {Γ : TCtx} {env : Env} {Γ' : TCtx}, EnvTyped F sch Γ X env →
    encCalculatedOk sch X.oc as Γ = some Γ' → Sane (EnvTyped F sch Γ' X) (encCalculated X as env)
  | [], _, _, _, he, h => by cases h; exact he
  | a :: as, Γ, env, Γ', he, h => by
    simp only [encCalculatedOk] at h
    simp only [encCalculated]
    cases ha : a.auto with
    | none => simp only [ha] at h; exact encCalculated_safe as he h
    | some e =>
      simp only [ha] at h ⊢
      split at h
      · rename_i hb
        rw [if_pos hb]
        split at h
        · rename_i t ht
          exact (eTy_sound he e t ht).bind fun v hv => encCalculated_safe as (he.set hv) h
        · cases h
      · rename_i hb
        rw [if_neg hb]
        exact encCalculated_safe as he h

theorem lookup_typed : ∀ {ts : List (String × RTy)} {vs : List (String × Val)}, HasFields F sch false ts vs →
    ∀ {n t}, ts.lookup n = some t → ∃ v, vs.lookup n = some v ∧ Belongs F sch false t v
  | [], _, _, n, t, hn => by cases hn
  | p :: ts, vs, h, n, t, hn => by
    cases h with
    | cons hv ht =>
      rename_i m u v vs
      simp only [List.lookup] at hn ⊢
      split at hn
      · cases hn; exact ⟨v, rfl, hv⟩
      · exact lookup_typed ht hn

theorem encStored_safe {ts : List (String × RTy)} {vs : List (String × Val)} {s : String}
    (hts : HasFields F sch false ts vs) : ∀ (as : List FAttr) {Γ : TCtx} {env : Env} {Γ' : TCtx},
    EnvTyped F sch Γ X env → encStoredOk ts as Γ = some Γ' →
    Sane (EnvTyped F sch Γ' X) (encStored (.struct s vs) as env)
  | [], _, _, _, he, h => by cases h; exact he
  | a :: as, Γ, env, Γ', he, h => by
    simp only [encStoredOk] at h
    simp only [encStored]
    split
    · rename_i ha
      rw [if_pos ha] at h
      exact encStored_safe hts as he h
    · rename_i ha
      rw [if_neg ha] at h
      split at h
      · rename_i t ht
        obtain ⟨v, hv, hb⟩ := lookup_typed hts ht
        simp only [fieldOf, hv, optRes]
        exact encStored_safe hts as (he.set hb) h
      · cases h

theorem bindNames_safe {ts : List (String × RTy)} {vs : List (String × Val)}
    (hts : HasFields F sch false ts vs) : ∀ (ns : List String) {Γ : TCtx} {env : Env} {Γ' : TCtx},
    EnvTyped F sch Γ X env → bindNamesOk ts ns Γ = some Γ' →
    ∃ ws, ns.mapM (fun f => optRes (vs.lookup f)) = .ok ws ∧ EnvTyped F sch Γ' X (bindNames ns ws env)
  | [], _, _, _, he, h => by cases h; exact ⟨[], rfl, he⟩
  | n :: ns, Γ, env, Γ', he, h => by
    simp only [bindNamesOk] at h
    split at h
    · rename_i t ht
      obtain ⟨v, hv, hb⟩ := lookup_typed hts ht
      obtain ⟨ws, hws, hw⟩ := bindNames_safe hts ns (he.set (n := n) hb) h
      refine ⟨v :: ws, ?_, hw⟩
      rw [List.mapM_cons, hws, hv]
      rfl
    · cases h

theorem noLens : LensTyped F sch (fun _ => none) Env.empty := fun _ _ h => by cases h

theorem encArm_safe (hX : ExtSafe F sch X) (he : EnvTyped F sch Γ X Env.empty) {n : String} {d : Decl}
    {len : Option Expr} {arms : List Arm} (hf : sch.find n = some d) (hb : d.body = .tagged len arms)
    (hnd : (arms.map (·.attr.name)).Nodup) {arm : Arm} (hm : arm ∈ arms) {p : Plan}
    (h : encArmOk F sch X.oc Γ arm p = true) {v : Val} (hv : Belongs F sch false (.named n) v) :
    Sane (fun _ => True) (encArm X n arm p v) := by
  have same : ∀ arm' ∈ arms, arm'.attr.name = arm.attr.name → arm' = arm := by
    intro arm' hm' hn
    clear hb
    induction arms with
    | nil => cases hm
    | cons x xs ih =>
      simp only [List.map_cons, List.nodup_cons, List.mem_map, not_exists, not_and] at hnd
      rcases List.mem_cons.1 hm with rfl | hm1
      · rcases List.mem_cons.1 hm' with rfl | hm2
        · rfl
        · exact absurd hn (hnd.1 _ hm2)
      · rcases List.mem_cons.1 hm' with rfl | hm2
        · exact absurd hn.symm (hnd.1 _ hm1)
        · exact ih hnd.2 hm1 hm2
  unfold encArmOk at h
  unfold encArm
  cases hv with
  | newtype g1 g2 _ => rw [hf] at g1; cases g1; rw [hb] at g2; cases g2
  | struct g1 g2 _ => rw [hf] at g1; cases g1; rw [hb] at g2; cases g2
  | enm g1 g2 _ _ => rw [hf] at g1; cases g1; rw [hb] at g2; cases g2
  | bits g1 g2 _ => rw [hf] at g1; cases g1; rw [hb] at g2; cases g2
  | variant g1 g2 g3 g4 g5 =>
    rename_i arm' ty' v'
    rw [hf] at g1; cases g1
    rw [hb] at g2; cases g2
    cases hbd : arm.body with
    | leaf ty =>
      simp only [hbd, Bool.and_eq_true] at h
      simp only [unwrapEnum, ne_eq, not_true_eq_false, if_false]
      split
      · rename_i hn
        have := same arm' g3 hn
        subst this
        rw [hbd] at g4
        injection g4 with g4
        subst g4
        have hk : Sane (fun y : Unit × Bytes => True) (do
            let bs ← encLeaf X .empty ty v'
            .ok ((), bs)) := (encLeaf_safe hX he ty h.1.2 h.2 _ g5).bind fun _ _ => trivial
        exact (encXforms_safe (P := fun _ => True) hX he hk _ h.1.1).bind fun _ _ => trivial
      · exact fun h => by cases h
    | cont alen items =>
      simp only [unwrapStruct, ne_eq, not_true_eq_false, if_false]
      split
      · rename_i hn
        have := same arm' g3 hn
        subst this
        rw [hbd] at g4; cases g4
      · exact fun h => by cases h
  | variantS g1 g2 g3 g4 g5 =>
    rename_i arm' alen' items' fs'
    rw [hf] at g1; cases g1
    rw [hb] at g2; cases g2
    cases hbd : arm.body with
    | leaf ty =>
      simp only [unwrapEnum, ne_eq, not_true_eq_false, if_false]
      split
      · rename_i hn
        have := same arm' g3 hn
        subst this
        rw [hbd] at g4; cases g4
      · exact fun h => by cases h
    | cont alen items =>
      simp only [hbd] at h
      simp only [unwrapStruct, ne_eq, not_true_eq_false, if_false]
      split
      · rename_i hn
        have := same arm' g3 hn
        subst this
        rw [hbd] at g4
        injection g4 with g4 g6
        subst g6
        obtain ⟨⟨Γ3, Λ3⟩, h⟩ := Option.isSome_iff_exists.1 h
        obtain ⟨Γ1, h1, h⟩ := obind_some h
        obtain ⟨Γ2, h2, h3⟩ := obind_some h
        obtain ⟨ws, hws, hw⟩ := bindNames_safe g5 items.names he h1
        rw [hws]
        refine (encCalculated_safe items.leaves hw h2).bind fun env1 he1 => ?_
        exact (encItems_safe hX items false p Γ2 _ env1 _ [] Γ3 Λ3 he1 noLens h3).bind fun _ _ => trivial
      · exact fun h => by cases h

theorem encArms_safe (hX : ExtSafe F sch X) (he : EnvTyped F sch Γ X Env.empty) {n : String} {d : Decl}
    {len : Option Expr} {all : List Arm} (hf : sch.find n = some d) (hb : d.body = .tagged len all)
    (hnd : (all.map (·.attr.name)).Nodup) {v : Val} (hv : Belongs F sch false (.named n) v) :
    ∀ (arms : List Arm) (p : Plan), (∀ a ∈ arms, a ∈ all) → encArmsOk F sch X.oc Γ arms p = true →
      Sane (fun _ => True) (encArms X n arms p v)
  | [], _, _, _ => trivial
  | arm :: arms, p, hm, h => by
    simp only [encArmsOk, Bool.and_eq_true] at h
    have one := encArm_safe hX he hf hb hnd (hm arm (by simp)) h.1.2 hv
    have ih := encArms_safe hX he hf hb hnd hv arms (planArm arm p) (fun a ha => hm a (by simp [ha])) h.2
    simp only [encArms]
    cases hc : arm.attr.cond with
    | none => exact one
    | some e =>
      have hcc := h.1.1
      rw [hc] at hcc
      refine cond_bind he hcc fun b => ?_
      cases b
      · exact ih
      · exact one

theorem encDecl_safe (hX : ExtSafe F sch X) {n : String} {d : Decl} (hf : sch.find n = some d) (hn : d.name = n)
    (he : EnvTyped F sch (d.ctx F) X Env.empty) (h : encDeclOk F sch X.oc d = true) {v : Val}
    (hv : Belongs F sch false (.named n) v) : Sane (fun _ => True) (encDecl X d v) := by
  simp only [encDeclOk, Bool.and_eq_true] at h
  obtain ⟨_, h⟩ := h
  unfold encDecl
  cases hb : d.body with
  | leaf cond ty =>
    simp only [hb] at h
    cases hv with
    | newtype g1 g2 g3 =>
      rw [hf] at g1; cases g1
      rw [hb] at g2; cases g2
      exact encField_safe hX he h g3
    | enm g1 g2 _ _ => rw [hf] at g1; cases g1; rw [hb] at g2; cases g2
    | bits g1 g2 _ => rw [hf] at g1; cases g1; rw [hb] at g2; cases g2
    | struct g1 g2 _ => rw [hf] at g1; cases g1; rw [hb] at g2; cases g2
    | variant g1 g2 _ _ _ => rw [hf] at g1; cases g1; rw [hb] at g2; cases g2
    | variantS g1 g2 _ _ _ => rw [hf] at g1; cases g1; rw [hb] at g2; cases g2
  | repr t =>
    simp only [hb] at h
    have hk : Sane (fun y : Unit × Bytes => True) (do
        let bs ← encRepr t v
        .ok ((), bs)) := (encRepr_safe hf hb hv).bind fun _ _ => trivial
    exact (encXforms_safe (P := fun _ => True) hX he hk _ h).bind fun _ _ => trivial
  | struct len items =>
    simp only [hb, Bool.and_eq_true] at h
    obtain ⟨⟨hx, hcap⟩, h⟩ := h
    obtain ⟨⟨Γ3, Λ3⟩, h⟩ := Option.isSome_iff_exists.1 h
    obtain ⟨Γ1, h1, h⟩ := obind_some h
    obtain ⟨Γ2, h2, h3⟩ := obind_some h
    refine Sane.bind (P := fun _ => True) ?_ fun _ _ => trivial
    refine encXforms_safe (P := fun _ => True) hX he ?_ _ hx
    refine (capacity_safe he hcap).bind fun _ _ => ?_
    cases hv with
    | newtype g1 g2 g3 => rw [hf] at g1; cases g1; rw [hb] at g2; cases g2
    | enm g1 g2 _ _ => rw [hf] at g1; cases g1; rw [hb] at g2; cases g2
    | bits g1 g2 _ => rw [hf] at g1; cases g1; rw [hb] at g2; cases g2
    | variant g1 g2 _ _ _ => rw [hf] at g1; cases g1; rw [hb] at g2; cases g2
    | variantS g1 g2 _ _ _ => rw [hf] at g1; cases g1; rw [hb] at g2; cases g2
    | struct g1 g2 g3 =>
      rw [hf] at g1; cases g1
      rw [hb] at g2; cases g2
      refine (encStored_safe g3 items.leaves he h1).bind fun env he1 => ?_
      refine (encCalculated_safe items.leaves he1 h2).bind fun env2 he2 => ?_
      exact (encItems_safe hX items false .init Γ2 _ env2 _ [] Γ3 Λ3 he2 noLens h3).bind fun _ _ => trivial
  | tagged len arms =>
    simp only [hb, Bool.and_eq_true, decide_eq_true_eq] at h
    obtain ⟨⟨⟨hx, hcap⟩, hnd⟩, h⟩ := h
    refine Sane.bind (P := fun _ => True) ?_ fun _ _ => trivial
    refine encXforms_safe (P := fun _ => True) hX he ?_ _ hx
    refine (capacity_safe he hcap).bind fun _ _ => ?_
    rw [hn]
    exact (encArms_safe hX he hf hb hnd hv arms .init (fun a h => h) h).bind fun _ _ => trivial

theorem Belongs_typeName {n : String} {v : Val} (h : Belongs F sch false (.named n) v) : typeName v = some n := by
  cases h <;> rfl

/-- Foreign types and transforms accept arguments and values of the declared types. -/
structure LibSafe (F : Sig) (sch : Schema) (L : Lib) : Prop where
  foreign : ∀ n vs v, ArgsTyped F sch (F.foreignArgs n) vs → Belongs F sch false (F.foreignTy n) v →
    Sane (fun _ => True) (L.foreign n vs v)
  xform : ∀ n vs bs, ArgsTyped F sch (F.xformArgs n) vs → Sane (fun _ => True) (L.xform n vs bs)

theorem specEncode_safe {L : Lib} (h : encChecks F sch L.oc = true) (hL : LibSafe F sch L) :
    ∀ (fuel : Nat) (n : String) (d : Decl) (vs : List Val) (v : Val), sch.find n = some d →
      d.params.length = (F.params n).length → ArgsTyped F sch (F.params n) vs →
      Belongs F sch false (.named n) v → Sane (fun _ => True) (specEncode sch L fuel n vs v)
  | 0, _, _, _, _, _, _, _, _ => fun h => by cases h
  | fuel + 1, n, d, vs, v, hf, hp, hv, hb => by
    have hname : d.name = n := by simpa using List.find?_some hf
    have hmem : d ∈ sch := by exact List.mem_of_find?_eq_some hf
    have hlen : d.params.length = vs.length := by rw [hp]; exact hv.length_eq
    have hd := List.all_eq_true.1 h d hmem
    unfold specEncode callDecl
    simp only [hf]
    rw [if_neg (by simpa using hlen)]
    have hacc : Accepts d v := by
      refine ⟨?_, by rw [hname]; exact Belongs_typeName hb⟩
      simp only [encDeclOk, Bool.and_eq_true] at hd
      exact hd.1
    rw [if_pos hacc]
    refine encDecl_safe ⟨fun n vs v d hf hp hv hb => specEncode_safe h hL fuel n d vs v hf hp hv hb,
      hL.foreign, hL.xform⟩ hf hname ⟨?_, ?_⟩ hd hb
    · intro m t hm; cases hm
    · intro m t hm
      simp only [Decl.ctx] at hm
      rw [hname] at hm
      exact Dec.bindArgs_typed hv hm

end Enc

end Verif
