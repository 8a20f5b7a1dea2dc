import Verif.EncodeSafe
import Verif.Survive
/-!
# Encoders that survive any value

`encSurvives` is a check of a schema. `specEncode_survives`: an encoder of a schema that passes it ends on every
value of the declared type, in bytes or in an `Err` it returns: no panic, no endless recursion. Calls nest as deep
as declared types nest in the value (`Val.depth`). With `m` true the encoder may also panic because an array has
another number of elements than its declared count (`Fault.miscount`); with `m` false counted arrays are not allowed.

This is an analysis of schemas that the theorems of `Props/EncodeSurvive` use as a hypothesis, not code of `/repo`.
-/
namespace Verif

mutual
/-- How many values of declared types are nested in a value. -/
def Val.depth : Val → Nat
  | .int _ | .bool _ | .flt _ _ | .str _ => 0
  | .arr vs => depthL vs
  | .opt v => depthO v
  | .enm _ _ _ | .bits _ _ => 1
  | .struct _ fs => depthF fs + 1
  | .newtype _ v => v.depth + 1
  | .variant _ _ v => v.depth + 1
  | .variantS _ _ fs => depthF fs + 1
def depthL : List Val → Nat
  | [] => 0
  | v :: vs => max v.depth (depthL vs)
def depthO : Option Val → Nat
  | none => 0
  | some v => v.depth
def depthF : List (String × Val) → Nat
  | [] => 0
  | p :: ps => max (depthP p) (depthF ps)
def depthP : String × Val → Nat
  | (_, v) => v.depth
end

theorem depth_elem : ∀ {vs : List Val} {v : Val}, v ∈ vs → v.depth ≤ depthL vs
  | w :: ws, v, h => by
    simp only [depthL]
    rcases List.mem_cons.1 h with rfl | h
    · exact Nat.le_max_left _ _
    · exact Nat.le_trans (depth_elem h) (Nat.le_max_right _ _)

theorem depth_lookup : ∀ {fs : List (String × Val)} {n : String} {v : Val}, fs.lookup n = some v → v.depth ≤ depthF fs
  | (k, w) :: ws, n, v, h => by
    simp only [depthF, depthP]
    simp only [List.lookup] at h
    split at h
    · cases h; exact Nat.le_max_left _ _
    · exact Nat.le_trans (depth_lookup h) (Nat.le_max_right _ _)

namespace Enc
open Dec (exprFine argFine argsFine condFine xformFine ArgsRanged)

/-! ## The check -/

def leafFit (m : Bool) (F : Sig) (sch : Schema) (oc : Bool) (Γ : TCtx) : LTy → Bool
  | .prim _ => true
  | .ref n foreign _ args =>
    if foreign then argsFine sch oc Γ args (F.foreignArgs n)
    else argsFine sch oc Γ args (F.params n) && decide (((sch.find n).map (·.params.length)) = some (F.params n).length)
  | .array el len =>
    leafFit m F sch oc Γ el &&
    match len with
    | .fixed e => m && (numberOk sch oc Γ e && exprFine sch oc Γ e && notBool el)
    | .unbounded => notBool el
    | .term e => decide (eTy sch oc Γ e = some (.vec (.int .u8))) && exprFine sch oc Γ e

def encFieldFit (m : Bool) (F : Sig) (sch : Schema) (oc : Bool) (Γ : TCtx) (a : FAttr) (ty : LTy) (t : RTy) : Bool :=
  condFine sch oc Γ a.cond && a.xfs.all (xformFine F sch oc Γ) && alignedTy sch ty && leafFit m F sch oc Γ ty &&
  decide (t = (ty.rust F).optional (a.cond.isSome && a.auto.isNone))

/-- `blen(f) :> k`: whatever the length is, the cast brings it into the range of `k`. -/
def castOfBlen : Expr → Option Scalar
  | .cast .plain (.fieldRef _) (.scalar k) => some k
  | _ => none

/-- The type of a calculated value that uses `blen`. -/
def blenFit (sch : Schema) (oc : Bool) (Γ : TCtx) (Λ : Tys) (a : FAttr) : Option RTy :=
  match a.auto with
  | some e => if (eTy sch oc (blenCtx Γ Λ e) e.unblen).isSome then (castOfBlen e.unblen).map .int else none
  | none => none

def encFlushFit (m : Bool) (F : Sig) (sch : Schema) (oc : Bool) (p : Plan) (Λ : Tys) :
    List (FAttr × LTy) → TCtx → Option (TCtx × List (FAttr × LTy))
  | [], Γ => some (Γ, [])
  | d :: ds, Γ => do
    let (Γ1, rest) ← encFlushFit m F sch oc p Λ ds Γ
    if p.known (FAttr.blens d.1) then do
      let t ← blenFit sch oc Γ1 Λ d.1
      if encFieldFit m F sch oc (Γ1.set d.1.name t) d.1 d.2 t then some (Γ1.set d.1.name t, rest) else none
    else some (Γ1, d :: rest)

def withBlenFit (sch : Schema) (oc : Bool) (Γ : TCtx) (Λ : Tys) (a : FAttr) : Option TCtx :=
  if (FAttr.blens a).isEmpty then some Γ else (blenFit sch oc Γ Λ a).map fun t => Γ.set a.name t

/-- Not negative and less than `2 ^ 63`. -/
def sizeFit (sch : Schema) (oc : Bool) (Γ : TCtx) (e : Expr) : Bool := Dec.countFine sch oc Γ 1 e

def capacityFit (sch : Schema) (oc : Bool) (Γ : TCtx) (name : String) (len : Option Expr) (p : Plan) : Bool :=
  match len with
  | some e => decide (name ∈ p.pending) || sizeFit sch oc Γ e
  | none => true

/-- The items of a container, as in `encItemsOk`. -/
def encItemsFit (m : Bool) (F : Sig) (sch : Schema) (oc : Bool) (cond : Bool) :
    Fields → Plan → TCtx → Tys → List (FAttr × LTy) → Option (TCtx × Tys)
  | .nil, _, Γ, Λ, _ => some (Γ, Λ)
  | .pad _ e rest, p, Γ, Λ, ds =>
    if sizeFit sch oc Γ e then do
      let (Γ2, ds2) ← encFlushFit m F sch oc p Λ ds Γ
      encItemsFit m F sch oc cond rest p Γ2 Λ ds2
    else none
  | .leaf a ty rest, p, Γ, Λ, ds =>
    if (FAttr.blens a).isEmpty || p.known (FAttr.blens a) then do
      let Γ1 ← withBlenFit sch oc Γ Λ a
      let t ← Γ1.field a.name
      if encFieldFit m F sch oc Γ1 a ty t then do
        let (Γ2, ds2) ← encFlushFit m F sch oc p Λ ds Γ1
        encItemsFit m F sch oc cond rest p Γ2 Λ ds2
      else none
    else encItemsFit m F sch oc cond rest (p.await a) Γ Λ (ds ++ [(a, ty)])
  | .cont a len items rest, p, Γ, Λ, ds =>
    if condFine sch oc Γ a.cond && a.xfs.all (xformFine F sch oc Γ) && capacityFit sch oc Γ a.name len p then do
      let Γ1 ← enterOk (a.cond.isSome || cond) items Γ
      let (Γ2, Λ2) ← encItemsFit m F sch oc (a.cond.isSome || cond) items p Γ1 Λ []
      let p2 := planItems items p
      let Λ3 := if len.isSome && decide (a.name ∈ p2.pending) then upd Λ2 a.name (some (.int .u64)) else Λ2
      let p' := (planItems items p).close a.name len
      let after : TCtx × Tys :=
        if a.cond.isSome then
          (⟨eraseT (nullNames items ++ setNames true items) Γ.field, Γ.input⟩,
            eraseT (p'.log.drop p.log.length) Λ)
        else (Γ2, Λ3)
      let (Γ3, ds3) ← encFlushFit m F sch oc p' after.2 ds after.1
      encItemsFit m F sch oc cond rest p' Γ3 after.2 ds3
    else none

/-- Types whose values hold no value of a declared type. -/
def simpleTy : RTy → Bool
  | .int _ | .bool | .flt _ | .str => true
  | _ => false

def encCalculatedFit (sch : Schema) (oc : Bool) : List FAttr → TCtx → Option TCtx
  | [], Γ => some Γ
  | a :: as, Γ =>
    match a.auto with
    | some e =>
      if e.blens.isEmpty then
        match eTy sch oc Γ e with
        | some t => if argFine sch oc Γ e && simpleTy t then encCalculatedFit sch oc as (Γ.set a.name t) else none
        | none => none
      else encCalculatedFit sch oc as Γ
    | none => encCalculatedFit sch oc as Γ

def encArmFit (m : Bool) (F : Sig) (sch : Schema) (oc : Bool) (Γ : TCtx) (arm : Arm) (p : Plan) : Bool :=
  match arm.body with
  | .leaf ty => arm.attr.xfs.all (xformFine F sch oc Γ) && alignedTy sch ty && leafFit m F sch oc Γ ty
  | .cont _ items =>
    (do let Γ1 ← bindNamesOk (rustFields F false items) items.names Γ
        let Γ2 ← encCalculatedFit sch oc items.leaves Γ1
        encItemsFit m F sch oc false items p Γ2 (fun _ => none) []).isSome

def encArmsFit (m : Bool) (F : Sig) (sch : Schema) (oc : Bool) (Γ : TCtx) : List Arm → Plan → Bool
  | [], _ => true
  | arm :: arms, p =>
    condFine sch oc Γ arm.attr.cond && encArmFit m F sch oc Γ arm p && encArmsFit m F sch oc Γ arms (planArm arm p)

/-- The encoder of a declared type; in a tagged enum, variants have different names. -/
def encDeclFit (m : Bool) (F : Sig) (sch : Schema) (oc : Bool) (d : Decl) : Bool :=
  (genDecl d).1.ok &&
  match d.body with
  | .leaf cond ty => encFieldFit m F sch oc (d.ctx F) ⟨d.name, cond, d.xfs, none⟩ ty ((ty.rust F).optional cond.isSome)
  | .repr _ => d.xfs.all (xformFine F sch oc (d.ctx F))
  | .struct len items =>
    d.xfs.all (xformFine F sch oc (d.ctx F)) && capacityFit sch oc (d.ctx F) d.name len .init &&
    (do let Γ1 ← encStoredOk (rustFields F false items) items.leaves (d.ctx F)
        let Γ2 ← encCalculatedFit sch oc items.leaves Γ1
        encItemsFit m F sch oc false items .init Γ2 (fun _ => none) []).isSome
  | .tagged len arms =>
    d.xfs.all (xformFine F sch oc (d.ctx F)) && capacityFit sch oc (d.ctx F) d.name len .init &&
    decide (arms.map (·.attr.name)).Nodup && encArmsFit m F sch oc (d.ctx F) arms .init

/-- The generated encoders survive any value. -/
def encSurvives (m : Bool) (F : Sig) (sch : Schema) (oc : Bool) : Bool := sch.all (encDeclFit m F sch oc)

/-! ## Soundness -/

/-- A value with the property, or an `Err` handed to the caller, or (if `m`) a panic because of the number of
elements of an array. -/
def Ends {α} (m : Bool) (P : α → Prop) : Res α → Prop
  | .ok a => P a
  | .error (.err _) => True
  | .error .miscount => m = true
  | .error _ => False

theorem Ends.bind {α β} {m : Bool} {P : α → Prop} {Q : β → Prop} {x : Res α} {k : α → Res β} (hx : Ends m P x)
    (hk : ∀ a, P a → Ends m Q (k a)) : Ends m Q (x >>= k) := by
  cases x with
  | ok a => exact hk a hx
  | error f =>
    cases f with
    | err msg => trivial
    | miscount => exact hx
    | _ => exact hx.elim

theorem Ends.mono {α} {m : Bool} {P Q : α → Prop} {x : Res α} (hx : Ends m P x) (h : ∀ a, P a → Q a) : Ends m Q x := by
  cases x with
  | ok a => exact h a hx
  | error f =>
    cases f with
    | err msg => trivial
    | miscount => exact hx
    | _ => exact hx.elim

theorem _root_.Verif.Yields.ends {α} {m : Bool} {P : α → Prop} {x : Res α} (h : Yields P x) : Ends m P x := by
  obtain ⟨a, rfl, h⟩ := h
  exact h

/-- A value of the type with numbers in range and at most `l` declared types nested. -/
def Suits (F : Sig) (sch : Schema) (l : Nat) (t : RTy) (v : Val) : Prop := Belongs F sch true t v ∧ v.depth ≤ l

variable {m : Bool} {l : Nat} {F : Sig} {sch : Schema}

/-- What an encoder of values with at most `l` nested declared types can count on. -/
structure ExtFit (m : Bool) (F : Sig) (sch : Schema) (l : Nat) (X : Ext) : Prop where
  call : ∀ n vs v d, sch.find n = some d → d.params.length = (F.params n).length →
    ArgsRanged F sch (F.params n) vs → Suits F sch l (.named n) v → Ends m (fun _ => True) (X.call n vs v)
  foreign : ∀ n vs v, ArgsRanged F sch (F.foreignArgs n) vs → Belongs F sch true (F.foreignTy n) v →
    Ends m (fun _ => True) (X.foreign n vs v)
  xform : ∀ n vs bs, ArgsRanged F sch (F.xformArgs n) vs → Ends m (fun _ => True) (X.xform n vs bs)

/-- The variables in scope. -/
structure EnvFit (F : Sig) (sch : Schema) (l : Nat) (Γ : TCtx) (X : Ext) (env : Env) : Prop where
  fields : ∀ n t, Γ.field n = some t → ∃ v, env n = some v ∧ Suits F sch l t v
  inputs : ∀ n t, Γ.input n = some t → ∃ v, X.input n = some v ∧ Belongs F sch true t v

variable {X : Ext} {Γ : TCtx} {env : Env}

theorem EnvFit.ranged (he : EnvFit F sch l Γ X env) : LookRanged F sch Γ ⟨env, X.input⟩ :=
  ⟨fun n t h => let ⟨v, hv, hb⟩ := he.fields n t h; ⟨v, hv, hb.1⟩, he.inputs⟩

theorem EnvFit.typed (he : EnvFit F sch l Γ X env) : EnvTyped F sch Γ X env :=
  ⟨fun n t h => let ⟨v, hv, hb⟩ := he.fields n t h; ⟨v, hv, hb.1.unranged⟩,
   fun n t h => let ⟨v, hv, hb⟩ := he.inputs n t h; ⟨v, hv, hb.unranged⟩⟩

theorem EnvFit.set (he : EnvFit F sch l Γ X env) {n : String} {t : RTy} {v : Val}
    (hv : Suits F sch l t v) : EnvFit F sch l (Γ.set n t) X (upd env n (some v)) := by
  refine ⟨?_, he.inputs⟩
  intro m u hm
  simp only [TCtx.set, upd] at hm ⊢
  split
  · rename_i h
    rw [if_pos h] at hm
    cases hm
    exact ⟨v, rfl, hv⟩
  · rename_i h
    rw [if_neg h] at hm
    exact he.fields m u hm

theorem fit_good (he : EnvFit F sch l Γ X env) {e : Expr} {t : RTy} (ht : eTy sch X.oc Γ e = some t)
    (h : exprFine sch X.oc Γ e = true) : Yields (fun v => ∃ s, Good F sch t s v) (ev X env e) := by
  simp only [exprFine, Bool.and_eq_true, Option.isSome_iff_exists] at h
  obtain ⟨_, s, hs⟩ := h
  obtain ⟨v, hv, hg⟩ := span_sound he.ranged e t s ht hs
  exact ⟨v, hv, s, hg⟩

theorem fit_arg (he : EnvFit F sch l Γ X env) {e : Expr} {t : RTy} (ht : eTy sch X.oc Γ e = some t)
    (h : argFine sch X.oc Γ e = true) : Yields (Belongs F sch true t) (ev X env e) := by
  unfold argFine at h
  rw [ht] at h
  split at h
  · rename_i k s hk hs
    cases hk
    obtain ⟨v, hv, hg⟩ := span_sound he.ranged e _ s ht hs
    obtain ⟨m, rfl, hm⟩ := hg.int_inv
    exact ⟨_, hv, .int fun _ => fits_has h hm⟩
  · rename_i t' s hn hk hs
    cases hk
    obtain ⟨v, hv, hg⟩ := span_sound he.ranged e _ s ht hs
    exact ⟨v, hv, hg.to_any fun k hk => hn k hk⟩
  · cases h

theorem fit_args (he : EnvFit F sch l Γ X env) : ∀ {es : List Expr} {ts : List RTy},
    argsFine sch X.oc Γ es ts = true → Yields (ArgsRanged F sch ts) (es.mapM (ev X env))
  | [], ts, h => by
    simp only [argsFine, argsOk, Bool.and_eq_true, decide_eq_true_eq] at h
    have : ts = [] := by simpa using h.1.symm
    subst this
    exact ⟨[], rfl, .nil⟩
  | e :: es, ts, h => by
    simp only [argsFine, argsOk, Bool.and_eq_true, decide_eq_true_eq] at h
    cases ts with
    | nil => simp at h
    | cons t ts =>
      simp only [List.map_cons, List.cons.injEq, List.all_cons, Bool.and_eq_true] at h
      rw [List.mapM_cons]
      refine (fit_arg he h.1.1 h.2.1).bind fun v hv => ?_
      refine (fit_args he (es := es) (ts := ts) (by simp [argsFine, argsOk, h.1.2, h.2.2])).bind fun vs hvs => ?_
      exact ⟨_, rfl, .cons hv hvs⟩

theorem number_ends {β} (he : EnvFit F sch l Γ X env) {e : Expr} (hn : numberOk sch X.oc Γ e = true)
    {s : NumRange} (hs : exprSpan sch X.oc Γ e = some s)
    {P : β → Prop} {k : Val → Res β} (hk : ∀ t n, s.has n → Ends m P (k (.int ⟨t, n⟩))) : Ends m P (ev X env e >>= k) := by
  unfold numberOk at hn
  split at hn
  · rename_i t ht
    obtain ⟨v, hv, hg⟩ := span_sound he.ranged e _ s ht hs
    obtain ⟨n, rfl, hm⟩ := hg.int_inv
    show Ends m P (runE X.oc ⟨env, X.input⟩ e >>= k)
    rw [hv]
    exact hk t n hm
  · cases hn

theorem size_ends {β} (he : EnvFit F sch l Γ X env) {e : Expr} (h : sizeFit sch X.oc Γ e = true)
    {P : β → Prop} {k : Nat → Res β} (hk : ∀ n, n < 2 ^ 63 → Ends m P (k n)) :
    Ends m P (ev X env e >>= fun v => asUsize v >>= k) := by
  simp only [sizeFit, Dec.countFine, Bool.and_eq_true] at h
  obtain ⟨h1, h2⟩ := h
  split at h2
  · rename_i lo hi hs
    simp only [Bool.and_eq_true, decide_eq_true_eq] at h2
    refine number_ends he h1 hs fun t n hn => ?_
    have h3 : 0 ≤ n := Int.le_trans h2.1 hn.1
    have h4 : n ≤ hi := hn.2 hi rfl
    have h5 : n < 2 ^ 63 := by have := h2.2; simp at this; omega
    rw [Dec.asUsize_int h3 h5]
    exact hk _ (by omega)
  · cases h2

theorem cond_ends {β} (he : EnvFit F sch l Γ X env) {e : Expr} (h : condFine sch X.oc Γ (some e) = true)
    {P : β → Prop} {k : Bool → Res β} (hk : ∀ b, Ends m P (k b)) :
    Ends m P (ev X env e >>= fun c => c.toBool >>= k) := by
  simp only [condFine, Bool.and_eq_true, decide_eq_true_eq] at h
  obtain ⟨v, hv, s, hg⟩ := fit_good he h.1 h.2
  obtain ⟨b, rfl⟩ := hg.bool_inv
  rw [hv]
  exact hk b

theorem checkCount_ends {n : Option Nat} (hn : n.isSome → m = true) (vs : List Val) :
    Ends m (fun _ => True) (checkCount n vs) := by
  unfold checkCount
  split
  · split
    · trivial
    · exact hn rfl
  · trivial

theorem concatM_ends {f : Val → Res Bytes} : ∀ (vs : List Val), (∀ v ∈ vs, Ends m (fun _ => True) (f v)) →
    Ends m (fun _ => True) (concatM f vs)
  | [], _ => trivial
  | v :: vs, h => (h v (by simp)).bind fun _ _ =>
    (concatM_ends vs fun w hw => h w (by simp [hw])).bind fun _ _ => trivial

theorem encPrim_ends {p : Prim} {v : Val} (h : Belongs F sch false p.rust v) :
    Ends m (fun _ => True) (encPrim p v) := by
  cases p with
  | bool => obtain ⟨b, rfl⟩ := inv_bool h; trivial
  | f32 => cases h; trivial
  | f64 => cases h; trivial
  | scalar s => obtain ⟨n, rfl⟩ := inv_int h; trivial

theorem encPrimArray_ends {p : Prim} (hp : p ≠ .bool) {v : Val} (h : Belongs F sch false (.vec p.rust) v)
    {n : Option Nat} (hn : n.isSome → m = true) : Ends m (fun _ => True) (encPrimArray p n v) := by
  cases h with
  | vec hvs =>
    rename_i vs
    unfold encPrimArray
    split
    · exact absurd rfl hp
    · refine (checkCount_ends hn vs).bind fun _ _ => ?_
      obtain ⟨bs, hbs⟩ := Dec.toBytes_typed (F := F) (sch := sch) (.vec hvs)
      rw [hbs]; trivial
    · exact (checkCount_ends hn vs).bind fun _ _ => concatM_ends vs fun v hv => encPrim_ends (hvs v hv)

theorem encRepr_ends {n : String} {d : Decl} {t : ReprTy} (hf : sch.find n = some d) (hb : d.body = .repr t)
    {v : Val} (h : Belongs F sch false (.named n) v) : Ends m (fun _ => True) (encRepr t v) := by
  cases h with
  | newtype g1 g2 _ => rw [hf] at g1; cases g1; rw [hb] at g2; cases g2
  | struct g1 g2 _ => rw [hf] at g1; cases g1; rw [hb] at g2; cases g2
  | variant g1 g2 _ _ _ => rw [hf] at g1; cases g1; rw [hb] at g2; cases g2
  | variantS g1 g2 _ _ _ => rw [hf] at g1; cases g1; rw [hb] at g2; cases g2
  | enm g1 g2 g3 _ =>
    rw [hf] at g1; cases g1
    rw [hb] at g2; cases g2
    simp only [encRepr, reprOf, if_pos, g3]
    trivial
  | bits g1 g2 _ =>
    rw [hf] at g1; cases g1
    rw [hb] at g2; cases g2
    simp only [encRepr, reprOf, if_pos]
    trivial

theorem encReprArray_ends {el : LTy} {t : ReprTy} (ha : alignedElem sch el = true) (hr : el.resolved = .repr t)
    {v : Val} (h : Belongs F sch false (.vec (el.rust F)) v) {k : Option Nat} (hk : k.isSome → m = true) :
    Ends m (fun _ => True) (encReprArray t k v) := by
  simp only [alignedElem, hr] at ha
  split at ha
  · rename_i m rs args
    simp only [Bool.and_eq_true, decide_eq_true_eq] at ha
    cases hf : sch.find m with
    | none => simp [hf] at ha
    | some d =>
      simp only [hf, Option.map_some, Option.some.injEq] at ha
      cases h with
      | vec hvs =>
        exact (checkCount_ends hk _).bind fun _ _ => concatM_ends _ fun v hv =>
          encRepr_ends hf ha.1 (by simpa [LTy.rust] using hvs v hv)
  · cases ha

theorem encN_ends {f : Val → Res Bytes} {t : RTy} (hf : ∀ v, Suits F sch l t v → Ends m (fun _ => True) (f v))
    {vs : List Val} (hv : Suits F sch l (.vec t) (.arr vs)) : ∀ (n i : Nat), (m = false → i + n ≤ vs.length) →
    Ends m (fun _ => True) (encN f (.arr vs) i n)
  | 0, _, _ => trivial
  | n + 1, i, hle => by
    have ih := encN_ends hf hv n (i + 1) (fun h => by have := hle h; omega)
    simp only [encN, itemOf]
    cases hx : vs[i]? with
    | some x =>
      have hmem := List.mem_of_getElem? hx
      have hb : Suits F sch l t x := by
        obtain ⟨h1, h2⟩ := hv
        cases h1 with
        | vec hvs => exact ⟨hvs x hmem, Nat.le_trans (depth_elem hmem) h2⟩
      exact (hf x hb).bind fun _ _ => ih.bind fun _ _ => trivial
    | none =>
      show Ends m _ (Except.error Fault.miscount)
      cases hm : m with
      | true => rfl
      | false =>
        have := hle hm
        rw [List.getElem?_eq_none_iff] at hx
        omega

theorem fit_vec {t : RTy} {v : Val} (h : Suits F sch l (.vec t) v) : ∃ vs, v = .arr vs := by
  obtain ⟨h, _⟩ := h
  cases h
  exact ⟨_, rfl⟩

theorem encLeaf_ends (hX : ExtFit m F sch l X) (he : EnvFit F sch l Γ X env) :
    ∀ (ty : LTy), alignedTy sch ty = true → leafFit m F sch X.oc Γ ty = true → ∀ v,
      Suits F sch l (ty.rust F) v → Ends m (fun _ => True) (encLeaf X env ty v)
  | .prim p, _, _, v, hv => by simp only [encLeaf]; exact encPrim_ends (by simpa [LTy.rust] using hv.1.unranged)
  | .ref n foreign rs args, _, h, v, hv => by
    simp only [encLeaf]
    cases foreign with
    | true =>
      simp only [leafFit, if_true] at h
      simp only [LTy.rust, if_true] at hv
      exact (fit_args he h).ends.bind fun vs hvs => hX.foreign n vs v hvs hv.1
    | false =>
      simp only [leafFit, Bool.false_eq_true, if_false, Bool.and_eq_true, decide_eq_true_eq] at h
      simp only [LTy.rust, Bool.false_eq_true, if_false] at hv
      cases hf : sch.find n with
      | none => simp [hf] at h
      | some d =>
        simp only [hf, Option.map_some, Option.some.injEq] at h
        exact (fit_args he h.1).ends.bind fun vs hvs => hX.call n vs v d hf h.2 hvs hv
  | .array el len, ha, h, v, hv => by
    have hel : leafFit m F sch X.oc Γ el = true := by
      simp only [leafFit, Bool.and_eq_true] at h; exact h.1
    have hael : alignedTy sch el = true := by
      simp only [alignedTy, Bool.and_eq_true] at ha; exact ha.1
    have ih := encLeaf_ends hX he el hael hel
    simp only [LTy.rust] at hv
    obtain ⟨vs, rfl⟩ := fit_vec hv
    cases len with
    | term e =>
      simp only [leafFit, Bool.and_eq_true, decide_eq_true_eq] at h
      simp only [encLeaf]
      refine (fit_good he h.2.1 h.2.2).ends.bind fun t ht => ?_
      obtain ⟨s, ht⟩ := ht
      refine Ends.bind (P := fun n => n = vs.length) rfl fun n hn => ?_
      subst hn
      refine (encN_ends ih hv _ 0 fun _ => by omega).bind fun bs _ => ?_
      exact (encPrimArray_ends (p := .scalar ⟨.u8, .big⟩) (by intro h; cases h) ht.belongs (by intro h; cases h)).bind
        fun _ _ => trivial
    | fixed e =>
      simp only [leafFit, Bool.and_eq_true] at h
      simp only [alignedTy, Bool.and_eq_true] at ha
      obtain ⟨_, hm, ⟨hn, hs⟩, hnb⟩ := h
      simp only [encLeaf]
      simp only [exprFine, Bool.and_eq_true, Option.isSome_iff_exists] at hs
      obtain ⟨_, s, hs⟩ := hs
      refine number_ends he hn hs fun t n _ => ?_
      cases hr : el.resolved with
      | prim p =>
        have := alignedElem_prim ha.2 hr
        subst this
        exact encPrimArray_ends (Dec.notBool_prim hnb hr) hv.1.unranged fun _ => hm
      | repr t => exact encReprArray_ends ha.2 hr hv.1.unranged fun _ => hm
      | other => exact encN_ends ih hv _ _ fun h => by simp [hm] at h
    | unbounded =>
      simp only [leafFit, Bool.and_eq_true] at h
      simp only [alignedTy, Bool.and_eq_true] at ha
      simp only [encLeaf]
      cases hr : el.resolved with
      | prim p =>
        have := alignedElem_prim ha.2 hr
        subst this
        exact encPrimArray_ends (Dec.notBool_prim h.2 hr) hv.1.unranged (by intro h; cases h)
      | repr t => exact encReprArray_ends ha.2 hr hv.1.unranged (by intro h; cases h)
      | other =>
        refine Ends.bind (P := fun n => n = vs.length) rfl fun n hn => ?_
        subst hn
        exact encN_ends ih hv _ 0 fun _ => by omega

theorem encXforms_ends {α} {P : α → Prop} (hX : ExtFit m F sch l X) (he : EnvFit F sch l Γ X env)
    {k : Res (α × Bytes)} (hk : Ends m (fun y => P y.1) k) :
    ∀ (xs : List XformUse), xs.all (xformFine F sch X.oc Γ) = true →
      Ends m (fun y => P y.1) (encXforms X env xs k)
  | [], _ => by simp only [encXforms]; exact hk
  | x :: xs, h => by
    simp only [List.all_cons, Bool.and_eq_true, xformFine] at h
    have ih := encXforms_ends hX he hk xs h.2
    have one : Ends m (fun y => P y.1) (do
        let vs ← x.args.mapM (ev X env)
        let (a, bs) ← encXforms X env xs k
        let out ← X.xform x.name vs bs
        (.ok (a, out) : Res (α × Bytes))) :=
      (fit_args he h.1.2).ends.bind fun vs hvs => ih.bind fun y hy => (hX.xform x.name vs y.2 hvs).bind fun _ _ => hy
    simp only [encXforms]
    cases hc : x.cond with
    | none => exact one
    | some e =>
      rw [hc] at h
      refine cond_ends he h.1.1 fun b => ?_
      cases b
      · exact ih
      · exact one

theorem nullCheck_ends {t : RTy} {v : Val} (h : Suits F sch l (.opt t) v) (msg : String) :
    Ends m (Suits F sch l t) (nullCheck msg v) := by
  obtain ⟨h, hd⟩ := h
  cases h with
  | none => trivial
  | some h => exact ⟨h, hd⟩

theorem encField_ends (hX : ExtFit m F sch l X) (he : EnvFit F sch l Γ X env) {a : FAttr} {ty : LTy} {t : RTy}
    (h : encFieldFit m F sch X.oc Γ a ty t = true) {v : Val} (hv : Suits F sch l t v) :
    Ends m (fun _ => True) (encField X env a ty v) := by
  simp only [encFieldFit, Bool.and_eq_true, decide_eq_true_eq] at h
  obtain ⟨⟨⟨⟨h1, h2⟩, h3⟩, h4⟩, h5⟩ := h
  subst h5
  have hbody : Ends m (fun _ => True) (do
      let (_, bs) ← encXforms X env a.xfs (do
        let w ← if a.cond.isSome && a.auto.isNone then nullCheck missingMsg v else .ok v
        let bs ← encLeaf X env ty w
        .ok ((), bs))
      (.ok bs : Res Bytes)) := by
    refine Ends.bind (P := fun _ => True) ?_ fun _ _ => trivial
    refine encXforms_ends (P := fun _ => True) hX he ?_ a.xfs h2
    have hk : ∀ w, Suits F sch l (ty.rust F) w → Ends m (fun _ => True) (do
        let bs ← encLeaf X env ty w
        (.ok ((), bs) : Res (Unit × Bytes))) := fun w hw =>
      (encLeaf_ends hX he ty h3 h4 w hw).bind fun _ _ => trivial
    cases hc : (a.cond.isSome && a.auto.isNone) with
    | true =>
      rw [hc] at hv
      exact (nullCheck_ends (by simpa [RTy.optional] using hv) _).bind fun w hw => hk w hw
    | false =>
      rw [hc] at hv
      exact hk v (by simpa [RTy.optional] using hv)
  unfold encField
  cases hc : a.cond with
  | none =>
    rw [hc] at hbody
    exact hbody
  | some e =>
    rw [hc] at hbody h1
    refine cond_ends he h1 fun b => ?_
    cases b
    · trivial
    · exact hbody

theorem evBlen_ends {lens : Env} {Λ : Tys} (he : EnvFit F sch l Γ X env) (hl : LensTyped F sch Λ lens)
    {a : FAttr} {t : RTy} (h : blenFit sch X.oc Γ Λ a = some t) :
    Ends m (Suits F sch l t) (evBlen X env lens a) := by
  unfold blenFit at h
  unfold evBlen
  cases ha : a.auto with
  | none => simp [ha] at h
  | some e =>
    simp only [ha] at h ⊢
    split at h
    · rename_i hs
      cases hc : castOfBlen e.unblen with
      | none => simp [hc] at h
      | some k =>
        simp only [hc, Option.map_some, Option.some.injEq] at h
        subst h
        unfold castOfBlen at hc
        split at hc
        · rename_i x k' hx
          cases hc
          rw [hx] at hs ⊢
          obtain ⟨t, ht⟩ := Option.isSome_iff_exists.1 hs
          simp only [eTy] at ht
          obtain ⟨u, hu, ht⟩ := obind_some ht
          obtain ⟨k2, hk2, _⟩ := obind_some ht
          obtain ⟨v, hv, hb⟩ := (overlay_typed he.typed hl e.blens).1 x u hu
          cases u <;> simp [castKind] at hk2
          rename_i k3
          obtain ⟨n, rfl⟩ := inv_int hb
          have hrun : ev X (overlay env (e.blens.map fun f => (blenName f, lens f))) (.cast .plain (.fieldRef x) (.scalar k)) =
              .ok (.int (CInt.castTo ⟨k3, n⟩ k)) := by
            simp only [ev, runE, evalE]
            simp only at hv
            rw [hv]
            rfl
          rw [hrun]
          exact ⟨.int fun _ => Scalar.wrap_inRange _ _, Nat.zero_le _⟩
        · cases hc
    · cases h

theorem encFlush_ends (hX : ExtFit m F sch l X) {p : Plan} {lens : Env} {Λ : Tys} (hl : LensTyped F sch Λ lens) :
    ∀ (ds : List Def) {Γ : TCtx} {env : Env} {Γ' : TCtx} {ds' : List (FAttr × LTy)}, EnvFit F sch l Γ X env →
      encFlushFit m F sch X.oc p Λ (shape ds) Γ = some (Γ', ds') →
      Ends m (fun r => EnvFit F sch l Γ' X r.1 ∧ shape r.2.1 = ds') (encFlush X p lens ds env)
  | [], Γ, env, Γ', ds', he, h => by
    cases h
    exact ⟨he, rfl⟩
  | d :: ds, Γ, env, Γ', ds', he, h => by
    simp only [shape, List.map_cons, encFlushFit] at h
    obtain ⟨⟨Γ1, rest1⟩, h1, h⟩ := obind_some h
    simp only at h
    simp only [encFlush]
    refine (encFlush_ends hX hl ds he h1).bind fun ⟨env1, rest, out⟩ ⟨he1, hs1⟩ => ?_
    simp only at he1 hs1 ⊢
    split at h
    · rename_i hk
      rw [if_pos hk]
      obtain ⟨t, ht, h⟩ := obind_some h
      split at h
      · rename_i hf
        cases h
        refine (evBlen_ends he1 hl ht).bind fun v hv => ?_
        have he2 := he1.set (n := d.attr.name) hv
        refine (encField_ends hX he2 hf hv).bind fun b _ => ?_
        cases rest with
        | nil => exact ⟨he2, hs1⟩
        | cons d' r => exact ⟨he2, by simpa [shape] using hs1⟩
      · cases h
    · rename_i hk
      rw [if_neg hk]
      cases h
      exact ⟨he1, by simp [shape, ← hs1]⟩

theorem encNulls_ends : ∀ (ns : List String) {Γ : TCtx} {env : Env} {Γ' : TCtx}, EnvFit F sch l Γ X env →
    encNullsOk ns Γ = some Γ' → Ends m (EnvFit F sch l Γ' X) (encNulls ns env)
  | [], _, _, _, he, h => by cases h; exact he
  | n :: ns, Γ, env, Γ', he, h => by
    simp only [encNullsOk] at h
    split at h
    · rename_i t ht
      obtain ⟨v, hv, hb⟩ := he.fields n _ ht
      simp only [encNulls, hv, optRes]
      exact (nullCheck_ends hb _).bind fun w hw => encNulls_ends ns (he.set hw) h
    · cases h

theorem enter_ends {cond : Bool} {items : Fields} {Γ' : TCtx} (he : EnvFit F sch l Γ X env)
    (h : enterOk cond items Γ = some Γ') : Ends m (EnvFit F sch l Γ' X) (enter cond items env) := by
  unfold enterOk at h
  unfold enter
  cases cond
  · cases h; exact he
  · exact encNulls_ends _ he h

theorem withBlen_ends {lens : Env} {Λ : Tys} {a : FAttr} {Γ' : TCtx} (he : EnvFit F sch l Γ X env)
    (hl : LensTyped F sch Λ lens) (h : withBlenFit sch X.oc Γ Λ a = some Γ') :
    Ends m (EnvFit F sch l Γ' X) (withBlen X env lens a) := by
  unfold withBlenFit at h
  unfold withBlen
  split
  · rename_i hb
    rw [if_pos hb] at h
    cases h; exact he
  · rename_i hb
    rw [if_neg hb] at h
    cases ht : blenFit sch X.oc Γ Λ a with
    | none => simp [ht] at h
    | some t =>
      simp only [ht, Option.map_some, Option.some.injEq] at h
      subst h
      exact (evBlen_ends he hl ht).bind fun v hv => he.set hv

theorem capacity_ends {name : String} {len : Option Expr} {p : Plan} (he : EnvFit F sch l Γ X env)
    (h : capacityFit sch X.oc Γ name len p = true) : Ends m (fun _ => True) (checkCapacity X env name len p) := by
  unfold capacityFit at h
  unfold checkCapacity
  cases len with
  | none => trivial
  | some e =>
    simp only [Bool.or_eq_true, decide_eq_true_eq] at h
    simp only
    split
    · trivial
    · rename_i hn
      refine size_ends he (h.resolve_left hn) fun n hn => ?_
      rw [if_neg (by omega)]
      trivial

theorem erase_fit (he : EnvFit F sch l Γ X env) (ns : List String) :
    EnvFit F sch l ⟨eraseT ns Γ.field, Γ.input⟩ X (erase ns env) := by
  refine ⟨?_, he.inputs⟩
  intro n t hn
  simp only [eraseT] at hn
  simp only [erase]
  split
  · rename_i hm
    rw [if_pos hm] at hn
    cases hn
  · rename_i hm
    rw [if_neg hm] at hn
    exact he.fields n t hn

theorem encItems_ends (hX : ExtFit m F sch l X) : ∀ (fs : Fields) (cond : Bool) (p : Plan) (Γ : TCtx) (Λ : Tys)
    (env lens : Env) (ds : List Def) (Γ' : TCtx) (Λ' : Tys), EnvFit F sch l Γ X env → LensTyped F sch Λ lens →
    encItemsFit m F sch X.oc cond fs p Γ Λ (shape ds) = some (Γ', Λ') →
    Ends m (fun r => EnvFit F sch l Γ' X r.1.1 ∧ LensTyped F sch Λ' r.1.2) (encItems X cond fs p env lens ds)
  | .nil, cond, p, Γ, Λ, env, lens, ds, Γ', Λ', he, hl, h => by
    cases h
    exact ⟨he, hl⟩
  | .pad _ e rest, cond, p, Γ, Λ, env, lens, ds, Γ', Λ', he, hl, h => by
    simp only [encItemsFit] at h
    split at h
    · rename_i hn
      obtain ⟨⟨Γ2, ds2⟩, h1, h2⟩ := obind_some h
      simp only at h2
      simp only [encItems]
      have hpad : Ends m (fun _ => True) (ev X env e >>= padBytes) := by
        refine size_ends he hn fun n hn => ?_
        rw [if_neg (by omega)]
        trivial
      rw [← bind_assoc]
      refine hpad.bind fun bs _ => ?_
      · rw [← shape_put ds bs] at h1
        refine (encFlush_ends hX hl _ he h1).bind fun ⟨env2, ds2', b2⟩ ⟨he2, hs⟩ => ?_
        simp only at he2 hs ⊢
        subst hs
        exact (encItems_ends hX rest cond p _ _ _ _ _ _ _ he2 hl h2).bind fun _ hy => hy
    · cases h
  | .leaf a ty rest, cond, p, Γ, Λ, env, lens, ds, Γ', Λ', he, hl, h => by
    simp only [encItemsFit] at h
    simp only [encItems]
    split at h
    · rename_i hk
      rw [if_pos hk]
      obtain ⟨Γ1, h1, h⟩ := obind_some h
      obtain ⟨t, ht, h⟩ := obind_some h
      split at h
      · rename_i hf
        obtain ⟨⟨Γ2, ds2⟩, h2, h3⟩ := obind_some h
        simp only at h3
        refine (withBlen_ends he hl h1).bind fun env1 he1 => ?_
        obtain ⟨v, hv, hb⟩ := he1.fields a.name t ht
        simp only [hv, optRes]
        refine (encField_ends hX he1 hf hb).bind fun bs _ => ?_
        rw [← shape_put ds bs] at h2
        refine (encFlush_ends hX hl _ he1 h2).bind fun ⟨env2, ds2', b2⟩ ⟨he2, hs⟩ => ?_
        simp only at he2 hs ⊢
        subst hs
        exact (encItems_ends hX rest cond p _ _ _ _ _ _ _ he2 hl h3).bind fun _ hy => hy
      · cases h
    · rename_i hk
      rw [if_neg hk]
      refine encItems_ends hX rest cond _ _ _ _ _ _ _ _ he hl ?_
      simpa [shape] using h
  | .cont a len items rest, cond, p, Γ, Λ, env, lens, ds, Γ', Λ', he, hl, h => by
    simp only [encItemsFit] at h
    split at h
    · rename_i hk
      simp only [Bool.and_eq_true] at hk
      obtain ⟨⟨hc, hx⟩, hcap⟩ := hk
      obtain ⟨Γ1, h1, h⟩ := obind_some h
      obtain ⟨⟨Γ2, Λ2⟩, h2, h⟩ := obind_some h
      obtain ⟨⟨Γ3, ds3⟩, h3, h4⟩ := obind_some h
      simp only at h3 h4
      clear h
      simp only [encItems]
      have hbody : Ends m (fun y : (Env × Env) × Bytes => EnvFit F sch l Γ2 X y.1.1 ∧ LensTyped F sch
          (if len.isSome && decide (a.name ∈ (planItems items p).pending) then upd Λ2 a.name (some (.int .u64)) else Λ2)
          y.1.2) (encXforms X env a.xfs do
            checkCapacity X env a.name len p
            let env1 ← enter (a.cond.isSome || cond) items env
            let ((env2, lens2), bs) ← encItems X (a.cond.isSome || cond) items p env1 lens []
            let lens3 := if len.isSome && decide (a.name ∈ (planItems items p).pending)
              then upd lens2 a.name (some (.int ⟨.u64, bs.length⟩)) else lens2
            .ok ((env2, lens3), bs)) := by
        refine encXforms_ends (P := fun y : Env × Env => EnvFit F sch l Γ2 X y.1 ∧ LensTyped F sch
          (if len.isSome && decide (a.name ∈ (planItems items p).pending) then upd Λ2 a.name (some (.int .u64)) else Λ2)
          y.2) hX he ?_ a.xfs hx
        refine (capacity_ends he hcap).bind fun _ _ => (enter_ends he h1).bind fun env1 he1 => ?_
        refine (encItems_ends hX items _ p Γ1 Λ env1 lens [] Γ2 Λ2 he1 hl h2).bind fun y hy => ?_
        obtain ⟨⟨env2, lens2⟩, bs⟩ := y
        refine ⟨hy.1, ?_⟩
        simp only at hy ⊢
        split
        · exact hy.2.set _ _
        · exact hy.2
      refine Ends.bind (P := fun y : (Env × Env) × Bytes =>
        EnvFit F sch l (if a.cond.isSome then
          ((⟨eraseT (nullNames items ++ setNames true items) Γ.field, Γ.input⟩,
            eraseT (((planItems items p).close a.name len).log.drop p.log.length) Λ) : TCtx × Tys)
        else (Γ2, if len.isSome && decide (a.name ∈ (planItems items p).pending) then upd Λ2 a.name (some (.int .u64)) else Λ2)).1
          X y.1.1 ∧ LensTyped F sch (if a.cond.isSome then
          ((⟨eraseT (nullNames items ++ setNames true items) Γ.field, Γ.input⟩,
            eraseT (((planItems items p).close a.name len).log.drop p.log.length) Λ) : TCtx × Tys)
        else (Γ2, if len.isSome && decide (a.name ∈ (planItems items p).pending) then upd Λ2 a.name (some (.int .u64)) else Λ2)).2
          y.1.2) ?_ fun y hy => ?_
      · unfold guarded
        cases hcc : a.cond with
        | none =>
          rw [hcc] at hbody
          exact hbody
        | some e =>
          rw [hcc] at hbody hc
          have hafter : EnvFit F sch l ⟨eraseT (nullNames items ++ setNames true items) Γ.field, Γ.input⟩ X
              (erase (nullNames items ++ setNames true items) env) :=
            erase_fit he _
          refine cond_ends he hc fun b => ?_
          cases b
          · exact ⟨hafter, erase_typed hl _⟩
          · exact hbody.bind fun _ _ => ⟨hafter, erase_typed hl _⟩
      · obtain ⟨⟨env2, lens2⟩, bs⟩ := y
        simp only at hy ⊢
        rw [← shape_put ds bs] at h3
        refine (encFlush_ends hX hy.2 _ hy.1 h3).bind fun ⟨env3, ds3', b3⟩ ⟨he3, hs⟩ => ?_
        simp only at he3 hs ⊢
        subst hs
        exact (encItems_ends hX rest cond _ _ _ _ _ _ _ _ he3 hy.2 h4).bind fun _ hz => hz
    · cases h

theorem simple_depth {t : RTy} {v : Val} (ht : simpleTy t = true) (h : Belongs F sch true t v) : v.depth = 0 := by
  cases h <;> first | rfl | cases ht

theorem encCalculated_ends : ∀ (as : List FAttr) {Γ : TCtx} {env : Env} {Γ' : TCtx}, EnvFit F sch l Γ X env →
    encCalculatedFit sch X.oc as Γ = some Γ' → Ends m (EnvFit F sch l Γ' X) (encCalculated X as env)
  | [], _, _, _, he, h => by cases h; exact he
  | a :: as, Γ, env, Γ', he, h => by
    simp only [encCalculatedFit] at h
    simp only [encCalculated]
    cases ha : a.auto with
    | none => simp only [ha] at h; exact encCalculated_ends as he h
    | some e =>
      simp only [ha] at h ⊢
      split at h
      · rename_i hb
        rw [if_pos hb]
        split at h
        · rename_i t ht
          split at h
          · rename_i hc
            simp only [Bool.and_eq_true] at hc
            exact (fit_arg he ht hc.1).ends.bind fun v hv => encCalculated_ends as
              (he.set ⟨hv, by rw [simple_depth hc.2 hv]; exact Nat.zero_le _⟩) h
          · cases h
        · cases h
      · rename_i hb
        rw [if_neg hb]
        exact encCalculated_ends as he h

theorem lookup_fit {ts : List (String × RTy)} {vs : List (String × Val)} (h : HasFields F sch true ts vs)
    (hd : depthF vs ≤ l) {n : String} {t : RTy} (hn : ts.lookup n = some t) : ∃ v, vs.lookup n = some v ∧ Suits F sch l t v := by
  suffices hs : ∃ v, vs.lookup n = some v ∧ Belongs F sch true t v by
    obtain ⟨v, hv, hb⟩ := hs
    exact ⟨v, hv, hb, Nat.le_trans (depth_lookup hv) hd⟩
  clear hd
  induction ts generalizing vs with
  | nil => cases hn
  | cons p ts ih =>
    cases h with
    | cons hv ht =>
      rename_i m u v vs
      simp only [List.lookup] at hn ⊢
      split at hn
      · cases hn; exact ⟨v, rfl, hv⟩
      · exact ih ht hn

theorem encStored_ends {ts : List (String × RTy)} {vs : List (String × Val)} {s : String}
    (hts : HasFields F sch true ts vs) (hd : depthF vs ≤ l) : ∀ (as : List FAttr) {Γ : TCtx} {env : Env} {Γ' : TCtx},
    EnvFit F sch l Γ X env → encStoredOk ts as Γ = some Γ' →
    Ends m (EnvFit F sch l Γ' X) (encStored (.struct s vs) as env)
  | [], _, _, _, he, h => by cases h; exact he
  | a :: as, Γ, env, Γ', he, h => by
    simp only [encStoredOk] at h
    simp only [encStored]
    split
    · rename_i ha
      rw [if_pos ha] at h
      exact encStored_ends hts hd as he h
    · rename_i ha
      rw [if_neg ha] at h
      split at h
      · rename_i t ht
        obtain ⟨v, hv, hb⟩ := lookup_fit hts hd ht
        simp only [fieldOf, hv, optRes]
        exact encStored_ends hts hd as (he.set hb) h
      · cases h

theorem bindNames_ends {ts : List (String × RTy)} {vs : List (String × Val)}
    (hts : HasFields F sch true ts vs) (hd : depthF vs ≤ l) : ∀ (ns : List String) {Γ : TCtx} {env : Env} {Γ' : TCtx},
    EnvFit F sch l Γ X env → bindNamesOk ts ns Γ = some Γ' →
    ∃ ws, ns.mapM (fun f => optRes (vs.lookup f)) = .ok ws ∧ EnvFit F sch l Γ' X (bindNames ns ws env)
  | [], _, _, _, he, h => by cases h; exact ⟨[], rfl, he⟩
  | n :: ns, Γ, env, Γ', he, h => by
    simp only [bindNamesOk] at h
    split at h
    · rename_i t ht
      obtain ⟨v, hv, hb⟩ := lookup_fit hts hd ht
      obtain ⟨ws, hws, hw⟩ := bindNames_ends hts hd ns (he.set (n := n) hb) h
      refine ⟨v :: ws, ?_, hw⟩
      rw [List.mapM_cons, hws, hv]
      rfl
    · cases h

theorem encArm_ends (hX : ExtFit m F sch l X) (he : EnvFit F sch l Γ X Env.empty) {n : String} {d : Decl}
    {len : Option Expr} {arms : List Arm} (hf : sch.find n = some d) (hb : d.body = .tagged len arms)
    (hnd : (arms.map (·.attr.name)).Nodup) {arm : Arm} (hm : arm ∈ arms) {p : Plan}
    (h : encArmFit m F sch X.oc Γ arm p = true) {v : Val} (hv : Suits F sch (l + 1) (.named n) v) :
    Ends m (fun _ => True) (encArm X n arm p v) := by
  have same : ∀ arm' ∈ arms, arm'.attr.name = arm.attr.name → arm' = arm := by
    intro arm' hm' hn
    clear hb
    induction arms with
    | nil => cases hm
    | cons x xs ih =>
      simp only [List.map_cons, List.nodup_cons, List.mem_map, not_exists, not_and] at hnd
      rcases List.mem_cons.1 hm with rfl | hm1
      · rcases List.mem_cons.1 hm' with rfl | hm2
        · rfl
        · exact absurd hn (hnd.1 _ hm2)
      · rcases List.mem_cons.1 hm' with rfl | hm2
        · exact absurd hn.symm (hnd.1 _ hm1)
        · exact ih hnd.2 hm1 hm2
  unfold encArmFit at h
  unfold encArm
  obtain ⟨hv, hd⟩ := hv
  cases hv with
  | newtype g1 g2 _ => rw [hf] at g1; cases g1; rw [hb] at g2; cases g2
  | struct g1 g2 _ => rw [hf] at g1; cases g1; rw [hb] at g2; cases g2
  | enm g1 g2 _ _ => rw [hf] at g1; cases g1; rw [hb] at g2; cases g2
  | bits g1 g2 _ => rw [hf] at g1; cases g1; rw [hb] at g2; cases g2
  | variant g1 g2 g3 g4 g5 =>
    rename_i arm' ty' v'
    rw [hf] at g1; cases g1
    rw [hb] at g2; cases g2
    cases hbd : arm.body with
    | leaf ty =>
      simp only [hbd, Bool.and_eq_true] at h
      simp only [unwrapEnum, ne_eq, not_true_eq_false, if_false]
      split
      · rename_i hn
        have := same arm' g3 hn
        subst this
        rw [hbd] at g4
        injection g4 with g4
        subst g4
        have hk : Ends m (fun y : Unit × Bytes => True) (do
            let bs ← encLeaf X .empty ty v'
            .ok ((), bs)) := (encLeaf_ends hX he ty h.1.2 h.2 _ ⟨g5, by simpa [Val.depth] using hd⟩).bind fun _ _ => trivial
        exact (encXforms_ends (P := fun _ => True) hX he hk _ h.1.1).bind fun _ _ => trivial
      · trivial
    | cont alen items =>
      simp only [unwrapStruct, ne_eq, not_true_eq_false, if_false]
      split
      · rename_i hn
        have := same arm' g3 hn
        subst this
        rw [hbd] at g4; cases g4
      · trivial
  | variantS g1 g2 g3 g4 g5 =>
    rename_i arm' alen' items' fs'
    rw [hf] at g1; cases g1
    rw [hb] at g2; cases g2
    cases hbd : arm.body with
    | leaf ty =>
      simp only [unwrapEnum, ne_eq, not_true_eq_false, if_false]
      split
      · rename_i hn
        have := same arm' g3 hn
        subst this
        rw [hbd] at g4; cases g4
      · trivial
    | cont alen items =>
      simp only [hbd] at h
      simp only [unwrapStruct, ne_eq, not_true_eq_false, if_false]
      split
      · rename_i hn
        have := same arm' g3 hn
        subst this
        rw [hbd] at g4
        injection g4 with g4 g6
        subst g6
        obtain ⟨⟨Γ3, Λ3⟩, h⟩ := Option.isSome_iff_exists.1 h
        obtain ⟨Γ1, h1, h⟩ := obind_some h
        obtain ⟨Γ2, h2, h3⟩ := obind_some h
        obtain ⟨ws, hws, hw⟩ := bindNames_ends g5 (by simpa [Val.depth] using hd) items.names he h1
        rw [hws]
        refine (encCalculated_ends items.leaves hw h2).bind fun env1 he1 => ?_
        exact (encItems_ends hX items false p Γ2 _ env1 _ [] Γ3 Λ3 he1 noLens h3).bind fun _ _ => trivial
      · trivial

theorem encArms_ends (hX : ExtFit m F sch l X) (he : EnvFit F sch l Γ X Env.empty) {n : String} {d : Decl}
    {len : Option Expr} {all : List Arm} (hf : sch.find n = some d) (hb : d.body = .tagged len all)
    (hnd : (all.map (·.attr.name)).Nodup) {v : Val} (hv : Suits F sch (l + 1) (.named n) v) :
    ∀ (arms : List Arm) (p : Plan), (∀ a ∈ arms, a ∈ all) → encArmsFit m F sch X.oc Γ arms p = true →
      Ends m (fun _ => True) (encArms X n arms p v)
  | [], _, _, _ => trivial
  | arm :: arms, p, hm, h => by
    simp only [encArmsFit, Bool.and_eq_true] at h
    have one := encArm_ends hX he hf hb hnd (hm arm (by simp)) h.1.2 hv
    have ih := encArms_ends hX he hf hb hnd hv arms (planArm arm p) (fun a ha => hm a (by simp [ha])) h.2
    simp only [encArms]
    cases hc : arm.attr.cond with
    | none => exact one
    | some e =>
      have hcc := h.1.1
      rw [hc] at hcc
      refine cond_ends he hcc fun b => ?_
      cases b
      · exact ih
      · exact one

theorem encDecl_ends (hX : ExtFit m F sch l X) {n : String} {d : Decl} (hf : sch.find n = some d) (hn : d.name = n)
    (he : EnvFit F sch l (d.ctx F) X Env.empty) (h : encDeclFit m F sch X.oc d = true) {v : Val}
    (hv : Suits F sch (l + 1) (.named n) v) : Ends m (fun _ => True) (encDecl X d v) := by
  simp only [encDeclFit, Bool.and_eq_true] at h
  obtain ⟨_, h⟩ := h
  unfold encDecl
  cases hb : d.body with
  | leaf cond ty =>
    simp only [hb] at h
    obtain ⟨hv, hd⟩ := hv
    cases hv with
    | newtype g1 g2 g3 =>
      rw [hf] at g1; cases g1
      rw [hb] at g2; cases g2
      exact encField_ends hX he h ⟨g3, by simpa [Val.depth] using hd⟩
    | enm g1 g2 _ _ => rw [hf] at g1; cases g1; rw [hb] at g2; cases g2
    | bits g1 g2 _ => rw [hf] at g1; cases g1; rw [hb] at g2; cases g2
    | struct g1 g2 _ => rw [hf] at g1; cases g1; rw [hb] at g2; cases g2
    | variant g1 g2 _ _ _ => rw [hf] at g1; cases g1; rw [hb] at g2; cases g2
    | variantS g1 g2 _ _ _ => rw [hf] at g1; cases g1; rw [hb] at g2; cases g2
  | repr t =>
    simp only [hb] at h
    have hk : Ends m (fun y : Unit × Bytes => True) (do
        let bs ← encRepr t v
        .ok ((), bs)) := (encRepr_ends hf hb hv.1.unranged).bind fun _ _ => trivial
    exact (encXforms_ends (P := fun _ => True) hX he hk _ h).bind fun _ _ => trivial
  | struct len items =>
    simp only [hb, Bool.and_eq_true] at h
    obtain ⟨⟨hx, hcap⟩, h⟩ := h
    obtain ⟨⟨Γ3, Λ3⟩, h⟩ := Option.isSome_iff_exists.1 h
    obtain ⟨Γ1, h1, h⟩ := obind_some h
    obtain ⟨Γ2, h2, h3⟩ := obind_some h
    refine Ends.bind (P := fun _ => True) ?_ fun _ _ => trivial
    refine encXforms_ends (P := fun _ => True) hX he ?_ _ hx
    refine (capacity_ends he hcap).bind fun _ _ => ?_
    obtain ⟨hv, hd⟩ := hv
    cases hv with
    | newtype g1 g2 g3 => rw [hf] at g1; cases g1; rw [hb] at g2; cases g2
    | enm g1 g2 _ _ => rw [hf] at g1; cases g1; rw [hb] at g2; cases g2
    | bits g1 g2 _ => rw [hf] at g1; cases g1; rw [hb] at g2; cases g2
    | variant g1 g2 _ _ _ => rw [hf] at g1; cases g1; rw [hb] at g2; cases g2
    | variantS g1 g2 _ _ _ => rw [hf] at g1; cases g1; rw [hb] at g2; cases g2
    | struct g1 g2 g3 =>
      rw [hf] at g1; cases g1
      rw [hb] at g2; cases g2
      refine (encStored_ends g3 (by simpa [Val.depth] using hd) items.leaves he h1).bind fun env he1 => ?_
      refine (encCalculated_ends items.leaves he1 h2).bind fun env2 he2 => ?_
      exact (encItems_ends hX items false .init Γ2 _ env2 _ [] Γ3 Λ3 he2 noLens h3).bind fun _ _ => trivial
  | tagged len arms =>
    simp only [hb, Bool.and_eq_true, decide_eq_true_eq] at h
    obtain ⟨⟨⟨hx, hcap⟩, hnd⟩, h⟩ := h
    refine Ends.bind (P := fun _ => True) ?_ fun _ _ => trivial
    refine encXforms_ends (P := fun _ => True) hX he ?_ _ hx
    refine (capacity_ends he hcap).bind fun _ _ => ?_
    rw [hn]
    exact (encArms_ends hX he hf hb hnd hv arms .init (fun a h => h) h).bind fun _ _ => trivial

/-- Foreign types and transforms do not panic on arguments and values of the declared types. -/
structure LibFit (F : Sig) (sch : Schema) (L : Lib) : Prop where
  foreign : ∀ n vs v, ArgsRanged F sch (F.foreignArgs n) vs → Belongs F sch true (F.foreignTy n) v →
    Ends false (fun _ => True) (L.foreign n vs v)
  xform : ∀ n vs bs, ArgsRanged F sch (F.xformArgs n) vs → Ends false (fun _ => True) (L.xform n vs bs)

theorem Ends.weaken {α} {P : α → Prop} {x : Res α} (h : Ends false P x) : Ends m P x := by
  cases x with
  | ok a => exact h
  | error f =>
    cases f with
    | err msg => trivial
    | miscount => cases h
    | _ => exact h.elim

theorem named_depth {n : String} {v : Val} (h : Belongs F sch true (.named n) v) : 0 < v.depth := by
  cases h <;> simp [Val.depth]

theorem specEncode_survives {L : Lib} (h : encSurvives m F sch L.oc = true) (hL : LibFit F sch L) :
    ∀ (fuel : Nat) (n : String) (d : Decl) (vs : List Val) (v : Val), sch.find n = some d →
      d.params.length = (F.params n).length → ArgsRanged F sch (F.params n) vs →
      Belongs F sch true (.named n) v → v.depth ≤ fuel → Ends m (fun _ => True) (specEncode sch L fuel n vs v)
  | 0, _, _, _, v, _, _, _, hb, hd => by have := named_depth hb; omega
  | fuel + 1, n, d, vs, v, hf, hp, hv, hb, hdepth => by
    have hname : d.name = n := by simpa using List.find?_some hf
    have hmem : d ∈ sch := by exact List.mem_of_find?_eq_some hf
    have hlen : d.params.length = vs.length := by rw [hp]; exact hv.length_eq
    have hd := List.all_eq_true.1 h d hmem
    unfold specEncode callDecl
    simp only [hf]
    rw [if_neg (by simpa using hlen)]
    have hacc : Accepts d v := by
      refine ⟨?_, by rw [hname]; exact Belongs_typeName hb.unranged⟩
      simp only [encDeclFit, Bool.and_eq_true] at hd
      exact hd.1
    rw [if_pos hacc]
    refine encDecl_ends ⟨fun n vs v d hf hp hv hb => specEncode_survives h hL fuel n d vs v hf hp hv hb.1 hb.2,
      fun n vs v h1 h2 => (hL.foreign n vs v h1 h2).weaken, fun n vs bs h1 => (hL.xform n vs bs h1).weaken⟩ hf hname
      ⟨?_, ?_⟩ hd ⟨hb, hdepth⟩
    · intro m t hm; cases hm
    · intro m t hm
      simp only [Decl.ctx] at hm
      rw [hname] at hm
      exact Dec.bindArgs_ranged hv hm

end Enc

end Verif
