import Verif.RustCheck
import Verif.DecodeTyped
/-!
# The decoders rustc accepts

`decChecks` says that a generated decoder follows Rust's type rules; `specDecode_safe`: such decoders never
go wrong.
-/
namespace Verif

/-- The arguments of a call: as many as there are parameters, each of its type. -/
def argsOk (sch : Schema) (oc : Bool) (Γ : TCtx) (es : List Expr) (ts : List RTy) : Bool :=
  decide (es.map (eTy sch oc Γ) = ts.map some)

/-- `e as usize` is accepted. -/
def numberOk (sch : Schema) (oc : Bool) (Γ : TCtx) (e : Expr) : Bool :=
  match eTy sch oc Γ e with
  | some (.int _) => true
  | _ => false

/-- `if e` is accepted. -/
def condOk (sch : Schema) (oc : Bool) (Γ : TCtx) : Option Expr → Bool
  | none => true
  | some e => decide (eTy sch oc Γ e = some .bool)

def lenOk (sch : Schema) (oc : Bool) (Γ : TCtx) : Option Expr → Bool
  | none => true
  | some e => numberOk sch oc Γ e

/-- `bool` has no `from_be_bytes`. -/
def notBool (el : LTy) : Bool :=
  match el.resolved with
  | .prim .bool => false
  | _ => true

/-- The expressions in a type. -/
def leafOk (F : Sig) (sch : Schema) (oc : Bool) (Γ : TCtx) : LTy → Bool
  | .prim _ => true
  | .ref n foreign _ args =>
    if foreign then argsOk sch oc Γ args (F.foreignArgs n)
    else argsOk sch oc Γ args (F.params n) && decide (((sch.find n).map (·.params.length)) = some (F.params n).length)
  | .array el len =>
    leafOk F sch oc Γ el &&
    match len with
    | .fixed e => numberOk sch oc Γ e && notBool el
    | .unbounded => notBool el
    | .term e => decide (eTy sch oc Γ e = some (.vec (.int .u8)))

def xformOk (F : Sig) (sch : Schema) (oc : Bool) (Γ : TCtx) (x : XformUse) : Bool :=
  condOk sch oc Γ x.cond && argsOk sch oc Γ x.args (F.xformArgs x.name)

/-- New variables. -/
def TCtx.bindAll (Γ : TCtx) (ts : List (String × RTy)) : TCtx :=
  ⟨ts.foldl (fun m p => upd m p.1 (some p.2)) Γ.field, Γ.input⟩

/-- The fields of a container, one after the other: each sees the ones before it. -/
def decItemsOk (F : Sig) (sch : Schema) (oc : Bool) : TCtx → Fields → Bool
  | _, .nil => true
  | Γ, .pad _ e rest => numberOk sch oc Γ e && decItemsOk F sch oc Γ rest
  | Γ, .leaf a ty rest =>
    condOk sch oc Γ a.cond && a.xfs.all (xformOk F sch oc Γ) && leafOk F sch oc Γ ty &&
    decItemsOk F sch oc (Γ.bindAll [(a.name, (ty.rust F).optional a.cond.isSome)]) rest
  | Γ, .cont a len items rest =>
    condOk sch oc Γ a.cond && a.xfs.all (xformOk F sch oc Γ) && lenOk sch oc Γ len &&
    decItemsOk F sch oc Γ items &&
    decItemsOk F sch oc (Γ.bindAll (rustFields F a.cond.isSome items)) rest

def decArmOk (F : Sig) (sch : Schema) (oc : Bool) (Γ : TCtx) (arm : Arm) : Bool :=
  condOk sch oc Γ arm.attr.cond && arm.attr.xfs.all (xformOk F sch oc Γ) &&
  match arm.body with
  | .leaf ty => leafOk F sch oc Γ ty
  | .cont len items => lenOk sch oc Γ len && decItemsOk F sch oc Γ items

/-- Parameters by name. -/
def bindTys : List String → List RTy → String → Option RTy
  | p :: ps, t :: ts => upd (bindTys ps ts) p (some t)
  | _, _ => fun _ => none

/-- The parameters of a declared type are in scope in all of it. -/
def Decl.ctx (F : Sig) (d : Decl) : TCtx := ⟨fun _ => none, bindTys d.params (F.params d.name)⟩

def decDeclOk (F : Sig) (sch : Schema) (oc : Bool) (d : Decl) : Bool :=
  d.xfs.all (xformOk F sch oc (d.ctx F)) &&
  match d.body with
  | .leaf cond ty => condOk sch oc (d.ctx F) cond && leafOk F sch oc (d.ctx F) ty
  | .repr _ => true
  | .struct len items => lenOk sch oc (d.ctx F) len && decItemsOk F sch oc (d.ctx F) items
  | .tagged len arms => lenOk sch oc (d.ctx F) len && arms.all (decArmOk F sch oc (d.ctx F))

/-- The generated decoders follow Rust's type rules. -/
def decChecks (F : Sig) (sch : Schema) (oc : Bool) : Bool :=
  alignedSchema sch && sch.all (decDeclOk F sch oc)

/-- Arguments of the declared types. -/
inductive ArgsTyped (F : Sig) (sch : Schema) : List RTy → List Val → Prop
  | nil : ArgsTyped F sch [] []
  | cons {t v ts vs} : Belongs F sch false t v → ArgsTyped F sch ts vs → ArgsTyped F sch (t :: ts) (v :: vs)

theorem ArgsTyped.length_eq {F : Sig} {sch : Schema} {ts : List RTy} {vs : List Val}
    (h : ArgsTyped F sch ts vs) : ts.length = vs.length := by
  induction h with
  | nil => rfl
  | cons _ _ ih => simp [ih]

namespace Dec

variable {F : Sig} {sch : Schema}

theorem Sane.gives {α} {P : α → Prop} {x : Res (α × Bytes)} (h : Sane (fun _ => True) x) (hg : Gives P x) :
    Sane (fun y => P y.1) x := by
  cases x with
  | ok y => exact hg y.1 y.2 rfl
  | error f => exact h

/-- What the outside does with arguments of the right types. -/
structure ExtSafe (F : Sig) (sch : Schema) (X : Ext) : Prop where
  typed : ExtTyped F sch false X
  call : ∀ n vs bs d, sch.find n = some d → d.params.length = (F.params n).length →
    ArgsTyped F sch (F.params n) vs → Sane (fun _ => True) (X.call n vs bs)
  foreign : ∀ n vs bs, ArgsTyped F sch (F.foreignArgs n) vs → Sane (fun _ => True) (X.foreign n vs bs)
  xform : ∀ n vs bs, ArgsTyped F sch (F.xformArgs n) vs → Sane (fun _ => True) (X.xform n vs bs)

/-- The variables in scope. -/
def EnvTyped (F : Sig) (sch : Schema) (Γ : TCtx) (X : Ext) (env : Env) : Prop :=
  LookTyped F sch Γ ⟨env, X.input⟩

variable {X : Ext} {Γ : TCtx} {env : Env}

theorem args_safe (he : EnvTyped F sch Γ X env) : ∀ {es : List Expr} {ts : List RTy},
    es.map (eTy sch X.oc Γ) = ts.map some → Sane (ArgsTyped F sch ts) (es.mapM (ev X env))
  | [], ts, h => by
    have : ts = [] := by simpa using h.symm
    subst this
    exact ArgsTyped.nil
  | e :: es, ts, h => by
    cases ts with
    | nil => simp at h
    | cons t ts =>
      simp only [List.map_cons, List.cons.injEq] at h
      rw [List.mapM_cons]
      exact (eTy_sound he e t h.1).bind fun v hv => (args_safe he h.2).bind fun vs hvs =>
        ArgsTyped.cons hv hvs

theorem number_usize (he : EnvTyped F sch Γ X env) {e : Expr} (h : numberOk sch X.oc Γ e = true) :
    Sane (fun _ => True) (ev X env e >>= asUsize) := by
  unfold numberOk at h
  split at h
  · rename_i k hk
    refine (eTy_sound he e _ hk).bind fun v hv => ?_
    obtain ⟨n, rfl⟩ := inv_int hv
    trivial
  · cases h

theorem number_bind {β} (he : EnvTyped F sch Γ X env) {e : Expr} (h : numberOk sch X.oc Γ e = true)
    {P : β → Prop} {k : Val → Res β} (hk : ∀ s n, Sane P (k (.int ⟨s, n⟩))) : Sane P (ev X env e >>= k) := by
  unfold numberOk at h
  split at h
  · rename_i s hs
    refine (eTy_sound he e _ hs).bind fun v hv => ?_
    obtain ⟨n, rfl⟩ := inv_int hv
    exact hk _ n
  · cases h

theorem cond_bind {β} (he : EnvTyped F sch Γ X env) {e : Expr} (h : condOk sch X.oc Γ (some e) = true)
    {P : β → Prop} {k : Bool → Res β} (hk : ∀ b, Sane P (k b)) :
    Sane P (ev X env e >>= fun c => c.toBool >>= k) := by
  simp only [condOk, decide_eq_true_eq] at h
  exact (eTy_sound he e _ h).bind fun v hv => bool_ok hv hk

theorem readExact_safe (n : Nat) (bs : Bytes) : Sane (fun _ => True) (readExact n bs) := by
  unfold readExact
  split
  · exact fun h => by cases h
  · trivial

theorem usizeMul_safe (oc : Bool) (n s : Nat) : Sane (fun _ => True) (usizeMul oc n s) := by
  unfold usizeMul
  split
  · trivial
  · split
    · exact fun h => by cases h
    · trivial

theorem allocBytes_safe (n : Nat) : Sane (fun _ => True) (allocBytes n) := by
  unfold allocBytes
  split
  · exact fun h => by cases h
  · trivial

theorem readItems_safe (oc : Bool) (s : Nat) (n : Option Nat) (bs : Bytes) :
    Sane (fun _ => True) (readItems oc s n bs) := by
  unfold readItems
  split
  · exact (usizeMul_safe _ _ _).bind fun _ _ => (allocBytes_safe _).bind fun _ _ => readExact_safe _ _
  · trivial

theorem ofRepr_safe (t : ReprTy) (x : Int) : Sane (fun _ => True) (ofRepr t x) := by
  unfold ofRepr
  split
  · split
    · trivial
    · exact fun h => by cases h
  · split
    · trivial
    · exact fun h => by cases h

theorem decPrim_safe (p : Prim) (bs : Bytes) : Sane (fun _ => True) (decPrim p bs) :=
  (readExact_safe _ _).bind fun _ _ => trivial

theorem decRepr_safe (t : ReprTy) (bs : Bytes) : Sane (fun _ => True) (decRepr t bs) :=
  (readExact_safe _ _).bind fun _ _ => (ofRepr_safe _ _).bind fun _ _ => trivial

theorem decPrimArray_safe {oc : Bool} {p : Prim} (hp : p ≠ .bool) (n : Option Nat) (bs : Bytes) :
    Sane (fun _ => True) (decPrimArray oc p n bs) := by
  unfold decPrimArray
  rw [if_neg hp]
  exact (readItems_safe _ _ _ _).bind fun _ _ => trivial

theorem mapM_safe {α β} {f : α → Res β} (hf : ∀ a, Sane (fun _ => True) (f a)) : ∀ (l : List α),
    Sane (fun _ => True) (l.mapM f)
  | [] => trivial
  | a :: l => by
    rw [List.mapM_cons]
    exact (hf a).bind fun _ _ => (mapM_safe hf l).bind fun _ _ => trivial

theorem decReprArray_safe (oc : Bool) (t : ReprTy) (n : Option Nat) (bs : Bytes) :
    Sane (fun _ => True) (decReprArray oc t n bs) :=
  (readItems_safe _ _ _ _).bind fun _ _ => (mapM_safe (fun _ => ofRepr_safe _ _) _).bind fun _ _ => trivial

theorem decN_safe {f : Bytes → Res (Val × Bytes)} (hf : ∀ bs, Sane (fun _ => True) (f bs)) :
    ∀ (n : Nat) (bs : Bytes), Sane (fun _ => True) (decN f n bs)
  | 0, _ => trivial
  | n + 1, bs => (hf bs).bind fun _ _ => (decN_safe hf n _).bind fun _ _ => trivial

theorem decAll_safe {f : Bytes → Res (Val × Bytes)} (hf : ∀ bs, Sane (fun _ => True) (f bs)) :
    ∀ (n : Nat) (bs : Bytes), Sane (fun _ => True) (decAll f n bs) := by
  intro n
  induction n with
  | zero =>
    intro bs
    unfold decAll
    split
    · trivial
    · exact fun h => by cases h
  | succ n ih =>
    intro bs
    unfold decAll
    split
    · trivial
    · refine (hf bs).bind fun ⟨v, b⟩ _ => ?_
      simp only
      split
      · exact (ih _).bind fun _ _ => trivial
      · exact fun h => by cases h

theorem decUntil_safe {f : Bytes → Res (Val × Bytes)} (hf : ∀ bs, Sane (fun _ => True) (f bs)) (t : Bytes) :
    ∀ (n : Nat) (bs : Bytes), Sane (fun _ => True) (decUntil f t n bs) := by
  intro n
  induction n with
  | zero =>
    intro bs
    unfold decUntil
    split
    · trivial
    · split
      · exact fun h => by cases h
      · split
        · trivial
        · exact fun h => by cases h
  | succ n ih =>
    intro bs
    unfold decUntil
    split
    · trivial
    · split
      · exact fun h => by cases h
      · split
        · trivial
        · refine (hf bs).bind fun ⟨v, b⟩ _ => ?_
          simp only
          split
          · exact (ih _).bind fun _ _ => trivial
          · exact fun h => by cases h

theorem toBytes_typed {v : Val} (h : Belongs F sch false (.vec (.int .u8)) v) : ∃ bs, v.toBytes = some bs := by
  cases h with
  | vec hvs =>
    rename_i vs
    simp only [Val.toBytes]
    induction vs with
    | nil => exact ⟨[], rfl⟩
    | cons v vs ih =>
      obtain ⟨n, rfl⟩ := inv_int (hvs v (by simp))
      obtain ⟨bs, hbs⟩ := ih fun v hv => hvs v (by simp [hv])
      exact ⟨_, by rw [List.mapM_cons, hbs]; rfl⟩

theorem notBool_prim {el : LTy} {p : Prim} (h : notBool el = true) (hr : el.resolved = .prim p) :
    p ≠ .bool := by
  rintro rfl
  simp [notBool, hr] at h

theorem decLeaf_safe (hX : ExtSafe F sch X) (he : EnvTyped F sch Γ X env) :
    ∀ (ty : LTy), leafOk F sch X.oc Γ ty = true → ∀ bs, Sane (fun _ => True) (decLeaf X env ty bs)
  | .prim p, _, bs => by simp only [decLeaf]; exact decPrim_safe p bs
  | .ref n foreign rs args, h, bs => by
    simp only [decLeaf]
    cases foreign with
    | true =>
      simp only [leafOk, if_true, argsOk, decide_eq_true_eq] at h
      exact (args_safe he h).bind fun vs hvs => hX.foreign n vs bs hvs
    | false =>
      simp only [leafOk, Bool.false_eq_true, if_false, argsOk, Bool.and_eq_true, decide_eq_true_eq] at h
      cases hf : sch.find n with
      | none => simp [hf] at h
      | some d =>
        simp only [hf, Option.map_some, Option.some.injEq] at h
        exact (args_safe he h.1).bind fun vs hvs => hX.call n vs bs d hf h.2 hvs
  | .array el len, h, bs => by
    have hel : leafOk F sch X.oc Γ el = true := by
      simp only [leafOk, Bool.and_eq_true] at h; exact h.1
    have ih := decLeaf_safe hX he el hel
    cases len with
    | term e =>
      simp only [leafOk, Bool.and_eq_true, decide_eq_true_eq] at h
      simp only [decLeaf]
      refine (eTy_sound he e _ h.2).bind fun v hv => ?_
      obtain ⟨t, ht⟩ := toBytes_typed hv
      simp only [ht, optRes]
      exact (decUntil_safe ih t _ bs).bind fun _ _ => trivial
    | fixed e =>
      simp only [leafOk, Bool.and_eq_true] at h
      simp only [decLeaf]
      refine number_bind he h.2.1 fun s n => ?_
      cases hr : el.resolved with
      | prim p => exact decPrimArray_safe (notBool_prim h.2.2 hr) _ _
      | repr t => exact decReprArray_safe _ _ _ _
      | other =>
        simp only [loopCount, Val.toInt]
        refine Sane.bind (P := fun _ => True) ?_ fun c _ => (decN_safe ih _ _).bind fun _ _ => trivial
        show Sane _ (if n < 0 ∨ 2 ^ 63 ≤ n then Except.error Fault.panic else Except.ok n.toNat)
        split
        · exact fun h => by cases h
        · trivial
    | unbounded =>
      simp only [leafOk, Bool.and_eq_true] at h
      simp only [decLeaf]
      cases hr : el.resolved with
      | prim p => exact decPrimArray_safe (notBool_prim h.2 hr) _ _
      | repr t => exact decReprArray_safe _ _ _ _
      | other => exact (decAll_safe ih _ _).bind fun _ _ => trivial

theorem decXforms_safe {α} (hX : ExtSafe F sch X) (he : EnvTyped F sch Γ X env)
    {k : Bytes → Res (α × Bytes)} (hk : ∀ bs, Sane (fun _ => True) (k bs)) :
    ∀ (xs : List XformUse), xs.all (xformOk F sch X.oc Γ) = true → ∀ bs,
      Sane (fun _ => True) (decXforms X env xs bs k)
  | [], _, bs => by simp only [decXforms]; exact hk bs
  | x :: xs, h, bs => by
    simp only [List.all_cons, Bool.and_eq_true, xformOk, argsOk, decide_eq_true_eq] at h
    have ih := decXforms_safe hX he hk xs h.2
    have one : Sane (fun _ => True) (do
        let vs ← x.args.mapM (ev X env)
        let (dec, rest) ← X.xform x.name vs bs
        let (a, _) ← decXforms X env xs dec k
        (.ok (a, rest) : Res (α × Bytes))) :=
      (args_safe he h.1.2).bind fun vs hvs => (hX.xform x.name vs bs hvs).bind fun y _ =>
        (ih _).bind fun _ _ => trivial
    simp only [decXforms]
    cases hc : x.cond with
    | none => exact one
    | some e =>
      rw [hc] at h
      refine cond_bind he h.1.1 fun b => ?_
      cases b
      · exact ih bs
      · exact one

theorem decLimited_safe {α} (he : EnvTyped F sch Γ X env) {len : Option Expr}
    (hl : lenOk sch X.oc Γ len = true) {k : Bytes → Res (α × Bytes)} (hk : ∀ bs, Sane (fun _ => True) (k bs))
    (bs : Bytes) : Sane (fun _ => True) (decLimited X env len bs k) := by
  unfold decLimited
  cases len with
  | none => exact hk bs
  | some e => exact number_bind he hl fun s n => (hk _).bind fun _ _ => trivial

theorem decCond_safe (he : EnvTyped F sch Γ X env) {cond : Option Expr}
    (hc : condOk sch X.oc Γ cond = true) {names : List String}
    {k : Bytes → Res (List (String × Val) × Bytes)} (hk : ∀ bs, Sane (fun _ => True) (k bs))
    (bs : Bytes) : Sane (fun _ => True) (decCond X env cond names bs k) := by
  unfold decCond
  cases cond with
  | none => exact hk bs
  | some e =>
    refine cond_bind he hc fun b => ?_
    cases b
    · trivial
    · exact (hk bs).bind fun _ _ => trivial

theorem LookTyped.bind (he : EnvTyped F sch Γ X env) {ts : List (String × RTy)} {vs : List (String × Val)}
    (h : HasFields F sch false ts vs) : EnvTyped F sch (Γ.bindAll ts) X (env.bindAll vs) := by
  induction ts generalizing vs Γ env with
  | nil => cases h; exact he
  | cons p ts ih =>
    cases h with
    | cons hv ht =>
      rename_i n t v vs
      refine ih (Γ := Γ.bindAll [(n, t)]) (env := env.bindAll [(n, v)]) ⟨?_, he.2⟩ ht
      intro m u hm
      simp only [TCtx.bindAll, List.foldl, Env.bindAll, upd] at hm ⊢
      split
      · rename_i hmn
        rw [if_pos hmn] at hm
        cases hm
        exact ⟨v, rfl, hv⟩
      · rename_i hmn
        rw [if_neg hmn] at hm
        exact he.1 m u hm

theorem leafRun_safe (hX : ExtSafe F sch X) (he : EnvTyped F sch Γ X env) {xs : List XformUse} {ty : LTy}
    {name : String} (hx : xs.all (xformOk F sch X.oc Γ) = true) (hty : leafOk F sch X.oc Γ ty = true)
    (bs : Bytes) :
    Sane (fun _ => True) (decXforms X env xs bs fun b' => do
        let (v, r) ← decLeaf X env ty b'
        .ok ([(name, v)], r)) := by
  refine decXforms_safe hX he (fun b => ?_) xs hx bs
  exact (decLeaf_safe hX he ty hty b).bind fun _ _ => trivial

theorem all_reverse {α} {p : α → Bool} {l : List α} (h : l.all p = true) : l.reverse.all p = true := by
  rw [List.all_eq_true] at h ⊢
  intro x hx
  exact h x (by simpa using hx)

theorem decItems_safe (hs : alignedSchema sch = true) (hX : ExtSafe F sch X) :
    ∀ (fs : Fields) (Γ : TCtx) (env : Env), alignedItems sch fs = true → EnvTyped F sch Γ X env →
      decItemsOk F sch X.oc Γ fs = true → ∀ bs, Sane (fun _ => True) (decItems X fs env bs)
  | .nil, _, _, _, _, _, bs => trivial
  | .pad _ e rest, Γ, env, ha, he, h, bs => by
    simp only [decItemsOk, Bool.and_eq_true] at h
    simp only [decItems]
    refine number_bind he h.1 fun s n => ?_
    show Sane _ (skipBytes _ bs >>= _)
    refine Sane.bind (P := fun _ => True) ?_ fun y _ => decItems_safe hs hX rest Γ env ha he h.2 _
    exact (allocBytes_safe _).bind fun _ _ => (readExact_safe _ _).bind fun _ _ => trivial
  | .leaf a ty rest, Γ, env, ha, he, h, bs => by
    simp only [decItemsOk, Bool.and_eq_true] at h
    simp only [alignedItems, Bool.and_eq_true] at ha
    obtain ⟨⟨⟨h1, h2⟩, h3⟩, h4⟩ := h
    simp only [decItems]
    have hsafe := decCond_safe (names := [a.name]) he h1
      (fun b => leafRun_safe (name := a.name) hX he (all_reverse h2) h3 b) bs
    have hty : Gives _ _ := decCond_typed (X := X) (env := env) (cond := a.cond) (ts := [(a.name, ty.rust F)])
      (fun b => leafRun_typed hs hX.typed (env := env) (xs := a.xfs.reverse) ha.1 b) bs
    refine (Sane.gives hsafe hty).bind fun y hy => ?_
    have hy' : HasFields F sch false [(a.name, (ty.rust F).optional a.cond.isSome)] y.1 := by
      simp only [RTy.optional]
      cases hc : a.cond <;> simpa [opts, hc] using hy
    exact (decItems_safe hs hX rest _ _ ha.2 (LookTyped.bind he hy') h4 _).bind fun _ _ => trivial
  | .cont a len items rest, Γ, env, ha, he, h, bs => by
    simp only [decItemsOk, Bool.and_eq_true] at h
    simp only [alignedItems, Bool.and_eq_true, Bool.or_eq_true] at ha
    obtain ⟨⟨⟨⟨h1, h2⟩, h3⟩, h4⟩, h5⟩ := h
    simp only [decItems]
    have ih := decItems_safe hs hX items Γ env ha.1.2 he h4
    have hsafe := decCond_safe (names := items.names) he h1
      (fun b => decXforms_safe hX he (fun b' => decLimited_safe he h3 ih b') a.xfs.reverse (all_reverse h2) b) bs
    have hty : Gives _ _ := decCond_typed (X := X) (env := env) (cond := a.cond) (ts := rustFields F false items)
      (fun b => decXforms_gives (X := X) (env := env) (fun b' => decLimited_gives (X := X) (env := env) (len := len)
        (fun b'' => decItems_typed hs hX.typed items ha.1.2 env b'') b') a.xfs.reverse b) bs
    rw [rustFields_names] at hty
    refine (Sane.gives hsafe hty).bind fun y hy => ?_
    have hy' : HasFields F sch false (rustFields F a.cond.isSome items) y.1 := by
      cases hc : a.cond with
      | none => simpa [hc] using hy
      | some e =>
        have hu : unconditional items = true := by
          rcases ha.1.1 with h | h
          · simp [hc] at h
          · exact h
        simpa [hc, rustFields_opts hu] using hy
    exact (decItems_safe hs hX rest _ _ ha.2 (LookTyped.bind he hy') h5 _).bind fun _ _ => trivial

theorem decArm_safe (hs : alignedSchema sch = true) (hX : ExtSafe F sch X) {n : String} {arm : Arm}
    (ha : alignedArm sch arm = true) (he : EnvTyped F sch Γ X Env.empty)
    (h : decArmOk F sch X.oc Γ arm = true) (bs : Bytes) : Sane (fun _ => True) (decArm X n arm bs) := by
  simp only [decArmOk, Bool.and_eq_true] at h
  refine decXforms_safe hX he (fun b => ?_) _ (all_reverse h.1.2) bs
  cases hb : arm.body with
  | leaf ty =>
    simp only [hb] at h
    exact (decLeaf_safe hX he ty h.2 b).bind fun _ _ => trivial
  | cont len items =>
    simp only [hb, Bool.and_eq_true] at h
    simp only [alignedArm, hb] at ha
    exact (decLimited_safe he h.2.1 (decItems_safe hs hX items Γ _ ha he h.2.2) b).bind fun _ _ => trivial

theorem decArms_safe (hs : alignedSchema sch = true) (hX : ExtSafe F sch X) {n : String}
    (he : EnvTyped F sch Γ X Env.empty) (bs : Bytes) : ∀ (arms : List Arm),
    arms.all (alignedArm sch) = true → arms.all (decArmOk F sch X.oc Γ) = true →
    Sane (fun _ => True) (decArms X n arms bs)
  | [], _, _ => by simp only [decArms]; exact fun h => by cases h
  | arm :: arms, ha, h => by
    simp only [List.all_cons, Bool.and_eq_true] at ha h
    have ih := decArms_safe hs hX (n := n) he bs arms ha.2 h.2
    have one := decArm_safe hs hX (n := n) ha.1 he h.1 bs
    simp only [decArms]
    have hcond := h.1
    simp only [decArmOk, Bool.and_eq_true] at hcond
    cases hc : arm.attr.cond with
    | none => exact one
    | some e =>
      rw [hc] at hcond
      refine cond_bind he hcond.1.1 fun b => ?_
      cases b
      · exact ih
      · exact one

theorem decDecl_safe (hs : alignedSchema sch = true) (hX : ExtSafe F sch X) {d : Decl} (hd : d ∈ sch)
    (he : EnvTyped F sch (d.ctx F) X Env.empty) (h : decDeclOk F sch X.oc d = true) (bs : Bytes) :
    Sane (fun _ => True) (decDecl X d bs) := by
  have ha := List.all_eq_true.1 hs d hd
  simp only [decDeclOk, Bool.and_eq_true] at h
  obtain ⟨hx, h⟩ := h
  unfold decDecl
  cases hb : d.body with
  | leaf cond ty =>
    simp only [hb, Bool.and_eq_true] at h
    have hty : alignedTy sch ty = true := by simpa [alignedDecl, hb] using ha
    have hsafe := decCond_safe (names := [d.name]) he h.1
      (fun b => leafRun_safe (name := d.name) hX he (all_reverse hx) h.2 b) bs
    have hg : Gives _ _ := decCond_typed (X := X) (env := Env.empty) (cond := cond) (ts := [(d.name, ty.rust F)])
      (fun b => leafRun_typed hs hX.typed (env := Env.empty) (xs := d.xfs.reverse) hty b) bs
    refine (Sane.gives hsafe hg).bind fun y hy => ?_
    have hy' : HasFields F sch false [(d.name, (ty.rust F).optional cond.isSome)] y.1 := by
      simp only [RTy.optional]
      cases cond <;> simpa [opts] using hy
    obtain ⟨vs, r⟩ := y
    simp only at hy'
    cases hy' with
    | cons hx hn => cases hn; trivial
  | repr t => exact decXforms_safe hX he (fun b => decRepr_safe t b) _ (all_reverse hx) bs
  | struct len items =>
    simp only [hb, Bool.and_eq_true] at h
    refine decXforms_safe hX he (fun b => ?_) _ (all_reverse hx) bs
    exact (decLimited_safe he h.1 (decItems_safe hs hX items _ _ (by simpa [alignedDecl, hb] using ha) he h.2) b).bind
      fun _ _ => trivial
  | tagged len arms =>
    simp only [hb, Bool.and_eq_true] at h
    refine decXforms_safe hX he (fun b => ?_) _ (all_reverse hx) bs
    exact decLimited_safe he h.1 (fun b' => decArms_safe hs hX he b' arms
      (by simpa [alignedDecl, hb] using ha) h.2) b

theorem bindArgs_typed {ts : List RTy} {vs : List Val} (h : ArgsTyped F sch ts vs) : ∀ {ps : List String}
    {n : String} {t : RTy}, bindTys ps ts n = some t → ∃ v, bindArgs ps vs n = some v ∧ Belongs F sch false t v := by
  induction h with
  | nil => intro ps n t hn; cases ps <;> cases hn
  | cons hv _ ih =>
    intro ps n t hn
    cases ps with
    | nil => cases hn
    | cons p ps =>
      simp only [bindTys, bindArgs, upd] at hn ⊢
      split
      · rename_i hc
        rw [if_pos hc] at hn
        cases hn
        exact ⟨_, rfl, hv⟩
      · rename_i hc
        rw [if_neg hc] at hn
        exact ih hn

/-- Foreign types and transforms behave: they accept arguments of the declared types, and a foreign type
hands back a value of its Rust type. -/
structure LibSafe (F : Sig) (sch : Schema) (L : Lib) : Prop where
  typed : LibTyped F sch false L
  foreign : ∀ n vs bs, ArgsTyped F sch (F.foreignArgs n) vs → Sane (fun _ => True) (L.foreign n vs bs)
  xform : ∀ n vs bs, ArgsTyped F sch (F.xformArgs n) vs → Sane (fun _ => True) (L.xform n vs bs)

theorem specDecode_safe {L : Lib} (h : decChecks F sch L.oc = true) (hL : LibSafe F sch L) :
    ∀ (fuel : Nat) (n : String) (d : Decl) (vs : List Val) (bs : Bytes), sch.find n = some d →
      d.params.length = (F.params n).length → ArgsTyped F sch (F.params n) vs →
      Sane (fun _ => True) (specDecode sch L fuel n vs bs)
  | 0, _, _, _, _, _, _, _ => fun h => by cases h
  | fuel + 1, n, d, vs, bs, hf, hp, hv => by
    simp only [decChecks, Bool.and_eq_true] at h
    have hname : d.name = n := by simpa using List.find?_some hf
    have hmem : d ∈ sch := by exact List.mem_of_find?_eq_some hf
    have hlen : d.params.length = vs.length := by rw [hp]; exact hv.length_eq
    unfold specDecode callDecl
    simp only [hf]
    rw [if_neg (by simpa using hlen)]
    refine decDecl_safe h.1 ⟨⟨specDecode_typed h.1 hL.typed fuel, fun n vs bs v rest h => hL.typed n vs bs v rest h⟩,
      fun n vs bs d hf hp hv => specDecode_safe (by simp [decChecks, h]) hL fuel n d vs bs hf hp hv,
      hL.foreign, hL.xform⟩ hmem ⟨?_, ?_⟩ (List.all_eq_true.1 h.2 d hmem) bs
    · intro m t hm; cases hm
    · intro m t hm
      simp only [Decl.ctx] at hm
      rw [hname] at hm
      exact bindArgs_typed hv hm

end Dec
end Verif
