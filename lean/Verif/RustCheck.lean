import Verif.RustTypes
import Verif.ExprLemmas
/-!
# Rust's type rules for the emitted expressions

`eTy` assigns to an expression the Rust type of what `emit_expression` (`compiler/expr.rs` 253-420) writes
for it, or nothing if rustc rejects it. `eTy_sound`: an expression that has a type never evaluates to
`ill`, and its value has that type.
-/
namespace Verif

/-- The types of the variables in scope: fields and parameters. -/
structure TCtx where
  field : String → Option RTy
  input : String → Option RTy

/-- The right-hand side of a declared type. -/
def bodyOf (sch : Schema) (n : String) : Option Body := (sch.find n).map (·.body)

/-- Types with `==` that the emitted code compares: numbers, booleans, strings, enums and bitfields
(`#[derive(PartialEq)]`). -/
def comparable (sch : Schema) : RTy → Bool
  | .int _ | .bool | .str => true
  | .named n =>
    match bodyOf sch n with
    | some (.repr _) => true
    | _ => false
  | _ => false

/-- The operand of `as`, after `.to_repr()` or `.0` (`compiler/expr.rs` 315-331). -/
def castKind (sch : Schema) (src : CastSrc) (t : RTy) : Option Scalar :=
  match src, t with
  | .plain, .int k => some k
  | .enum_, .named n =>
    match bodyOf sch n with
    | some (.repr (.enum m en)) => if m = n then some en.rep.scalar else none
    | _ => none
  | .bitfield, .named n =>
    match bodyOf sch n with
    | some (.repr (.bitfield m bf)) => if m = n then some bf.rep.scalar else none
    | _ => none
  | _, _ => none

/-- Comparisons of two numbers of one kind. -/
def cmpTy (l r : RTy) : Option RTy :=
  match l with
  | .int k => if r = .int k then some .bool else none
  | _ => none

/-- Arithmetic on two numbers of one kind. -/
def arithTy (l r : RTy) : Option RTy :=
  match l with
  | .int k => if r = .int k then some (.int k) else none
  | _ => none

/-- Shifts by any number. -/
def shiftTy (l r : RTy) : Option RTy :=
  match l, r with
  | .int k, .int _ => some (.int k)
  | _, _ => none

def eqTy (sch : Schema) (l r : RTy) : Option RTy :=
  if l = r ∧ comparable sch l = true then some .bool else none

/-- Result of a binary operator (`compiler/expr.rs` 266-292). -/
def binTy (sch : Schema) (op : BinOp) (l r : RTy) : Option RTy :=
  match op with
  | .or | .and => if l = .bool ∧ r = .bool then some .bool else none
  | .elvis => if l = .opt r then some r else none
  | .lt | .gt | .lte | .gte => cmpTy l r
  | .eq | .ne => eqTy sch l r
  | .shl | .shr => shiftTy l r
  | .shrSigned => none
  | .bitOr | .bitAnd | .bitXor | .add | .sub | .mul | .div | .mod => arithTy l r

/-- Result of a unary operator (`compiler/expr.rs` 301-311). -/
def unTy (op : UnOp) (t : RTy) : Option RTy :=
  match op, t with
  | .negate, .int k => if k.signed then some (.int k) else none
  | .not, .bool => some .bool
  | .bitNot, .int k => some (.int k)
  | _, _ => none

def castTo : CastTy → Option RTy
  | .scalar k => some (.int k)
  | .other => none

/-- The Rust type of an emitted expression. A named constant is emitted as its bare name
(`compiler/expr.rs` 363-368), so it is looked up among the parameters. -/
def eTy (sch : Schema) (oc : Bool) (Γ : TCtx) : Expr → Option RTy
  | .binary op l r => do
    let a ← eTy sch oc Γ l
    let b ← eTy sch oc Γ r
    binTy sch op a b
  | .unary op (.cast src e ty) => do
    let t ← eTy sch oc Γ e
    let k ← castKind sch src t
    let u ← unTy op (.int k)
    match u with
    | .int _ => castTo ty
    | _ => none
  | .unary op e => do
    let t ← eTy sch oc Γ e
    unTy op t
  | .cast src e ty => do
    let t ← eTy sch oc Γ e
    let _ ← castKind sch src t
    castTo ty
  | .index _ _ => none
  | .enumAccess en va value =>
    match bodyOf sch en, constEval oc value with
    | some (.repr (.enum m d)), .ok (.int r) =>
      if m = en ∧ d.toRepr (.unit va) = some r.val ∧ r.kind = d.rep.scalar then some (.named en) else none
    | _, _ => none
  | .int v => some (.int v.kind)
  | .constRef n _ => Γ.input n
  | .inputRef n => Γ.input n
  | .fieldRef n => Γ.field n
  | .str _ => some (.vec (.int .u8))
  | .ternary c t f => do
    let a ← eTy sch oc Γ c
    let b ← eTy sch oc Γ t
    let d ← eTy sch oc Γ f
    if a = .bool ∧ b = d then some b else none
  | .bool _ => some .bool
  | .len fixed e =>
    match fixed with
    | some _ => some (.int .u64)
    | none => do
      let t ← eTy sch oc Γ e
      match t with
      | .vec _ | .str => some (.int .u64)
      | _ => none
  | .blen _ => none
  | .sum e => do
    let t ← eTy sch oc Γ e
    match t with
    | .vec (.int _) => some (.int .u64)
    | _ => none
  | .bits e => do
    let t ← eTy sch oc Γ e
    if t = .int .u64 then some (.int .u8) else none
  | .pad p b => do
    let t ← eTy sch oc Γ p
    let u ← eTy sch oc Γ b
    if t = .int .u64 ∧ u = .int .u64 then some (.int .u64) else none
  | .member e _ value => do
    let t ← eTy sch oc Γ e
    match t with
    | .named n =>
      match bodyOf sch n, constEval oc value with
      | some (.repr (.bitfield m bf)), .ok (.int f) =>
        if m = n ∧ f.kind = bf.rep.scalar then some .bool else none
      | _, _ => none
    | _ => none

/-! ## Soundness -/

/-- The outcome is not that of code rustc rejects, and a value satisfies `P`. -/
def Sane {α} (P : α → Prop) : Res α → Prop
  | .ok a => P a
  | .error f => f ≠ .ill

theorem Sane.bind {α β} {P : α → Prop} {Q : β → Prop} {x : Res α} {k : α → Res β} (hx : Sane P x)
    (hk : ∀ a, P a → Sane Q (k a)) : Sane Q (x >>= k) := by
  cases x with
  | ok a => exact hk a hx
  | error f => exact hx

theorem Sane.mono {α} {P Q : α → Prop} {x : Res α} (hx : Sane P x) (h : ∀ a, P a → Q a) : Sane Q x := by
  cases x with
  | ok a => exact h a hx
  | error f => exact hx

theorem Sane.ne {α} {P : α → Prop} {x : Res α} (hx : Sane P x) : x ≠ .error .ill := by
  intro h; subst h; exact hx rfl

/-- The variables have the types the context says. -/
def LookTyped (F : Sig) (sch : Schema) (Γ : TCtx) (lk : Look) : Prop :=
  (∀ n t, Γ.field n = some t → ∃ v, lk.field n = some v ∧ Belongs F sch false t v) ∧
  (∀ n t, Γ.input n = some t → ∃ v, lk.input n = some v ∧ Belongs F sch false t v)

variable {F : Sig} {sch : Schema}

theorem ht_int {k : Scalar} {n : Int} : Belongs F sch false (.int k) (.int ⟨k, n⟩) :=
  .int (fun h => by cases h)

theorem ht_int' {i : CInt} : Belongs F sch false (.int i.kind) (.int i) := ht_int

theorem inv_int {k : Scalar} {v : Val} (h : Belongs F sch false (.int k) v) : ∃ n, v = .int ⟨k, n⟩ := by
  cases h; exact ⟨_, rfl⟩

theorem inv_bool {v : Val} (h : Belongs F sch false .bool v) : ∃ b, v = .bool b := by
  cases h; exact ⟨_, rfl⟩

theorem liftC_arith {P : CInt → Prop} {oc : Bool} {k : Scalar} {n : Int} (h : ∀ m, P ⟨k, m⟩) :
    Sane P (liftC (CInt.arith oc k n)) := by
  unfold CInt.arith
  split
  · exact h _
  · split
    · exact fun h => by cases h
    · exact h _

theorem shift_safe {P : CInt → Prop} {oc l : Bool} {a b : CInt} (h : ∀ m, P ⟨a.kind, m⟩) :
    Sane P (rtShift oc l a b) := by
  unfold rtShift CInt.shiftAmount
  split
  · simp only [liftC]; cases l
    · exact h _
    · exact h _
  · cases oc
    · simp only [liftC]; cases l
      · exact h _
      · exact h _
    · exact fun h => by cases h

/-- Arithmetic on two numbers of one kind. -/
theorem arith_safe {k : Scalar} {l r : Val} (hl : Belongs F sch false (.int k) l)
    (hr : Belongs F sch false (.int k) r) {f : CInt → CInt → CRes CInt}
    (hf : ∀ a b, Sane (fun c => c.kind = k) (liftC (f ⟨k, a⟩ ⟨k, b⟩))) :
    Sane (Belongs F sch false (.int k))
      (do let a ← l.toInt; let b ← r.toInt; let v ← liftC (f a b); .ok (.int v)) := by
  obtain ⟨a, rfl⟩ := inv_int hl
  obtain ⟨b, rfl⟩ := inv_int hr
  simp only [Val.toInt]
  show Sane _ (liftC (f ⟨k, a⟩ ⟨k, b⟩) >>= _)
  refine Sane.bind (hf a b) fun c hc => ?_
  obtain ⟨kc, n⟩ := c
  simp only at hc
  subst hc
  exact ht_int

theorem cmp_safe {k : Scalar} {l r : Val} (hl : Belongs F sch false (.int k) l)
    (hr : Belongs F sch false (.int k) r) (f : Ordering → Bool) :
    Sane (Belongs F sch false .bool) (do let o ← rtCmp l r; .ok (.bool (f o))) := by
  obtain ⟨a, rfl⟩ := inv_int hl
  obtain ⟨b, rfl⟩ := inv_int hr
  simp only [rtCmp, Val.toInt]
  show Sane _ ((if k = k then Except.ok (compare a b) else Except.error Fault.ill) >>= _)
  rw [if_pos rfl]
  exact Belongs.bool

theorem eq_safe {t : RTy} {l r : Val} (hl : Belongs F sch false t l) (hr : Belongs F sch false t r)
    (hc : comparable sch t = true) (f : Bool → Bool) :
    Sane (Belongs F sch false .bool) (do let b ← rtEq l r; .ok (.bool (f b))) := by
  have key : ∀ b, Sane (Belongs F sch false .bool) (do let b ← (.ok b : Res Bool); .ok (.bool (f b))) :=
    fun b => Belongs.bool
  cases t with
  | int k =>
    obtain ⟨a, rfl⟩ := inv_int hl
    obtain ⟨b, rfl⟩ := inv_int hr
    simp only [rtEq, if_pos]; exact key _
  | bool =>
    obtain ⟨a, rfl⟩ := inv_bool hl
    obtain ⟨b, rfl⟩ := inv_bool hr
    exact key _
  | str => cases hl; cases hr; exact key _
  | flt d => simp [comparable] at hc
  | vec t => simp [comparable] at hc
  | opt t => simp [comparable] at hc
  | named n =>
    simp only [comparable, bodyOf] at hc
    cases hl with
    | newtype h1 h2 _ => simp [h1, h2] at hc
    | struct h1 h2 _ => simp [h1, h2] at hc
    | variant h1 h2 _ _ _ => simp [h1, h2] at hc
    | variantS h1 h2 _ _ _ => simp [h1, h2] at hc
    | enm h1 h2 h3 _ =>
      cases hr with
      | newtype g1 g2 _ => rw [h1] at g1; cases g1; simp [h2] at g2
      | struct g1 g2 _ => rw [h1] at g1; cases g1; simp [h2] at g2
      | variant g1 g2 _ _ _ => rw [h1] at g1; cases g1; simp [h2] at g2
      | variantS g1 g2 _ _ _ => rw [h1] at g1; cases g1; simp [h2] at g2
      | bits g1 g2 _ => rw [h1] at g1; cases g1; simp [h2] at g2
      | enm g1 g2 g3 _ => simp only [rtEq, if_pos]; exact key _
    | bits h1 h2 _ =>
      cases hr with
      | newtype g1 g2 _ => rw [h1] at g1; cases g1; simp [h2] at g2
      | struct g1 g2 _ => rw [h1] at g1; cases g1; simp [h2] at g2
      | variant g1 g2 _ _ _ => rw [h1] at g1; cases g1; simp [h2] at g2
      | variantS g1 g2 _ _ _ => rw [h1] at g1; cases g1; simp [h2] at g2
      | enm g1 g2 _ _ => rw [h1] at g1; cases g1; simp [h2] at g2
      | bits g1 g2 _ => simp only [rtEq, if_pos]; exact key _

theorem bitop_safe (k : Scalar) (f : Nat → Nat → Nat) (a b : Int) :
    Sane (fun c => c.kind = k) (liftC (CInt.bitop f ⟨k, a⟩ ⟨k, b⟩)) := by
  simp [CInt.bitop, liftC, Sane]

theorem div_safe (k : Scalar) (a b : Int) : Sane (fun c => c.kind = k) (liftC (CInt.div ⟨k, a⟩ ⟨k, b⟩)) := by
  simp only [CInt.div, if_pos]
  split
  · exact fun h => by cases h
  · split
    · rfl
    · exact fun h => by cases h

theorem rem_safe (k : Scalar) (a b : Int) : Sane (fun c => c.kind = k) (liftC (CInt.rem ⟨k, a⟩ ⟨k, b⟩)) := by
  simp only [CInt.rem, if_pos]
  split
  · exact fun h => by cases h
  · split
    · rfl
    · exact fun h => by cases h

theorem add_safe (oc : Bool) (k : Scalar) (a b : Int) :
    Sane (fun c => c.kind = k) (liftC (CInt.add oc ⟨k, a⟩ ⟨k, b⟩)) := by
  simp only [CInt.add, if_pos]; exact liftC_arith fun _ => rfl
theorem sub_safe (oc : Bool) (k : Scalar) (a b : Int) :
    Sane (fun c => c.kind = k) (liftC (CInt.sub oc ⟨k, a⟩ ⟨k, b⟩)) := by
  simp only [CInt.sub, if_pos]; exact liftC_arith fun _ => rfl
theorem mul_safe (oc : Bool) (k : Scalar) (a b : Int) :
    Sane (fun c => c.kind = k) (liftC (CInt.mul oc ⟨k, a⟩ ⟨k, b⟩)) := by
  simp only [CInt.mul, if_pos]; exact liftC_arith fun _ => rfl

theorem shifts_safe {oc l : Bool} {k k' : Scalar} {x y : Val} (hl : Belongs F sch false (.int k) x)
    (hr : Belongs F sch false (.int k') y) :
    Sane (Belongs F sch false (.int k))
      (do let a ← x.toInt; let b ← y.toInt; let v ← rtShift oc l a b; .ok (.int v)) := by
  obtain ⟨a, rfl⟩ := inv_int hl
  obtain ⟨b, rfl⟩ := inv_int hr
  simp only [Val.toInt]
  show Sane _ (rtShift oc l ⟨k, a⟩ ⟨k', b⟩ >>= _)
  refine Sane.bind (P := fun c => c.kind = k) (shift_safe fun m => rfl) fun c hc => ?_
  obtain ⟨kc, n⟩ := c
  simp only at hc
  subst hc
  exact ht_int

/-- The strict operators. -/
theorem rtBin_safe {oc : Bool} {op : BinOp} {a b t : RTy} {l r : Val}
    (hl : Belongs F sch false a l) (hr : Belongs F sch false b r) (ht : binTy sch op a b = some t)
    (h1 : op ≠ .or) (h2 : op ≠ .and) (h3 : op ≠ .elvis) : Sane (Belongs F sch false t) (rtBin oc op l r) := by
  have hcmp : ∀ (_ : cmpTy a b = some t)
      (f : Ordering → Bool), Sane (Belongs F sch false t) (do let o ← rtCmp l r; .ok (.bool (f o))) := by
    intro h f
    unfold cmpTy at h
    split at h
    · split at h
      · rename_i hb; subst hb; cases h; exact cmp_safe hl hr f
      · cases h
    · cases h
  have har : ∀ (_ : arithTy a b = some t)
      (f : CInt → CInt → CRes CInt) (_ : ∀ k a b, Sane (fun c => c.kind = k) (liftC (f ⟨k, a⟩ ⟨k, b⟩))),
      Sane (Belongs F sch false t) (do let a ← l.toInt; let b ← r.toInt; let v ← liftC (f a b); .ok (.int v)) := by
    intro h f hf
    unfold arithTy at h
    split at h
    · split at h
      · rename_i hb; subst hb; cases h; exact arith_safe hl hr (hf _)
      · cases h
    · cases h
  have hsh : ∀ (_ : shiftTy a b = some t) (x : Bool),
      Sane (Belongs F sch false t) (do let a ← l.toInt; let b ← r.toInt; let v ← rtShift oc x a b; .ok (.int v)) := by
    intro h x
    unfold shiftTy at h
    split at h
    · cases h; exact shifts_safe hl hr
    · cases h
  have heq : ∀ (_ : eqTy sch a b = some t) (f : Bool → Bool),
      Sane (Belongs F sch false t) (do let b ← rtEq l r; .ok (.bool (f b))) := by
    intro h f
    unfold eqTy at h
    split at h
    · rename_i hc; cases h; obtain ⟨rfl, hc⟩ := hc; exact eq_safe hl hr hc f
    · cases h
  cases op with
  | or => exact absurd rfl h1
  | and => exact absurd rfl h2
  | elvis => exact absurd rfl h3
  | shrSigned => cases ht
  | lt => exact hcmp ht _
  | gt => exact hcmp ht _
  | lte => exact hcmp ht _
  | gte => exact hcmp ht _
  | eq => exact heq ht id
  | ne => exact heq ht not
  | bitOr => exact har ht _ fun k => bitop_safe k _
  | bitAnd => exact har ht _ fun k => bitop_safe k _
  | bitXor => exact har ht _ fun k => bitop_safe k _
  | shr => exact hsh ht false
  | shl => exact hsh ht true
  | add => exact har ht _ (add_safe oc)
  | sub => exact har ht _ (sub_safe oc)
  | mul => exact har ht _ (mul_safe oc)
  | div => exact har ht _ div_safe
  | mod => exact har ht _ rem_safe

theorem rtUn_safe {oc : Bool} {op : UnOp} {t u : RTy} {v : Val} (hv : Belongs F sch false t v)
    (ht : unTy op t = some u) : Sane (Belongs F sch false u) (rtUn oc op v) := by
  cases op with
  | negate =>
    cases t <;> simp [unTy] at ht
    rename_i k
    obtain ⟨n, rfl⟩ := inv_int hv
    obtain ⟨hs, rfl⟩ := ht
    simp only [rtUn, hs, if_true]
    refine Sane.bind (P := fun c => c.kind = k) ?_ fun c hc => ?_
    · simp only [CInt.neg, hs, if_true]; exact liftC_arith fun _ => rfl
    · obtain ⟨kc, n⟩ := c
      simp only at hc; subst hc; exact ht_int
  | not =>
    cases t <;> simp [unTy] at ht
    obtain ⟨b, rfl⟩ := inv_bool hv
    subst ht
    exact Belongs.bool
  | bitNot =>
    cases t <;> simp [unTy] at ht
    obtain ⟨n, rfl⟩ := inv_int hv
    subst ht
    exact ht_int

theorem castSrc_safe {src : CastSrc} {t : RTy} {k : Scalar} {v : Val} (hv : Belongs F sch false t v)
    (hk : castKind sch src t = some k) : Sane (fun i : CInt => i.kind = k) (rtCastSrc src v) := by
  cases src with
  | plain =>
    cases t <;> simp [castKind] at hk
    obtain ⟨n, rfl⟩ := inv_int hv
    exact hk
  | enum_ =>
    cases t with
    | named n =>
      simp only [castKind, bodyOf] at hk
      split at hk
      · rename_i m en hb
        split at hk
        · rename_i hm
          subst hm
          cases hk
          cases hv with
          | enm g1 g2 g3 _ =>
            simp only [g1, Option.map_some, Option.some.injEq] at hb
            rw [g2] at hb
            cases hb
            rfl
          | newtype g1 g2 _ => simp [g1, g2] at hb
          | struct g1 g2 _ => simp [g1, g2] at hb
          | variant g1 g2 _ _ _ => simp [g1, g2] at hb
          | variantS g1 g2 _ _ _ => simp [g1, g2] at hb
          | bits g1 g2 _ => simp [g1, g2] at hb
        · cases hk
      · cases hk
    | _ => simp [castKind] at hk
  | bitfield =>
    cases t with
    | named n =>
      simp only [castKind, bodyOf] at hk
      split at hk
      · rename_i m en hb
        split at hk
        · rename_i hm
          subst hm
          cases hk
          cases hv with
          | bits g1 g2 _ =>
            simp only [g1, Option.map_some, Option.some.injEq] at hb
            rw [g2] at hb
            cases hb
            rfl
          | newtype g1 g2 _ => simp [g1, g2] at hb
          | struct g1 g2 _ => simp [g1, g2] at hb
          | variant g1 g2 _ _ _ => simp [g1, g2] at hb
          | variantS g1 g2 _ _ _ => simp [g1, g2] at hb
          | enm g1 g2 _ _ => simp [g1, g2] at hb
        · cases hk
      · cases hk
    | _ => simp [castKind] at hk

theorem castTo_safe {ty : CastTy} {t : RTy} (ht : castTo ty = some t) (i : CInt) :
    Sane (Belongs F sch false t) (rtCastTo i ty) := by
  cases ty with
  | scalar k => cases ht; exact ht_int
  | other => cases ht

theorem look_safe {o : Option RTy} {w : Option Val} {t : RTy} (h : o = some t)
    (hl : ∀ t, o = some t → ∃ v, w = some v ∧ Belongs F sch false t v) : Sane (Belongs F sch false t) (optRes w) := by
  obtain ⟨v, rfl, hv⟩ := hl t h
  exact hv

theorem intsOf_safe {k : Scalar} : ∀ {vs : List Val}, (∀ v ∈ vs, Belongs F sch false (.int k) v) →
    Sane (fun _ => True) (intsOf vs)
  | [], _ => by simp [intsOf, Sane]; trivial
  | v :: vs, h => by
    obtain ⟨n, rfl⟩ := inv_int (h v (by simp))
    have ih := intsOf_safe (vs := vs) fun v hv => h v (by simp [hv])
    unfold intsOf at ih ⊢
    rw [List.mapM_cons]
    simp only [Val.toInt, Except.map]
    show Sane _ (List.mapM _ vs >>= _)
    exact ih.bind fun _ _ => trivial

theorem liftC_ne {α} {x : CRes α} (h : x ≠ .error .mismatch) : Sane (fun _ => True) (liftC x) := by
  cases x with
  | ok a => trivial
  | error f => cases f with
    | mismatch => exact absurd rfl h
    | panic => exact fun h => by cases h

theorem sumFn_ne (oc : Bool) : ∀ (xs : List Int) (acc : Int),
    (xs.foldlM (fun acc x => CInt.arith oc .u64 (acc + Scalar.u64.wrap x) |>.map CInt.val) acc)
      ≠ (.error .mismatch : CRes Int)
  | [], acc => by intro h; cases h
  | x :: xs, acc => by
    rw [List.foldlM_cons]
    cases h : CInt.arith oc .u64 (acc + Scalar.u64.wrap x) with
    | ok c => exact sumFn_ne oc xs c.val
    | error f =>
      have hf : f = .panic := by
        unfold CInt.arith at h
        split at h
        · cases h
        · split at h
          · cases h; rfl
          · cases h
      subst hf
      intro h; cases h

theorem inv_named_bits {n : String} {m : String} {bf : BitfieldDecl} {v : Val}
    (hb : bodyOf sch n = some (.repr (.bitfield m bf))) (h : Belongs F sch false (.named n) v) :
    ∃ x, v = .bits n ⟨bf.rep.scalar, x⟩ := by
  unfold bodyOf at hb
  cases h with
  | bits g1 g2 _ =>
    simp only [g1, Option.map_some, Option.some.injEq] at hb
    rw [g2] at hb
    cases hb
    exact ⟨_, rfl⟩
  | newtype g1 g2 _ => simp [g1, g2] at hb
  | struct g1 g2 _ => simp [g1, g2] at hb
  | variant g1 g2 _ _ _ => simp [g1, g2] at hb
  | variantS g1 g2 _ _ _ => simp [g1, g2] at hb
  | enm g1 g2 _ _ => simp [g1, g2] at hb

theorem bodyOf_some {n : String} {b : Body} (h : bodyOf sch n = some b) :
    ∃ d, sch.find n = some d ∧ d.body = b := by
  unfold bodyOf at h
  cases hf : sch.find n with
  | none => simp [hf] at h
  | some d => exact ⟨d, rfl, by simpa [hf] using h⟩

theorem obind_some {α β} {x : Option α} {f : α → Option β} {b : β} (h : (x >>= f) = some b) :
    ∃ a, x = some a ∧ f a = some b := by
  cases x with
  | none => cases h
  | some a => exact ⟨a, rfl, h⟩

theorem bool_ok {α} {P : α → Prop} {v : Val} (hv : Belongs F sch false .bool v) {k : Bool → Res α}
    (hk : ∀ b, Sane P (k b)) : Sane P (v.toBool >>= k) := by
  obtain ⟨b, rfl⟩ := inv_bool hv
  exact hk b

theorem unary_plain {oc : Bool} {lk : Look} {op : UnOp} {e : Expr} (he : ∀ s x t, e ≠ .cast s x t) :
    runE oc lk (.unary op e) = (runE oc lk e >>= rtUn oc op) := by
  cases e <;> first | exact absurd rfl (he _ _ _) | rfl

theorem unTy_plain {oc : Bool} {Γ : TCtx} {op : UnOp} {e : Expr} (he : ∀ s x t, e ≠ .cast s x t) :
    eTy sch oc Γ (.unary op e) = (eTy sch oc Γ e >>= unTy op) := by
  cases e <;> first | exact absurd rfl (he _ _ _) | rfl

/-- **Soundness of the type rules.** An expression with a type never goes wrong: evaluating it does not
end in `ill`, and a value it gives is of its type. -/
theorem eTy_sound {oc : Bool} {Γ : TCtx} {lk : Look} (hlk : LookTyped F sch Γ lk) :
    ∀ (e : Expr) (t : RTy), eTy sch oc Γ e = some t → Sane (Belongs F sch false t) (runE oc lk e)
  | .binary op l r, t, h0 => by
    simp only [eTy] at h0
    obtain ⟨a, ha, h1⟩ := obind_some h0
    obtain ⟨b, hb, h⟩ := obind_some h1
    clear h0 h1
    have ihl := eTy_sound hlk l _ ha
    have ihr := eTy_sound hlk r _ hb
    by_cases h1 : op = .or
    · subst h1
      simp only [binTy] at h
      split at h
      · rename_i hab
        obtain ⟨rfl, rfl⟩ := hab
        cases h
        simp only [runE, evalE]
        refine ihl.bind fun v hv => bool_ok hv fun x => ?_
        cases x
        · exact ihr.bind fun w hw => bool_ok hw fun y => Belongs.bool
        · exact Belongs.bool
      · cases h
    by_cases h2 : op = .and
    · subst h2
      simp only [binTy] at h
      split at h
      · rename_i hab
        obtain ⟨rfl, rfl⟩ := hab
        cases h
        simp only [runE, evalE]
        refine ihl.bind fun v hv => bool_ok hv fun x => ?_
        cases x
        · exact Belongs.bool
        · exact ihr.bind fun w hw => bool_ok hw fun y => Belongs.bool
      · cases h
    by_cases h3 : op = .elvis
    · subst h3
      simp only [binTy] at h
      split at h
      · rename_i hab
        subst hab
        cases h
        simp only [runE, evalE]
        refine ihl.bind fun v hv => ihr.bind fun w hw => ?_
        cases hv with
        | none => exact hw
        | some hx => exact hx
      · cases h
    have hs : op ≠ .shrSigned := by rintro rfl; cases h
    have he : runE oc lk (.binary op l r) = (runE oc lk l >>= fun a => runE oc lk r >>= fun b => rtBin oc op a b) := by
      cases op <;> simp_all [runE, evalE]
    rw [he]
    exact ihl.bind fun v hv => ihr.bind fun w hw => rtBin_safe hv hw h h1 h2 h3
  | .unary op e, t, h0 => by
    by_cases hc : ∃ s x ty, e = .cast s x ty
    · obtain ⟨s, x, ty, rfl⟩ := hc
      simp only [eTy] at h0
      obtain ⟨a, ha, h1⟩ := obind_some h0
      obtain ⟨k, hk, h2⟩ := obind_some h1
      obtain ⟨u, hu, h⟩ := obind_some h2
      clear h0 h1 h2
      cases u with
      | int ku =>
        simp only [runE, evalE, if_true]
        refine (eTy_sound hlk x _ ha).bind fun v hv => (castSrc_safe hv hk).bind fun i hi => ?_
        have hiv : Belongs F sch false (.int k) (.int i) := by
          obtain ⟨ki, n⟩ := i
          simp only at hi; subst hi; exact ht_int
        refine (rtUn_safe (oc := oc) hiv hu).bind fun w hw => ?_
        obtain ⟨m, rfl⟩ := inv_int hw
        exact castTo_safe h _
      | _ => cases h
    · have hc' : ∀ s x t, e ≠ .cast s x t := fun s x t he => hc ⟨s, x, t, he⟩
      rw [unTy_plain hc'] at h0
      rw [unary_plain hc']
      obtain ⟨a, ha, h⟩ := obind_some h0
      exact (eTy_sound hlk e _ ha).bind fun v hv => rtUn_safe hv h
  | .cast s x ty, t, h0 => by
    simp only [eTy] at h0
    obtain ⟨a, ha, h1⟩ := obind_some h0
    obtain ⟨k, hk, h⟩ := obind_some h1
    simp only [runE, evalE]
    exact (eTy_sound hlk x _ ha).bind fun v hv => (castSrc_safe hv hk).bind fun i _ => castTo_safe h i
  | .index _ _, t, h => by cases h
  | .enumAccess en va value, t, h => by
    simp only [eTy] at h
    simp only [runE, evalE]
    split at h
    · rename_i m d r hb hr
      simp only [hr]
      split at h
      · rename_i hc
        obtain ⟨rfl, h2, h3⟩ := hc
        cases h
        obtain ⟨dd, hd, hdb⟩ := bodyOf_some hb
        obtain ⟨rk, rv⟩ := r
        simp only at h2 h3
        subst h3
        exact Belongs.enm hd hdb h2 (fun h => by cases h)
      · cases h
    · cases h
  | .int v, t, h => by cases h; exact ht_int'
  | .constRef n _, t, h => look_safe (w := lk.input n) h fun t ht => hlk.2 n t ht
  | .inputRef n, t, h => look_safe (w := lk.input n) h fun t ht => hlk.2 n t ht
  | .fieldRef n, t, h => look_safe (w := lk.field n) h fun t ht => hlk.1 n t ht
  | .str s, t, h => by
    cases h
    refine Belongs.vec fun v hv => ?_
    obtain ⟨b, _, rfl⟩ := List.mem_map.1 hv
    exact ht_int
  | .ternary c x y, t, h0 => by
    simp only [eTy] at h0
    obtain ⟨a, ha, h1⟩ := obind_some h0
    obtain ⟨b, hb, h2⟩ := obind_some h1
    obtain ⟨d, hd, h⟩ := obind_some h2
    clear h0 h1 h2
    split at h
    · rename_i hc
      obtain ⟨rfl, rfl⟩ := hc
      cases h
      simp only [runE, evalE]
      refine (eTy_sound hlk c _ ha).bind fun v hv => bool_ok hv fun q => ?_
      cases q
      · exact eTy_sound hlk y _ hd
      · exact eTy_sound hlk x _ hb
    · cases h
  | .bool b, t, h => by cases h; exact Belongs.bool
  | .len fixed e, t, h => by
    simp only [runE, evalE, lenFn]
    cases fixed with
    | some n => cases h; exact ht_int
    | none =>
      simp only [eTy] at h
      obtain ⟨a, ha, h1⟩ := obind_some h
      refine (eTy_sound hlk e _ ha).bind fun v hv => ?_
      cases hv <;> simp only at h1 <;> first | cases h1; exact ht_int | cases h1
  | .blen _, t, h => by cases h
  | .sum e, t, h0 => by
    simp only [eTy] at h0
    obtain ⟨a, ha, h⟩ := obind_some h0
    simp only [runE, evalE]
    refine (eTy_sound hlk e _ ha).bind fun v hv => ?_
    split at h
    · cases h
      cases hv with
      | vec hvs =>
        simp only
        refine (intsOf_safe hvs).bind fun xs _ => ?_
        exact (liftC_ne (sumFn_ne oc xs 0)).bind fun _ _ => ht_int
    · cases h
  | .bits e, t, h0 => by
    simp only [eTy] at h0
    obtain ⟨a, ha, h⟩ := obind_some h0
    simp only [runE, evalE]
    refine (eTy_sound hlk e _ ha).bind fun v hv => ?_
    split at h
    · rename_i hc
      subst hc
      cases h
      obtain ⟨n, rfl⟩ := inv_int hv
      exact ht_int
    · cases h
  | .pad p b, t, h0 => by
    simp only [eTy] at h0
    obtain ⟨a, ha, h1⟩ := obind_some h0
    obtain ⟨d, hd, h⟩ := obind_some h1
    clear h0 h1
    simp only [runE, evalE]
    refine (eTy_sound hlk b _ hd).bind fun v hv => (eTy_sound hlk p _ ha).bind fun w hw => ?_
    split at h
    · rename_i hc
      obtain ⟨rfl, rfl⟩ := hc
      cases h
      obtain ⟨n, rfl⟩ := inv_int hv
      obtain ⟨m, rfl⟩ := inv_int hw
      simp only [Val.toU64]
      refine (liftC_ne (x := padFn m.toNat n.toNat) ?_).bind fun _ _ => ht_int
      unfold padFn
      split
      · intro h; cases h
      · split <;> (intro h; cases h)
    · cases h
  | .member e f value, t, h0 => by
    simp only [eTy] at h0
    obtain ⟨a, ha, h⟩ := obind_some h0
    simp only [runE, evalE]
    refine (eTy_sound hlk e _ ha).bind fun v hv => ?_
    split at h
    · rename_i n
      split at h
      · rename_i m bf c hb hcv
        split at h
        · rename_i hc
          obtain ⟨rfl, hk⟩ := hc
          cases h
          obtain ⟨x, rfl⟩ := inv_named_bits hb hv
          simp only [hcv]
          obtain ⟨ck, cv⟩ := c
          simp only at hk
          subst hk
          exact (bitop_safe bf.rep.scalar _ x cv).bind fun _ _ => Belongs.bool
        · cases h
      · cases h
    · cases h
termination_by e => sizeOf e
decreasing_by all_goals (subst_vars; simp; try omega)

end Verif
