import Verif.RustTypes
import Verif.ExprLemmas
import Verif.Props.Repr
/-!
# Decoded values have the declared type

Lemmas for `Verif.Props.decoded_value_has_declared_type`.
-/
namespace Verif.Dec
open Verif

variable {F : Sig} {sch : Schema} {r : Bool}

/-- A reader that only returns values with `P`. -/
def Gives {α} (P : α → Prop) (x : Res (α × Bytes)) : Prop := ∀ a rest, x = .ok (a, rest) → P a

theorem primOfBytes_typed (p : Prim) (bs : Bytes) (hl : bs.length = p.size) :
    Belongs F sch r p.rust (primOfBytes p bs) := by
  cases p with
  | bool => exact .bool
  | f32 =>
    refine .flt fun _ => ?_
    have h := leNat_lt bs.reverse
    rw [List.length_reverse, hl] at h
    exact h
  | f64 =>
    refine .flt fun _ => ?_
    have h := leNat_lt bs.reverse
    rw [List.length_reverse, hl] at h
    exact h
  | scalar s => exact .int fun _ => bytesInt_inRange _ _

theorem readExact_ok {n : Nat} {bs raw rest : Bytes} (h : readExact n bs = .ok (raw, rest)) :
    raw.length = n := by
  unfold readExact at h
  split at h
  · cases h
  · rename_i hlt
    cases h
    simp
    omega

theorem decPrim_typed (p : Prim) (bs : Bytes) : Gives (Belongs F sch r p.rust) (decPrim p bs) := by
  intro v rest h
  obtain ⟨⟨raw, r'⟩, hr, h⟩ := ok_of_bind h
  cases h
  exact primOfBytes_typed p raw (readExact_ok hr)

/-- `from_repr` gives a value of the type it belongs to. -/
theorem ofRepr_typed {t : ReprTy} {d : Decl} {x : Int} {v : Val} (hf : sch.find t.name = some d)
    (hb : d.body = .repr t) (ha : alignedRepr d t = true) (hx : t.rep.scalar.InRange x)
    (h : ofRepr t x = .ok v) : Belongs F sch r (.named t.name) v := by
  cases t with
  | enum n en =>
    simp only [ofRepr] at h
    cases he : en.fromRepr x with
    | none => simp [he] at h
    | some e =>
      simp only [he] at h
      cases h
      simp only [alignedRepr, Bool.and_eq_true, decide_eq_true_eq] at ha
      exact .enm hf hb (Props.enum_from_then_to en ha.2 x e he) fun _ => hx
  | bitfield n bf =>
    simp only [ofRepr] at h
    cases he : bf.fromRepr x with
    | none => simp [he] at h
    | some y =>
      simp only [he] at h
      cases h
      have hy : y = x := by
        unfold BitfieldDecl.fromRepr at he
        split at he
        · cases he
        · exact (Option.some.inj he).symm
      subst hy
      exact .bits hf hb fun _ => hx

theorem decRepr_typed {t : ReprTy} {d : Decl} (hf : sch.find t.name = some d)
    (hb : d.body = .repr t) (ha : alignedRepr d t = true) (bs : Bytes) :
    Gives (Belongs F sch r (.named t.name)) (decRepr t bs) := by
  intro v rest h
  obtain ⟨⟨raw, r'⟩, hr, h⟩ := ok_of_bind h
  obtain ⟨w, hw, h⟩ := ok_of_bind h
  cases h
  exact ofRepr_typed hf hb ha (bytesInt_inRange _ _) hw

theorem chunksN_length (size : Nat) : ∀ (n : Nat) (bs : Bytes), n * size ≤ bs.length →
    ∀ c ∈ chunksN size n bs, c.length = size
  | 0, _, _ => by simp [chunksN]
  | n + 1, bs, h => by
    intro c hc
    have hs : size ≤ bs.length := by rw [Nat.succ_mul] at h; omega
    simp only [chunksN, List.mem_cons] at hc
    rcases hc with rfl | hc
    · simp; omega
    · exact chunksN_length size n (bs.drop size) (by rw [Nat.succ_mul] at h; simp; omega) c hc

theorem chunksExact_length (size : Nat) (bs : Bytes) : ∀ c ∈ chunksExact size bs, c.length = size :=
  chunksN_length size _ bs (Nat.div_mul_le_self _ _)

theorem decPrimArray_typed (oc : Bool) (p : Prim) (n : Option Nat) (bs : Bytes) :
    Gives (Belongs F sch r (.vec p.rust)) (decPrimArray oc p n bs) := by
  intro v rest h
  unfold decPrimArray at h
  split at h
  · cases h
  · obtain ⟨⟨raw, r'⟩, hr, h⟩ := ok_of_bind h
    cases h
    refine .vec fun v hv => ?_
    obtain ⟨c, hc, rfl⟩ := List.mem_map.1 hv
    exact primOfBytes_typed p c (chunksExact_length _ _ c hc)

theorem mapM_mem {α β} {f : α → Res β} : ∀ {l : List α} {out : List β}, l.mapM f = .ok out →
    ∀ b ∈ out, ∃ a ∈ l, f a = .ok b
  | [], out, h => by
    simp only [List.mapM_nil] at h
    cases h; simp
  | a :: l, out, h => by
    rw [List.mapM_cons] at h
    obtain ⟨b, hb, h⟩ := ok_of_bind h
    obtain ⟨bs, hbs, h⟩ := ok_of_bind h
    cases h
    intro c hc
    rcases List.mem_cons.1 hc with rfl | hc
    · exact ⟨a, by simp, hb⟩
    · obtain ⟨a', ha', h'⟩ := mapM_mem hbs c hc
      exact ⟨a', by simp [ha'], h'⟩

theorem decReprArray_typed {oc : Bool} {t : ReprTy} {d : Decl} (hf : sch.find t.name = some d)
    (hb : d.body = .repr t) (ha : alignedRepr d t = true) (n : Option Nat) (bs : Bytes) :
    Gives (Belongs F sch r (.vec (.named t.name))) (decReprArray oc t n bs) := by
  intro v rest h
  unfold decReprArray at h
  obtain ⟨⟨raw, r'⟩, hr, h⟩ := ok_of_bind h
  obtain ⟨vs, hvs, h⟩ := ok_of_bind h
  cases h
  refine .vec fun v hv => ?_
  obtain ⟨c, hc, hcv⟩ := mapM_mem hvs v hv
  exact ofRepr_typed hf hb ha (bytesInt_inRange _ _) hcv

theorem decN_all {P : Val → Prop} {f : Bytes → Res (Val × Bytes)} (hf : ∀ bs, Gives P (f bs)) :
    ∀ (n : Nat) (bs : Bytes), Gives (fun vs => ∀ v ∈ vs, P v) (decN f n bs)
  | 0, bs => by intro vs rest h; cases h; simp
  | n + 1, bs => by
    intro vs rest h
    obtain ⟨⟨v, b1⟩, hv, h⟩ := ok_of_bind h
    obtain ⟨⟨ws, b2⟩, hw, h⟩ := ok_of_bind h
    cases h
    intro x hx
    rcases List.mem_cons.1 hx with rfl | hx
    · exact hf _ _ _ hv
    · exact decN_all hf n b1 _ _ hw x hx

theorem decAll_all {P : Val → Prop} {f : Bytes → Res (Val × Bytes)} (hf : ∀ bs, Gives P (f bs)) :
    ∀ (n : Nat) (bs : Bytes), Gives (fun vs => ∀ v ∈ vs, P v) (decAll f n bs) := by
  intro n
  induction n with
  | zero =>
    intro bs vs rest h
    unfold decAll at h
    split at h
    · cases h; simp
    · cases h
  | succ n ih =>
    intro bs vs rest h
    unfold decAll at h
    split at h
    · cases h; simp
    · simp only at h
      obtain ⟨⟨v, b1⟩, hv, h⟩ := ok_of_bind h
      simp only at h
      split at h
      · obtain ⟨⟨ws, b2⟩, hw, h⟩ := ok_of_bind h
        cases h
        intro x hx
        rcases List.mem_cons.1 hx with rfl | hx
        · exact hf _ _ _ hv
        · exact ih b1 _ _ hw x hx
      · cases h

theorem decUntil_all {P : Val → Prop} {f : Bytes → Res (Val × Bytes)} (hf : ∀ bs, Gives P (f bs))
    (t : Bytes) : ∀ (n : Nat) (bs : Bytes), Gives (fun vs => ∀ v ∈ vs, P v) (decUntil f t n bs) := by
  intro n
  induction n with
  | zero =>
    intro bs vs rest h
    unfold decUntil at h
    split at h
    · cases h; simp
    · split at h
      · cases h
      · split at h
        · cases h; simp
        · cases h
  | succ n ih =>
    intro bs vs rest h
    unfold decUntil at h
    split at h
    · cases h; simp
    · split at h
      · cases h
      · split at h
        · cases h; simp
        · simp only at h
          obtain ⟨⟨v, b1⟩, hv, h⟩ := ok_of_bind h
          simp only at h
          split at h
          · obtain ⟨⟨ws, b2⟩, hw, h⟩ := ok_of_bind h
            cases h
            intro x hx
            rcases List.mem_cons.1 hx with rfl | hx
            · exact hf _ _ _ hv
            · exact ih b1 _ _ hw x hx
          · cases h

/-- What the outside hands back has the type it is declared with. -/
structure ExtTyped (F : Sig) (sch : Schema) (r : Bool) (X : Ext) : Prop where
  call : ∀ n vs bs, Gives (Belongs F sch r (.named n)) (X.call n vs bs)
  foreign : ∀ n vs bs, Gives (Belongs F sch r (F.foreignTy n)) (X.foreign n vs bs)

theorem aligned_repr_of_find (hs : alignedSchema sch = true) {n : String} {t : ReprTy}
    (h : (sch.find n).map (·.body) = some (.repr t)) (hn : t.name = n) :
    ∃ d, sch.find t.name = some d ∧ d.body = .repr t ∧ alignedRepr d t = true := by
  subst hn
  cases hf : sch.find t.name with
  | none => simp [hf] at h
  | some d =>
    simp only [hf, Option.map_some, Option.some.injEq] at h
    refine ⟨d, rfl, h, ?_⟩
    have := List.all_eq_true.1 hs d (by exact List.mem_of_find?_eq_some hf)
    simpa [alignedDecl, h] using this

theorem alignedElem_repr {el : LTy} {t : ReprTy} (h : alignedElem sch el = true)
    (hr : el.resolved = .repr t) :
    ∃ n args, el = .ref n false (.repr t) args ∧ (sch.find n).map (·.body) = some (.repr t) ∧ t.name = n := by
  cases el with
  | prim p => simp [LTy.resolved] at hr
  | array e l => simp [LTy.resolved] at hr
  | ref n f rs args =>
    simp only [LTy.resolved] at hr
    subst hr
    cases f with
    | true => simp [alignedElem, LTy.resolved] at h
    | false =>
      simp only [alignedElem, LTy.resolved, Bool.and_eq_true, decide_eq_true_eq] at h
      exact ⟨n, args, rfl, h.1, h.2⟩

theorem decLeaf_typed {X : Ext} (hs : alignedSchema sch = true) (hX : ExtTyped F sch r X) (env : Env) :
    ∀ (ty : LTy), alignedTy sch ty = true → ∀ bs, Gives (Belongs F sch r (ty.rust F)) (decLeaf X env ty bs)
  | .prim p, _, bs => by
    simp only [decLeaf]; exact decPrim_typed p bs
  | .ref n foreign rs args, _, bs => by
    intro v rest h
    simp only [decLeaf] at h
    obtain ⟨vs, _, h⟩ := ok_of_bind h
    cases foreign with
    | true => exact hX.foreign n vs bs _ _ h
    | false => exact hX.call n vs bs _ _ h
  | .array el len, ha, bs => by
    have hel : alignedTy sch el = true := by
      simp only [alignedTy, Bool.and_eq_true] at ha; exact ha.1
    have ih := decLeaf_typed hs hX env el hel
    intro v rest h
    simp only [LTy.rust]
    cases len with
    | term e =>
      simp only [decLeaf] at h
      obtain ⟨tv, _, h⟩ := ok_of_bind h
      obtain ⟨t, _, h⟩ := ok_of_bind h
      obtain ⟨⟨vs, b⟩, hv, h⟩ := ok_of_bind h
      cases h
      exact .vec (decUntil_all ih t _ _ _ _ hv)
    | fixed e =>
      have hal : alignedElem sch el = true := by
        simp only [alignedTy, Bool.and_eq_true] at ha; exact ha.2
      simp only [decLeaf] at h
      obtain ⟨lv, _, h0⟩ := ok_of_bind h
      clear h
      cases hr : el.resolved with
      | prim p =>
        simp only [hr] at h0
        obtain ⟨n, _, h1⟩ := ok_of_bind h0
        clear h0
        have : el = .prim p := by simpa [alignedElem, hr] using hal
        subst this
        exact decPrimArray_typed _ p _ _ _ _ h1
      | repr t =>
        simp only [hr] at h0
        obtain ⟨n, _, h1⟩ := ok_of_bind h0
        clear h0
        obtain ⟨m, args, rfl, hf, hm⟩ := alignedElem_repr hal hr
        obtain ⟨d, g1, g2, g3⟩ := aligned_repr_of_find hs hf hm
        simp only [LTy.rust, Bool.false_eq_true, if_false]
        rw [← hm]
        exact decReprArray_typed g1 g2 g3 _ _ _ _ h1
      | other =>
        simp only [hr] at h0
        obtain ⟨n, _, h⟩ := ok_of_bind h0
        obtain ⟨⟨vs, b⟩, hv, h⟩ := ok_of_bind h
        cases h
        exact .vec (decN_all ih _ _ _ _ hv)
    | unbounded =>
      have hal : alignedElem sch el = true := by
        simp only [alignedTy, Bool.and_eq_true] at ha; exact ha.2
      simp only [decLeaf] at h
      cases hr : el.resolved with
      | prim p =>
        simp only [hr] at h
        have : el = .prim p := by simpa [alignedElem, hr] using hal
        subst this
        exact decPrimArray_typed _ p _ _ _ _ h
      | repr t =>
        simp only [hr] at h
        obtain ⟨m, args, rfl, hf, hm⟩ := alignedElem_repr hal hr
        obtain ⟨d, h1, h2, h3⟩ := aligned_repr_of_find hs hf hm
        simp only [LTy.rust, Bool.false_eq_true, if_false]
        rw [← hm]
        exact decReprArray_typed h1 h2 h3 _ _ _ _ h
      | other =>
        simp only [hr] at h
        obtain ⟨⟨vs, b⟩, hv, h⟩ := ok_of_bind h
        cases h
        exact .vec (decAll_all ih _ _ _ _ hv)

theorem decXforms_gives {α} {P : α → Prop} {X : Ext} {env : Env} {k : Bytes → Res (α × Bytes)}
    (hk : ∀ bs, Gives P (k bs)) : ∀ (xs : List XformUse) (bs : Bytes), Gives P (decXforms X env xs bs k)
  | [], bs => by simp only [decXforms]; exact hk bs
  | x :: xs, bs => by
    intro a rest h
    simp only [decXforms] at h
    cases hc : x.cond with
    | none =>
      simp only [hc] at h
      obtain ⟨vs, _, h⟩ := ok_of_bind h
      obtain ⟨⟨d, r'⟩, _, h⟩ := ok_of_bind h
      obtain ⟨⟨a', _⟩, ha, h⟩ := ok_of_bind h
      cases h
      exact decXforms_gives hk xs d _ _ ha
    | some e =>
      simp only [hc] at h
      obtain ⟨c, _, h⟩ := ok_of_bind h
      obtain ⟨b, _, h⟩ := ok_of_bind h
      cases b with
      | true =>
        simp only [if_true] at h
        obtain ⟨vs, _, h⟩ := ok_of_bind h
        obtain ⟨⟨d, r'⟩, _, h⟩ := ok_of_bind h
        obtain ⟨⟨a', _⟩, ha, h⟩ := ok_of_bind h
        cases h
        exact decXforms_gives hk xs d _ _ ha
      | false => exact decXforms_gives hk xs bs _ _ h

theorem decLimited_gives {α} {P : α → Prop} {X : Ext} {env : Env} {len : Option Expr}
    {k : Bytes → Res (α × Bytes)} (hk : ∀ bs, Gives P (k bs)) (bs : Bytes) :
    Gives P (decLimited X env len bs k) := by
  intro a rest h
  unfold decLimited at h
  cases len with
  | none => exact hk bs _ _ h
  | some e =>
    simp only at h
    obtain ⟨v, _, h⟩ := ok_of_bind h
    obtain ⟨n, _, h⟩ := ok_of_bind h
    obtain ⟨⟨a', _⟩, ha, h⟩ := ok_of_bind h
    cases h
    exact hk _ _ _ ha

/-- The declared fields, each made optional. -/
def opts (ts : List (String × RTy)) : List (String × RTy) := ts.map fun p => (p.1, .opt p.2)

theorem opts_append (a b : List (String × RTy)) : opts (a ++ b) = opts a ++ opts b := by simp [opts]

theorem rustFields_opts : ∀ {fs : Fields}, unconditional fs = true →
    rustFields F true fs = opts (rustFields F false fs)
  | .nil, _ => rfl
  | .pad _ _ rest, h => by
    simp only [rustFields]; exact rustFields_opts (fs := rest) h
  | .leaf a ty rest, h => by
    simp only [unconditional, Bool.and_eq_true] at h
    have hc : a.cond.isSome = false := by cases hh : a.cond <;> simp_all
    simp [rustFields, opts, hc, RTy.optional, rustFields_opts h.2]
  | .cont a len items rest, h => by
    simp only [unconditional, Bool.and_eq_true] at h
    have hc : a.cond.isSome = false := by cases hh : a.cond <;> simp_all
    simp [rustFields, hc, opts_append, rustFields_opts h.1.2, rustFields_opts h.2]

theorem rustFields_names (c : Bool) : ∀ (fs : Fields), (rustFields F c fs).map (·.1) = fs.names
  | .nil => rfl
  | .pad _ _ rest => by
    have := rustFields_names c rest
    simp only [rustFields, Fields.names, Fields.leaves] at *
    exact this
  | .leaf a ty rest => by
    have := rustFields_names c rest
    simp only [rustFields, Fields.names, Fields.leaves, List.map_cons] at *
    rw [this]
  | .cont a len items rest => by
    have h1 := rustFields_names (c || a.cond.isSome) items
    have h2 := rustFields_names c rest
    simp only [rustFields, Fields.names, Fields.leaves, List.map_append] at *
    rw [h1, h2]

theorem HasFields.somes {ts vs} (h : HasFields F sch r ts vs) :
    HasFields F sch r (opts ts) (vs.map fun p => (p.1, .opt (some p.2))) := by
  induction ts generalizing vs with
  | nil => cases h; exact .nil
  | cons p ts ih =>
    cases h with
    | cons hv ht => exact .cons (.some hv) (ih ht)

theorem HasFields.nones (ts : List (String × RTy)) :
    HasFields F sch r (opts ts) ((ts.map (·.1)).map fun n => (n, .opt none)) := by
  induction ts with
  | nil => exact .nil
  | cons p ts ih => exact .cons .none ih

theorem decCond_typed {X : Ext} {env : Env} {cond : Option Expr} {ts : List (String × RTy)}
    {k : Bytes → Res (List (String × Val) × Bytes)} (hk : ∀ bs, Gives (HasFields F sch r ts) (k bs))
    (bs : Bytes) : Gives (HasFields F sch r (if cond.isSome then opts ts else ts))
      (decCond X env cond (ts.map (·.1)) bs k) := by
  intro vs rest h
  cases cond with
  | none =>
    simp only [decCond] at h
    exact hk bs _ _ h
  | some e =>
    simp only [decCond] at h
    obtain ⟨c, _, h⟩ := ok_of_bind h
    obtain ⟨b, _, h⟩ := ok_of_bind h
    cases b with
    | true =>
      simp only [if_true] at h
      obtain ⟨⟨ws, r'⟩, hw, h⟩ := ok_of_bind h
      cases h
      simpa using HasFields.somes (hk bs _ _ hw)
    | false =>
      simp only [Bool.false_eq_true, if_false] at h
      cases h
      simpa using HasFields.nones ts

theorem leafRun_typed {X : Ext} (hs : alignedSchema sch = true) (hX : ExtTyped F sch r X) {env : Env}
    {xs : List XformUse} {ty : LTy} (hty : alignedTy sch ty = true) {name : String} (bs : Bytes) :
    Gives (HasFields F sch r [(name, ty.rust F)]) (decXforms X env xs bs fun b' => do
        let (v, r) ← decLeaf X env ty b'
        .ok ([(name, v)], r)) := by
  refine decXforms_gives (fun b => ?_) xs bs
  intro vs rest h
  obtain ⟨⟨v, r'⟩, hv, h⟩ := ok_of_bind h
  cases h
  exact .cons (decLeaf_typed hs hX env ty hty _ _ _ hv) .nil

theorem decItems_typed {X : Ext} (hs : alignedSchema sch = true) (hX : ExtTyped F sch r X) :
    ∀ (fs : Fields), alignedItems sch fs = true → ∀ env bs,
      Gives (HasFields F sch r (rustFields F false fs)) (decItems X fs env bs)
  | .nil, _, env, bs => by intro vs rest h; cases h; exact .nil
  | .pad _ e rest, ha, env, bs => by
    intro vs rst h
    simp only [decItems] at h
    obtain ⟨v, _, h⟩ := ok_of_bind h
    obtain ⟨n, _, h⟩ := ok_of_bind h
    obtain ⟨⟨_, b1⟩, _, h⟩ := ok_of_bind h
    exact decItems_typed hs hX rest ha env b1 _ _ h
  | .leaf a ty rest, ha, env, bs => by
    simp only [alignedItems, Bool.and_eq_true] at ha
    intro vs rst h
    simp only [decItems] at h
    obtain ⟨⟨us, b1⟩, hu, h⟩ := ok_of_bind h
    obtain ⟨⟨ws, b2⟩, hw, h⟩ := ok_of_bind h
    cases h
    have h1 := decCond_typed (X := X) (env := env) (cond := a.cond) (ts := [(a.name, ty.rust F)])
      (fun b => leafRun_typed hs hX (xs := a.xfs.reverse) ha.1 b) bs us b1 hu
    have h2 := decItems_typed hs hX rest ha.2 _ _ _ _ hw
    have he : rustFields F false (.leaf a ty rest) =
        (if a.cond.isSome then opts [(a.name, ty.rust F)] else [(a.name, ty.rust F)]) ++
          rustFields F false rest := by
      simp only [rustFields, Bool.false_or, RTy.optional, opts]
      cases a.cond <;> simp
    rw [he]
    exact h1.append h2
  | .cont a len items rest, ha, env, bs => by
    simp only [alignedItems, Bool.and_eq_true, Bool.or_eq_true] at ha
    intro vs rst h
    simp only [decItems] at h
    obtain ⟨⟨us, b1⟩, hu, h⟩ := ok_of_bind h
    obtain ⟨⟨ws, b2⟩, hw, h⟩ := ok_of_bind h
    cases h
    have ih := decItems_typed hs hX items ha.1.2
    have h1 := decCond_typed (X := X) (env := env) (cond := a.cond) (ts := rustFields F false items)
      (fun b => decXforms_gives (fun b' => decLimited_gives (fun b'' => ih env b'') b') a.xfs.reverse b)
      bs us b1 (by rw [rustFields_names]; exact hu)
    have h2 := decItems_typed hs hX rest ha.2 _ _ _ _ hw
    have he : rustFields F false (.cont a len items rest) =
        (if a.cond.isSome then opts (rustFields F false items) else rustFields F false items) ++
          rustFields F false rest := by
      simp only [rustFields, Bool.false_or]
      cases hc : a.cond with
      | none => simp
      | some e =>
        have hu : unconditional items = true := by
          rcases ha.1.1 with h | h
          · simp [hc] at h
          · exact h
        simp [rustFields_opts hu]
    rw [he]
    exact h1.append h2

theorem decArm_typed {X : Ext} (hs : alignedSchema sch = true) (hX : ExtTyped F sch r X) {n : String}
    {d : Decl} {len : Option Expr} {arms : List Arm} (hf : sch.find n = some d)
    (hb : d.body = .tagged len arms) {arm : Arm} (hm : arm ∈ arms) (ha : alignedArm sch arm = true)
    (bs : Bytes) : Gives (Belongs F sch r (.named n)) (decArm X n arm bs) := by
  refine decXforms_gives (fun b => ?_) _ bs
  cases hbody : arm.body with
  | leaf ty =>
    intro v rest h
    simp only at h
    obtain ⟨⟨w, r'⟩, hw, h⟩ := ok_of_bind h
    cases h
    exact .variant hf hb hm hbody
      (decLeaf_typed hs hX _ ty (by simpa [alignedArm, hbody] using ha) _ _ _ hw)
  | cont alen items =>
    intro v rest h
    simp only at h
    obtain ⟨⟨w, r'⟩, hw, h⟩ := ok_of_bind h
    cases h
    exact .variantS hf hb hm hbody
      (decLimited_gives (fun b' => decItems_typed hs hX items (by simpa [alignedArm, hbody] using ha) _ b') b _ _ hw)

theorem decArms_typed {X : Ext} (hs : alignedSchema sch = true) (hX : ExtTyped F sch r X) {n : String}
    {d : Decl} {len : Option Expr} {arms : List Arm} (hf : sch.find n = some d)
    (hb : d.body = .tagged len arms) (ha : arms.all (alignedArm sch) = true) (bs : Bytes) :
    ∀ (l : List Arm), (∀ a ∈ l, a ∈ arms) → Gives (Belongs F sch r (.named n)) (decArms X n l bs)
  | [], _ => by intro v rest h; cases h
  | arm :: l, hl => by
    have hm := hl arm (by simp)
    have hal := List.all_eq_true.1 ha arm hm
    intro v rest h
    simp only [decArms] at h
    cases hc : arm.attr.cond with
    | none =>
      simp only [hc] at h
      exact decArm_typed hs hX hf hb hm hal bs _ _ h
    | some e =>
      simp only [hc] at h
      obtain ⟨c, _, h⟩ := ok_of_bind h
      obtain ⟨b, _, h⟩ := ok_of_bind h
      cases b with
      | true => exact decArm_typed hs hX hf hb hm hal bs _ _ h
      | false => exact decArms_typed hs hX hf hb ha bs l (fun a h => hl a (by simp [h])) _ _ h

theorem decDecl_typed {X : Ext} (hs : alignedSchema sch = true) (hX : ExtTyped F sch r X) {n : String}
    {d : Decl} (hf : sch.find n = some d) (bs : Bytes) :
    Gives (Belongs F sch r (.named n)) (decDecl X d bs) := by
  have hname : d.name = n := by simpa using List.find?_some hf
  have ha := List.all_eq_true.1 hs d (by exact List.mem_of_find?_eq_some hf)
  subst hname
  unfold decDecl
  cases hb : d.body with
  | leaf cond ty =>
    have hty : alignedTy sch ty = true := by simpa [alignedDecl, hb] using ha
    intro v rest h
    simp only at h
    obtain ⟨⟨vs, r'⟩, hv, h⟩ := ok_of_bind h
    have h1 := decCond_typed (X := X) (env := Env.empty) (cond := cond) (ts := [(d.name, ty.rust F)])
      (fun b => leafRun_typed hs hX (xs := d.xfs.reverse) hty b) bs vs r' hv
    have h2 : HasFields F sch r [(d.name, (ty.rust F).optional cond.isSome)] vs := by
      simp only [RTy.optional]
      cases cond <;> simpa [opts] using h1
    cases h2 with
    | cons hx hn =>
      cases hn
      cases h
      exact .newtype hf hb hx
  | repr t =>
    have hal : alignedRepr d t = true := by simpa [alignedDecl, hb] using ha
    have htn : t.name = d.name := by
      simp only [alignedRepr, Bool.and_eq_true, decide_eq_true_eq] at hal; exact hal.1
    refine decXforms_gives (fun b => ?_) _ bs
    rw [← htn] at hf ⊢
    exact decRepr_typed hf hb hal b
  | struct len items =>
    refine decXforms_gives (fun b => ?_) _ bs
    intro v rest h
    obtain ⟨⟨vs, r'⟩, hv, h⟩ := ok_of_bind h
    cases h
    exact .struct hf hb (decLimited_gives (fun b' => decItems_typed hs hX items
      (by simpa [alignedDecl, hb] using ha) _ b') b _ _ hv)
  | tagged len arms =>
    refine decXforms_gives (fun b => ?_) _ bs
    exact decLimited_gives (fun b' => decArms_typed hs hX hf hb
      (by simpa [alignedDecl, hb] using ha) b' arms (fun a h => h)) b

/-- Foreign types hand back values of the type they are declared with. -/
def LibTyped (F : Sig) (sch : Schema) (r : Bool) (L : Lib) : Prop :=
  ∀ n vs bs v rest, L.foreign n vs bs = .ok (v, rest) → Belongs F sch r (F.foreignTy n) v

theorem specDecode_typed {L : Lib} (hs : alignedSchema sch = true) (hL : LibTyped F sch r L) :
    ∀ (fuel : Nat) (n : String) (vs : List Val) (bs : Bytes),
      Gives (Belongs F sch r (.named n)) (specDecode sch L fuel n vs bs)
  | 0, _, _, _ => by intro v rest h; cases h
  | fuel + 1, n, vs, bs => by
    intro v rest h
    unfold specDecode callDecl at h
    cases hf : sch.find n with
    | none => simp [hf] at h
    | some d =>
      simp only [hf] at h
      split at h
      · cases h
      · exact decDecl_typed hs ⟨specDecode_typed hs hL fuel, fun n vs bs v rest h => hL n vs bs v rest h⟩
          hf bs _ _ h

end Verif.Dec
