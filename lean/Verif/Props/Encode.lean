import Verif.EncodeDecl
import Verif.Props.Decode
/-!
# Generated encoders: C02, C06, C07, C08, C10, C12, C13, C16 (encoding side)
-/
namespace Verif.Props
open Verif Verif.Enc

/-- **C02, all of it that does not speak about order.** For every schema, library, declared type,
arguments and value: running the instructions the encoder generator emits gives exactly the bytes, or
exactly the failure, of the specification `specEncode`. -/
theorem encode_refines (sch : Schema) (L : Lib) (fuel : Nat) (name : String) (args : List Val) (v : Val) :
    runEncode sch L fuel name args v = specEncode sch L fuel name args v :=
  runEncode_eq sch L fuel name args v

/-- No foreign types, no transforms. -/
def noEncLib : Lib := ⟨true, fun _ _ _ => .error .ill, fun _ _ _ => .error .ill⟩

/-- Nothing outside the type itself. -/
def soloExt : Ext := ⟨true, fun _ => none, fun _ _ _ => .error .ill, fun _ _ _ => .error .ill,
  fun _ _ _ => .error .ill⟩

/-- The generated encoders at work on the schema of `Verif.Props.Decode`. -/
example : runEncode demoSchema noEncLib 2 "list" [] (.struct "list" [("n", vu8 6), ("first", .struct "item"
      [("len", vu8 2), ("flag", vu8 1), ("data", .arr [vu8 7, vu8 8]), ("opt", .opt (some (vu16 9)))])]) =
    .ok [6, 2, 1, 7, 8, 0, 9] := by rw [encode_refines]; rfl

/-! ## C06, encoding -/

/-- **C06, encoding (a).** A field whose condition is false writes nothing, whatever it holds. -/
theorem false_condition_writes_nothing (X : Ext) (env : Env) (a : FAttr) (ty : LTy) (v : Val) {e : Expr}
    (hc : a.cond = some e) (hf : ev X env e = .ok (.bool false)) : encField X env a ty v = .ok [] := by
  simp [encField, hc, hf, ok_bind, Val.toBool]

theorem encXforms_not_ok {α} {X : Ext} {env : Env} {k : Res (α × Bytes)} (hk : ∀ q, k ≠ .ok q)
    (xs : List XformUse) : ∀ q, encXforms X env xs k ≠ .ok q := by
  induction xs with
  | nil => exact hk
  | cons x xs ih =>
    have one : ∀ q, (x.args.mapM (ev X env) >>= fun vs => encXforms X env xs k >>= fun y =>
        X.xform x.name vs y.2 >>= fun out => .ok (y.1, out)) ≠ (.ok q : Res (α × Bytes)) := by
      intro q h
      obtain ⟨vs, _, h⟩ := ok_of_bind h
      obtain ⟨y, hy, h⟩ := ok_of_bind h
      exact ih _ hy
    intro q h
    cases hc : x.cond with
    | none => simp only [encXforms, hc] at h; exact one q h
    | some e =>
      simp only [encXforms, hc] at h
      obtain ⟨c, _, h⟩ := ok_of_bind h
      obtain ⟨b, _, h⟩ := ok_of_bind h
      cases b with
      | true => exact one q h
      | false => exact ih _ h

/-- **C06, encoding (b).** A stored field whose condition is true and that is absent makes encoding
fail; without transforms the failure is the null-check error. -/
theorem absent_value_is_error (X : Ext) (env : Env) (a : FAttr) (ty : LTy) {e : Expr} (hc : a.cond = some e)
    (ha : a.auto = none) (ht : ev X env e = .ok (.bool true)) :
    (∀ bs, encField X env a ty (.opt none) ≠ .ok bs) ∧
    (a.xfs = [] → encField X env a ty (.opt none) =
      .error (.err "failed null check for conditional field")) := by
  constructor
  · intro bs h
    simp only [encField, hc, ha, ht, ok_bind, Val.toBool, if_true, Option.isSome_some, Option.isNone_none,
      Bool.and_self] at h
    obtain ⟨y, hy, h⟩ := ok_of_bind h
    refine encXforms_not_ok ?_ a.xfs y hy
    intro q hq
    simp [nullCheck, err_bind] at hq
  · intro hx
    simp [encField, hc, ha, ht, hx, ok_bind, Val.toBool, nullCheck, err_bind, encXforms, missingMsg]

/-- **C06, encoding (c).** A stored field whose condition is true and that is present is written like
the unconditional field. -/
theorem present_value_is_plain (X : Ext) (env : Env) (a : FAttr) (ty : LTy) (w : Val) {e : Expr}
    (hc : a.cond = some e) (ha : a.auto = none) (ht : ev X env e = .ok (.bool true)) :
    encField X env a ty (.opt (some w)) = encField X env { a with cond := none } ty w := by
  simp [encField, hc, ha, ht, ok_bind, Val.toBool, nullCheck]

/-- **C06, encoding (d).** A container whose condition is false writes nothing: encoding goes on with
what follows it. -/
theorem false_container_writes_nothing (X : Ext) (cond : Bool) (a : FAttr) (len : Option Expr)
    (items rest : Fields) (p : Plan) (env lens : Env) {e : Expr} (hc : a.cond = some e)
    (hf : ev X env e = .ok (.bool false)) :
    ∃ env' lens', encItems X cond (.cont a len items rest) p env lens [] =
      encItems X cond rest ((planItems items p).close a.name len) env' lens' [] := by
  refine ⟨erase (nullNames items ++ setNames true items) env,
    erase (((planItems items p).close a.name len).log.drop p.log.length) lens, ?_⟩
  simp only [encItems, guarded, hc, hf, ok_bind, Val.toBool, Bool.false_eq_true, if_false, put, encFlush,
    List.nil_append]
  cases encItems X cond rest ((planItems items p).close a.name len) _ _ [] with
  | error f => rfl
  | ok q => rfl

example : runProg soloExt (genDecl itemDecl).2 (.struct "item" [("len", vu8 0), ("flag", vu8 0),
    ("data", .arr []), ("opt", .opt (some (vu16 9)))]) = .ok [0, 0] := by
  rw [runProg_genDecl _ _ _ rfl]; rfl

example : runProg soloExt (genDecl itemDecl).2 (.struct "item" [("len", vu8 0), ("flag", vu8 1),
    ("data", .arr []), ("opt", .opt none)]) = .error (.err "failed null check for conditional field") := by
  rw [runProg_genDecl _ _ _ rfl]; rfl

/-! ## C07, encoding -/

/-- Whether the arm applies: no condition, or one that is true. -/
def EApplies (X : Ext) (arm : Arm) : Prop :=
  arm.attr.cond = none ∨ ∃ e, arm.attr.cond = some e ∧ ev X Env.empty e = .ok (.bool true)

/-- Whether the arm has a condition and it is false. -/
def EPassed (X : Ext) (arm : Arm) : Prop :=
  ∃ e, arm.attr.cond = some e ∧ ev X Env.empty e = .ok (.bool false)

theorem encArms_split {X : Ext} {ty : String} {pre post : List Arm} {arm : Arm} {v : Val}
    (hpre : ∀ a ∈ pre, EPassed X a) (ha : EApplies X arm) :
    ∀ p, ∃ p', encArms X ty (pre ++ arm :: post) p v = encArm X ty arm p' v ∧
      ∀ post', encArms X ty (pre ++ arm :: post') p v = encArm X ty arm p' v := by
  induction pre with
  | nil =>
    intro p
    refine ⟨p, ?_⟩
    rcases ha with h | ⟨e, h, he⟩
    · simp [encArms, h]
    · simp [encArms, h, he, ok_bind, Val.toBool]
  | cons a pre ih =>
    intro p
    obtain ⟨e, h, he⟩ := hpre a (by simp)
    obtain ⟨p', h1, h2⟩ := ih (fun x hx => hpre x (by simp [hx])) (planArm a p)
    refine ⟨p', ?_, ?_⟩
    · simp [encArms, h, he, ok_bind, Val.toBool, h1]
    · intro post'; simp [encArms, h, he, ok_bind, Val.toBool, h2]

theorem encArm_wrong {X : Ext} {ty : String} {arm : Arm} {p : Plan} {v : Val} {n : String}
    (hn : typeName v = some ty) (hv : armOf v = some n) (hne : n ≠ arm.attr.name) :
    encArm X ty arm p v = .error (.err "mismatch betweeen condition and enum discriminant") := by
  cases v <;> simp [armOf] at hv <;> subst hv <;> simp [typeName] at hn <;> subst hn
  · cases hb : arm.body <;> simp [encArm, hb, unwrapEnum, unwrapStruct, hne, err_bind, variantMsg]
  · cases hb : arm.body <;> simp [encArm, hb, unwrapEnum, unwrapStruct, hne, err_bind, variantMsg]

/-- **C07, encoding (a).** If the value belongs to another arm than the first one that applies, encoding
it is an error. -/
theorem wrong_arm_is_error (X : Ext) (d : Decl) {pre post : List Arm} {arm : Arm} (hx : d.xfs = [])
    (hb : d.body = .tagged none (pre ++ arm :: post)) (hpre : ∀ a ∈ pre, EPassed X a) (ha : EApplies X arm)
    (v : Val) {n : String} (hv : armOf v = some n) (hne : n ≠ arm.attr.name)
    (hd : Accepts d v) :
    runDecl X d v = .error (.err "mismatch betweeen condition and enum discriminant") := by
  rw [runDecl_eq, if_pos hd]
  obtain ⟨p', h1, _⟩ := encArms_split (ty := d.name) (post := post) (v := v) hpre ha Plan.init
  simp only [encDecl, hb, hx, encXforms, checkCapacity, ok_bind, h1]
  rw [encArm_wrong hd.2 hv hne]
  rfl

/-- **C07, encoding (b).** The arms after the first one that applies do not matter. -/
theorem later_arms_do_not_matter_enc (X : Ext) (d d' : Decl) {pre post post' : List Arm} {arm : Arm}
    (hn : d'.name = d.name) (hx : d'.xfs = d.xfs)
    (hb : d.body = .tagged none (pre ++ arm :: post)) (hb' : d'.body = .tagged none (pre ++ arm :: post'))
    (hpre : ∀ a ∈ pre, EPassed X a) (ha : EApplies X arm) (v : Val) (h : Accepts d v) (h' : Accepts d' v) :
    runDecl X d v = runDecl X d' v := by
  rw [runDecl_eq, runDecl_eq, if_pos h, if_pos h']
  obtain ⟨p', h1, h2⟩ := encArms_split (ty := d.name) (post := post) (v := v) hpre ha Plan.init
  simp only [encDecl, hb, hb', hx, hn, h2]

/-- **C07, encoding (c): violated.** If no arm applies, the generated encoder reports success and writes
nothing, whatever the value; the generated decoder of the same type reports an error (`no_arm_is_error`). -/
theorem no_arm_writes_nothing (X : Ext) (d : Decl) {arms} (hx : d.xfs = []) (hb : d.body = .tagged none arms)
    (harms : ∀ a ∈ arms, EPassed X a) (v : Val) (h : Accepts d v) : runDecl X d v = .ok [] := by
  rw [runDecl_eq, if_pos h]
  have : ∀ p, encArms X d.name arms p v = .ok [] := by
    clear hb
    induction arms with
    | nil => intro p; rfl
    | cons a arms ih =>
      intro p
      obtain ⟨e, hc, he⟩ := harms a (by simp)
      simp [encArms, hc, he, ok_bind, Val.toBool, ih (fun x hx => harms x (by simp [hx]))]
  simp only [encDecl, hb, hx, encXforms, checkCapacity, ok_bind, this]

/-- `kind` given as an argument, for the tagged enum of `Verif.Props.Decode`. -/
def kindEncExt (k : Int) : Ext := { soloExt with input := fun n => if n = "kind" then some (vu8 k) else none }

/-- The hypotheses of the three theorems are met by `tagDecl`. -/
example : runDecl (kindEncExt 2) tagDecl (.variantS "t" "b" [("x", vu16 258)]) = .ok [1, 2] ∧
    runDecl (kindEncExt 1) tagDecl (.variantS "t" "b" [("x", vu16 258)]) =
      .error (.err "mismatch betweeen condition and enum discriminant") ∧
    runDecl (kindEncExt 7) tagDecl (.variantS "t" "b" [("x", vu16 258)]) = .ok [] := by
  refine ⟨?_, ?_, ?_⟩ <;> rw [runDecl_eq] <;> rfl

/-! ## C08 -/

theorem encStored_congr (n : String) (fs fs' : List (String × Val)) (as : List FAttr)
    (h : ∀ a ∈ as, a.auto = none → fs.lookup a.name = fs'.lookup a.name) :
    ∀ env, encStored (.struct n fs) as env = encStored (.struct n fs') as env := by
  induction as with
  | nil => intro env; rfl
  | cons a as ih =>
    intro env
    have ih := ih fun x hx => h x (by simp [hx])
    simp only [encStored]
    cases ha : a.auto with
    | some e => simp only [Option.isSome_some, if_true]; exact ih env
    | none =>
      simp only [Option.isSome_none, Bool.false_eq_true, if_false, fieldOf, h a (by simp) ha, ih]

/-- **C08, containers.** Two values of a container type that agree on the fields that are not calculated
have the same encoding (or fail alike): what the caller put into the calculated ones does not matter. -/
theorem calculated_value_ignored (X : Ext) (d : Decl) {len items} (hb : d.body = .struct len items)
    (n : String) (fs fs' : List (String × Val))
    (h : ∀ a ∈ items.leaves, a.auto = none → fs.lookup a.name = fs'.lookup a.name) :
    runDecl X d (.struct n fs) = runDecl X d (.struct n fs') := by
  rw [runDecl_eq, runDecl_eq]
  have hacc : Accepts d (.struct n fs) ↔ Accepts d (.struct n fs') := Iff.rfl
  have henc : encDecl X d (.struct n fs) = encDecl X d (.struct n fs') := by
    simp only [encDecl, hb, encStored_congr n fs fs' _ h]
  simp only [hacc, henc]

/-- `container { n: u8 = len(data) as u8, data: u8[n], }` -/
def autoDecl : Decl :=
  ⟨"auto", [], [], .struct none
    (.leaf ⟨"n", none, [], some (.cast .plain (.len none (.fieldRef "data")) (.scalar .u8))⟩ u8T
    (.leaf (plain "data") (.array u8T (.fixed (.fieldRef "n"))) .nil))⟩

example : runDecl soloExt autoDecl (.struct "auto" [("n", vu8 77), ("data", .arr [vu8 5, vu8 6])]) =
    .ok [2, 5, 6] := by
  rw [calculated_value_ignored soloExt autoDecl rfl "auto" _ [("n", vu8 0), ("data", .arr [vu8 5, vu8 6])]
    (by simp [Fields.leaves, plain, List.lookup]), runDecl_eq]
  rfl

theorem intBytes_u8 (m : Nat) (h : m < 256) : intBytes ⟨.u8, .big⟩ m = [UInt8.ofNat m] := by
  have h1 : Scalar.u8.toPat (m : Int) = m := by
    simp only [Scalar.toPat, Scalar.bits, Scalar.size]; omega
  show (leBytes 1 (Scalar.u8.toPat (m : Int))).reverse = _
  rw [h1]
  simp only [leBytes, Nat.mod_eq_of_lt h]
  rfl

theorem intBytes_byte (x : UInt8) : intBytes ⟨.u8, .big⟩ x.toNat = [x] := by
  rw [intBytes_u8 _ (UInt8.toNat_lt x)]; simp

/-- `tagged_enum { v: container { a: u8 = b, b: u8 = 5, }, }` -/
def leakDecl : Decl :=
  ⟨"leak", [], [], .tagged none [⟨plain "v", .cont none
    (.leaf ⟨"a", none, [], some (.fieldRef "b")⟩ u8T
    (.leaf ⟨"b", none, [], some (.int ⟨.u8, 5⟩)⟩ u8T .nil))⟩]⟩

/-- **C08, violated for arms of tagged enums.** There the generated encoder binds the calculated fields to
what the caller supplied before it calculates them, so an expression can see a supplied value: here the
first byte is the caller's `b`, although every field is calculated. -/
theorem tagged_calculated_leaks (X : Ext) (x : CInt) (hk : x.kind = .u8) (hx : 0 ≤ x.val ∧ x.val < 256) (y : Val) :
    runDecl X leakDecl (.variantS "leak" "v" [("a", y), ("b", .int x)]) = .ok [UInt8.ofNat x.val.toNat, 5] := by
  obtain ⟨k, n⟩ := x
  simp only at hk hx
  subst hk
  rw [runDecl_eq, if_pos (by exact ⟨rfl, rfl⟩)]
  obtain ⟨m, rfl⟩ : ∃ m : Nat, n = m := ⟨n.toNat, by omega⟩
  have h1 : encDecl X leakDecl (.variantS "leak" "v" [("a", y), ("b", .int ⟨.u8, m⟩)]) =
      .ok (intBytes ⟨.u8, .big⟩ m ++ intBytes ⟨.u8, .big⟩ 5) := rfl
  rw [h1]
  rw [intBytes_u8 m (by omega)]
  rfl

/-! ## C10 -/

/-- A one-byte length of the container `t`. -/
def lenOf (n t : String) : FAttr := ⟨n, none, [], some (.cast .plain (.blen t) (.scalar .u8))⟩

/-- `container { a: u8 = blen(x) as u8, b: u8 = blen(y) as u8, x: container[a] { p: u8, },
y: container[b] { q: u8, r: u8, }, }` -/
def overlapDecl : Decl :=
  ⟨"two", [], [], .struct none
    (.leaf (lenOf "a" "x") u8T
    (.leaf (lenOf "b" "y") u8T
    (.cont (plain "x") (some (.fieldRef "a")) (.leaf (plain "p") u8T .nil)
    (.cont (plain "y") (some (.fieldRef "b")) (.leaf (plain "q") u8T (.leaf (plain "r") u8T .nil)) .nil))))⟩

/-- **C10, violated.** The declared order is `a b p q r`, the lengths are 1 and 2, so the wire should hold
`1 2 p q r`; the generated encoder writes `b p a q r`. -/
theorem overlapping_lengths_out_of_order (a b p q r : UInt8) :
    runDecl soloExt overlapDecl (.struct "two" [("a", vu8 a.toNat), ("b", vu8 b.toNat), ("p", vu8 p.toNat),
      ("q", vu8 q.toNat), ("r", vu8 r.toNat)]) = .ok [2, p, 1, q, r] := by
  rw [runDecl_eq, if_pos (by exact ⟨rfl, rfl⟩)]
  have h1 : encDecl soloExt overlapDecl (.struct "two" [("a", vu8 a.toNat), ("b", vu8 b.toNat), ("p", vu8 p.toNat),
      ("q", vu8 q.toNat), ("r", vu8 r.toNat)]) = .ok (intBytes ⟨.u8, .big⟩ 2 ++ (intBytes ⟨.u8, .big⟩ p.toNat ++
        (intBytes ⟨.u8, .big⟩ 1 ++ (intBytes ⟨.u8, .big⟩ q.toNat ++ intBytes ⟨.u8, .big⟩ r.toNat)))) := rfl
  rw [h1]
  have h3 : intBytes ⟨.u8, .big⟩ 2 = [2] := rfl
  have h4 : intBytes ⟨.u8, .big⟩ 1 = [1] := rfl
  simp only [intBytes_byte, h3, h4]
  rfl

/-! ## C12, encoding -/

/-- **C12, violated by the encoder.** The container of `shortDecl` says it is two bytes long; it is written
with one, and the next field follows at once. -/
theorem short_container_not_filled (a b : UInt8) :
    runDecl soloExt shortDecl (.struct "outer" [("a", vu8 a.toNat), ("b", vu8 b.toNat)]) = .ok [a, b] := by
  rw [runDecl_eq, if_pos (by exact ⟨rfl, rfl⟩)]
  have h1 : encDecl soloExt shortDecl (.struct "outer" [("a", vu8 a.toNat), ("b", vu8 b.toNat)]) =
    .ok (intBytes ⟨.u8, .big⟩ a.toNat ++ intBytes ⟨.u8, .big⟩ b.toNat) := rfl
  rw [h1]
  simp only [intBytes_byte]
  rfl

/-! ## C13, encoding -/

/-- **C13, encoding (a).** An array `T[e]` of a primitive other than `bool`, or of an enum or bitfield:
a value whose number of elements is not `e` makes the generated encoder panic (`Fault.miscount`); nothing is returned. -/
theorem wrong_count_panics (X : Ext) (env : Env) (elem : LTy) (e : Expr) (vs : List Val) {l : Val} {n : Nat}
    (hr : (∃ p, elem.resolved = .prim p ∧ p ≠ .bool) ∨ ∃ t, elem.resolved = .repr t)
    (he : ev X env e = .ok l) (hl : asUsize l = .ok n) (hn : vs.length ≠ n) :
    encLeaf X env (.array elem (.fixed e)) (.arr vs) = .error .miscount := by
  rcases hr with ⟨p, hr, hp⟩ | ⟨t, hr⟩
  · simp only [encLeaf, he, hr, hl, ok_bind]
    unfold encPrimArray
    split
    · exact absurd rfl hp
    · simp only [elems, ok_bind, checkCount, if_neg (Ne.symm hn), err_bind]
    · simp only [elems, ok_bind, checkCount, if_neg (Ne.symm hn), err_bind]
  · simp only [encLeaf, he, hr, hl, ok_bind, encReprArray, elems, checkCount, if_neg (Ne.symm hn), err_bind]

theorem concatM_u8 : ∀ (vs : List Val) (bs : Bytes), (Val.arr vs).toBytes = some bs →
    (∀ v ∈ vs, ∃ m : Nat, m < 256 ∧ v = .int ⟨.u8, m⟩) →
    concatM (encPrim (.scalar ⟨.u8, .big⟩)) vs = .ok bs := by
  intro vs
  induction vs with
  | nil => intro bs h _; simp [Val.toBytes] at h; subst h; rfl
  | cons v vs ih =>
    intro bs h hv
    obtain ⟨m, hm, rfl⟩ := hv v (by simp)
    have hbytes : ∃ bs', (Val.arr vs).toBytes = some bs' ∧ bs = UInt8.ofNat m :: bs' := by
      simp only [Val.toBytes, List.mapM_cons] at h ⊢
      cases hm2 : List.mapM Val.byteOf vs with
      | none => rw [hm2] at h; simp [Val.byteOf] at h
      | some bs' => rw [hm2] at h; simp [Val.byteOf] at h; exact ⟨bs', rfl, h.symm⟩
    obtain ⟨bs', h1, rfl⟩ := hbytes
    simp only [concatM, ih bs' h1 (fun v hv' => hv v (by simp [hv'])), ok_bind, encPrim, numBytes,
      intBytes_u8 m hm]
    rfl

theorem encN_take {f : Val → Res Bytes} {vs : List Val} : ∀ (n i : Nat) (bs : Bytes),
    encN f (.arr vs) i n = .ok bs → i ≤ vs.length →
    i + n ≤ vs.length ∧ concatM f ((vs.drop i).take n) = .ok bs := by
  intro n
  induction n with
  | zero => intro i bs h hi; cases h; exact ⟨by omega, by simp [concatM]⟩
  | succ n ih =>
    intro i bs h hi
    simp only [encN] at h
    obtain ⟨x, hx, h⟩ := ok_of_bind h
    obtain ⟨b, hb, h⟩ := ok_of_bind h
    obtain ⟨bs', hbs, h⟩ := ok_of_bind h
    cases h
    have hlt : i < vs.length ∧ vs[i]? = some x := by
      simp only [itemOf] at hx
      cases hv : vs[i]? with
      | none => rw [hv] at hx; cases hx
      | some y =>
        rw [hv] at hx; cases hx
        refine ⟨?_, rfl⟩
        rcases Nat.lt_or_ge i vs.length with h | h
        · exact h
        · rw [List.getElem?_eq_none h] at hv; cases hv
    obtain ⟨h1, h2⟩ := ih (i + 1) bs' hbs (by omega)
    refine ⟨by omega, ?_⟩
    have hd : vs.drop i = x :: vs.drop (i + 1) := by
      rw [List.drop_eq_getElem_cons hlt.1]
      have := hlt.2
      rw [List.getElem?_eq_getElem hlt.1] at this
      rw [Option.some.inj this]
    rw [hd, List.take_succ_cons]
    simp only [concatM, hb, h2, ok_bind]

/-- **C13, encoding (b), partial.** An array `T[e]` of another element type: if the generated encoder
succeeds, the value has at least `e` elements and the bytes are those of the first `e`, in order. Missing:
more than `e` elements are cut off without an error (`longer_array_truncated`). -/
theorem other_array_elements_partial (X : Ext) (env : Env) (elem : LTy) (e : Expr) (vs : List Val) {i : CInt}
    {bs : Bytes} (hr : elem.resolved = .other) (he : ev X env e = .ok (.int i))
    (h : encLeaf X env (.array elem (.fixed e)) (.arr vs) = .ok bs) :
    i.val ≤ vs.length ∧ concatM (encLeaf X env elem) (vs.take i.val.toNat) = .ok bs := by
  simp only [encLeaf, he, hr, ok_bind, rangeCount, Val.toInt] at h
  obtain ⟨h1, h2⟩ := encN_take _ _ _ h (Nat.zero_le _)
  exact ⟨by omega, by simpa using h2⟩

/-- `type pair = container { v: item[1], }`, each item being a container: an array of non-primitives. -/
def cutDecl : Decl :=
  ⟨"cut", [], [], .struct none
    (.leaf (plain "v") (.array (.array u8T (.fixed (.int ⟨.u8, 1⟩))) (.fixed (.int ⟨.u8, 1⟩))) .nil)⟩

/-- **C13, violated by the encoder.** `u8[1][1]` holding two rows is written as its first row, without an
error. -/
theorem longer_array_truncated (a b : UInt8) :
    runDecl soloExt cutDecl (.struct "cut" [("v", .arr [.arr [vu8 a.toNat], .arr [vu8 b.toNat]])]) = .ok [a] := by
  rw [runDecl_eq, if_pos (by exact ⟨rfl, rfl⟩)]
  have h1 : encDecl soloExt cutDecl (.struct "cut" [("v", .arr [.arr [vu8 a.toNat], .arr [vu8 b.toNat]])]) =
    .ok [UInt8.ofNat ((a.toNat : Int)).toNat] := rfl
  rw [h1]
  simp

/-- **C13, encoding (c).** A primitive array (not `bool`, not `u8`) with the right number of elements is the
concatenation of its elements. -/
theorem right_count_elements (X : Ext) (env : Env) (p : Prim) (hp : p ≠ .bool)
    (h8 : ∀ en, p ≠ .scalar ⟨.u8, en⟩) (e : Expr) (vs : List Val) {l : Val}
    (he : ev X env e = .ok l) (hl : asUsize l = .ok vs.length) :
    encLeaf X env (.array (.prim p) (.fixed e)) (.arr vs) = concatM (encPrim p) vs := by
  simp only [encLeaf, he, LTy.resolved, hl, ok_bind]
  unfold encPrimArray
  split
  · exact absurd rfl hp
  · rename_i en; exact absurd rfl (h8 en)
  · simp only [elems, ok_bind, checkCount, if_true]

/-- The same for `u8`, whose slice is written as it is. -/
theorem right_count_bytes (X : Ext) (env : Env) (e : Expr) (vs : List Val) {l : Val}
    (he : ev X env e = .ok l) (hl : asUsize l = .ok vs.length)
    (hv : ∀ v ∈ vs, ∃ m : Nat, m < 256 ∧ v = .int ⟨.u8, m⟩) :
    encLeaf X env (.array u8T (.fixed e)) (.arr vs) = concatM (encPrim (.scalar ⟨.u8, .big⟩)) vs := by
  have hsome : ∃ bs, (Val.arr vs).toBytes = some bs := by
    simp only [Val.toBytes]
    clear he hl
    induction vs with
    | nil => exact ⟨[], rfl⟩
    | cons v vs ih =>
      obtain ⟨m, _, rfl⟩ := hv v (by simp)
      obtain ⟨bs, hbs⟩ := ih fun v h => hv v (by simp [h])
      exact ⟨UInt8.ofNat m :: bs, by simp only [List.mapM_cons, hbs]; simp [Val.byteOf]⟩
  obtain ⟨bs, hbs⟩ := hsome
  rw [concatM_u8 vs bs hbs hv]
  simp only [encLeaf, u8T, he, LTy.resolved, hl, ok_bind, encPrimArray, elems, checkCount, if_true, hbs]
  rfl

/-! ## C16 -/

/-- The transforms of an item, all unconditional, on the wire: the last one declared is applied first. -/
theorem encoded_chain (X : Ext) (env : Env) (xs : List (String)) (data : Bytes) :
    encXforms X env (xs.map fun n => ⟨n, none, []⟩) (.ok ((), data)) =
      (xs.foldr (fun n r => r >>= X.xform n []) (.ok data)) >>= fun out => .ok ((), out) := by
  induction xs with
  | nil => rfl
  | cons x xs ih =>
    simp only [List.map_cons, encXforms, List.mapM_nil, List.foldr_cons, ih]
    cases xs.foldr (fun n r => r >>= X.xform n []) (.ok data) with
    | error f => rfl
    | ok out => rfl

/-- Decoding undoes the last one declared first: the wrappers are put around the reader in reverse. -/
theorem decoded_chain (X : Dec.Ext) (env : Dec.Env) (xs : List String) (last : String) (bs : Bytes)
    {α} (k : Bytes → Res (α × Bytes)) :
    Dec.decXforms X env ((xs ++ [last]).map fun n => (⟨n, none, []⟩ : XformUse)).reverse bs k =
      (X.xform last [] bs >>= fun d =>
        Dec.decXforms X env (xs.map fun n => (⟨n, none, []⟩ : XformUse)).reverse d.1 k >>= fun a =>
          .ok (a.1, d.2)) := by
  simp only [List.map_append, List.map_cons, List.map_nil, List.reverse_append, List.reverse_cons,
    List.reverse_nil, List.nil_append, List.singleton_append, Dec.decXforms, List.mapM_nil]
  rfl

/-- A library whose transform `t` puts the byte `t` of its name in front. -/
def tagByte (n : String) : UInt8 := if n = "a" then 1 else 2

def tagEncLib : Lib := ⟨true, fun _ _ _ => .error .ill, fun n _ data => .ok (tagByte n :: data)⟩

/-- The matching decoder: it requires that byte in front, and uses the whole rest. -/
def tagDecLib : Dec.Lib :=
  ⟨true, fun _ _ _ => .error .ill, fun n _ bs =>
    match bs with
    | b :: rest => if b = tagByte n then .ok (rest, []) else .error (.err "bad tag")
    | [] => .error (.err "bad tag")⟩

/-- `type t = u8 -> a -> b;` -/
def chainDecl : Decl := ⟨"t", [], [⟨"a", none, []⟩, ⟨"b", none, []⟩], .leaf none u8T⟩

/-- **C16, violated.** Each of the two transforms undoes itself, yet what the generated encoder writes for
`u8 -> a -> b` is refused by the generated decoder: the wire is `a(b(x))`, the decoder undoes `b` first. -/
theorem chained_transforms_do_not_round_trip :
    (∀ n data, tagDecLib.xform n [] (tagByte n :: data) = .ok (data, [])) ∧
    runEncode [chainDecl] tagEncLib 1 "t" [] (.newtype "t" (vu8 7)) = .ok [1, 2, 7] ∧
    Dec.runDecode [chainDecl] tagDecLib 1 "t" [] [1, 2, 7] = .error (.err "bad tag") := by
  refine ⟨fun n data => by simp [tagDecLib], ?_, ?_⟩
  · rw [encode_refines]; rfl
  · rw [decode_refines [chainDecl] tagDecLib (by simp [chainDecl, Decl.FieldsNodup])]; rfl

end Verif.Props
