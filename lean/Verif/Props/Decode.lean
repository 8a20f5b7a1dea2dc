import Verif.Props.Repr
import Verif.DecodeRefine
import Verif.ExprLemmas
/-!
# Generated decoders: C03, C05, C06, C07, C11 to C15 (decoding side)
-/
namespace Verif.Props
open Verif Verif.Dec

/-! ## C03 -/

/-- **C03.** For every schema whose containers have no repeated field name, every library of foreign
types and transforms, every declared type, arguments and input: running the instructions the generator
emits gives exactly what the specification `specDecode` (fields one after the other, in declaration
order) gives: the same value and unread rest, or the same failure. -/
theorem decode_refines (sch : Schema) (L : Lib) (hnd : ∀ d ∈ sch, d.FieldsNodup) (fuel : Nat)
    (name : String) (args : List Val) (input : Bytes) :
    runDecode sch L fuel name args input = specDecode sch L fuel name args input := by
  rw [runDecode_eq sch L hnd]

/-! ### A schema used as a witness below -/

/-- An unconditional, untransformed, stored field. -/
def plain (n : String) : FAttr := ⟨n, none, [], none⟩

def u8T : LTy := .prim (.scalar ⟨.u8, .big⟩)
def u16T : LTy := .prim (.scalar ⟨.u16, .big⟩)

/-- `type item = container { len: u8, flag: u8, data: u8[len], opt: u16 {flag == 1}, }` -/
def itemDecl : Decl :=
  ⟨"item", [], [], .struct none
    (.leaf (plain "len") u8T
    (.leaf (plain "flag") u8T
    (.leaf (plain "data") (.array u8T (.fixed (.fieldRef "len")))
    (.leaf ⟨"opt", some (.binary .eq (.fieldRef "flag") (.int ⟨.u8, 1⟩)), [], none⟩ u16T .nil))))⟩

/-- `type list = container { n: u8, inner: container[n] { first: item, }, }` -/
def listDecl : Decl :=
  ⟨"list", [], [], .struct none
    (.leaf (plain "n") u8T
    (.cont (plain "inner") (some (.fieldRef "n"))
      (.leaf (plain "first") (.ref "item" false .other []) .nil) .nil))⟩

def demoSchema : Schema := [itemDecl, listDecl]

/-- No foreign types, no transforms. -/
def noLib : Lib := ⟨true, fun _ _ _ => .error .ill, fun _ _ _ => .error .ill⟩

def vu8 (n : Int) : Val := .int ⟨.u8, n⟩
def vu16 (n : Int) : Val := .int ⟨.u16, n⟩

example : ∀ d ∈ demoSchema, d.FieldsNodup := by
  simp [demoSchema, Decl.FieldsNodup, itemDecl, listDecl, Fields.names, Fields.leaves, plain]

/-- The generated decoder at work: six bytes and a tail. -/
example : runDecode demoSchema noLib 2 "list" [] [6, 2, 1, 7, 8, 0, 9, 99] =
    .ok (.struct "list" [("n", vu8 6), ("first", .struct "item"
      [("len", vu8 2), ("flag", vu8 1), ("data", .arr [vu8 7, vu8 8]), ("opt", .opt (some (vu16 9)))])],
      [99]) := by
  rw [decode_refines demoSchema noLib (by
    simp [demoSchema, Decl.FieldsNodup, itemDecl, listDecl, Fields.names, Fields.leaves, plain])]
  rfl

/-! ## C05 -/

/-- A decoder is local: what it consumed alone decides its result. -/
def Local {α} (f : Bytes → Res (α × Bytes)) : Prop :=
  ∀ i v r, f i = .ok (v, r) → ∃ used, i = used ++ r ∧ ∀ r', f (used ++ r') = .ok (v, r')


theorem Local.pure {α} (a : α) : Local (fun bs => .ok (a, bs)) := by
  intro i v r h
  cases h
  exact ⟨[], rfl, fun r' => rfl⟩

theorem Local.error {α} (f : Fault) : Local (fun _ : Bytes => (.error f : Res (α × Bytes))) := by
  intro i v r h; cases h

theorem Local.bind {α β} {f : Bytes → Res (α × Bytes)} {g : α → Bytes → Res (β × Bytes)}
    (hf : Local f) (hg : ∀ a, Local (g a)) : Local (fun bs => f bs >>= fun y => g y.1 y.2) := by
  intro i v r h
  cases hfi : f i with
  | error e => simp [hfi, err_bind] at h
  | ok y =>
    obtain ⟨a, m⟩ := y
    simp only [hfi, ok_bind] at h
    obtain ⟨u1, e1, h1⟩ := hf i a m hfi
    obtain ⟨u2, e2, h2⟩ := hg a m v r h
    refine ⟨u1 ++ u2, by rw [e1, e2, List.append_assoc], ?_⟩
    intro r'
    simp only [List.append_assoc, h1, ok_bind, h2]

theorem Local.map {α β} {f : Bytes → Res (α × Bytes)} (hf : Local f) (g : α → β) :
    Local (fun bs => f bs >>= fun y => .ok (g y.1, y.2)) :=
  hf.bind fun a => Local.pure (g a)

/-- A step that does not look at the bytes. -/
theorem Local.pre {α β} {c : Res α} {g : α → Bytes → Res (β × Bytes)} (hg : ∀ a, Local (g a)) :
    Local (fun bs => c >>= fun a => g a bs) := by
  cases c with
  | error e => exact Local.error e
  | ok a => exact hg a

theorem Local.check {α β} {f : Bytes → Res (α × Bytes)} (hf : Local f) (g : α → Res β) :
    Local (fun bs => f bs >>= fun y => g y.1 >>= fun b => .ok (b, y.2)) :=
  hf.bind fun _ => Local.pre fun b => Local.pure b

theorem local_readExact (n : Nat) : Local (readExact n) := by
  intro i v r h
  unfold readExact at h
  split at h
  · cases h
  · rename_i hlt
    cases h
    refine ⟨i.take n, (List.take_append_drop n i).symm, ?_⟩
    intro r'
    have hl : (i.take n).length = n := by simp; omega
    unfold readExact
    rw [if_neg (by simp; omega)]
    simp [hl]

theorem local_decPrim (p : Prim) : Local (decPrim p) := (local_readExact p.size).map _

theorem local_decRepr (t : ReprTy) : Local (decRepr t) :=
  (local_readExact t.rep.scalar.size).check fun raw => ofRepr t (bytesInt t.rep raw)

theorem local_readItems (oc : Bool) (s n : Nat) : Local (readItems oc s (some n)) :=
  Local.pre fun t => Local.pre (c := allocBytes t) fun _ => local_readExact t

theorem local_decPrimArray (oc : Bool) (p : Prim) (n : Nat) : Local (decPrimArray oc p (some n)) := by
  unfold decPrimArray
  split
  · exact Local.error _
  · exact (local_readItems oc p.size n).map fun raw => Val.arr ((chunksExact p.size raw).map (primOfBytes p))

theorem local_decReprArray (oc : Bool) (t : ReprTy) (n : Nat) : Local (decReprArray oc t (some n)) :=
  (local_readItems oc t.rep.scalar.size n).bind fun raw =>
    Local.pre (c := (chunksExact t.rep.scalar.size raw).mapM fun c => ofRepr t (bytesInt t.rep c))
      fun vs => Local.pure (Val.arr vs)

theorem local_skip (n : Nat) : Local (skipBytes n) :=
  Local.pre (c := allocBytes n) fun _ => (local_readExact n).map fun _ => ()

theorem local_decN {f : Bytes → Res (Val × Bytes)} (hf : Local f) : ∀ n, Local (decN f n)
  | 0 => Local.pure []
  | n + 1 => by
    have := hf.bind fun v => (local_decN hf n).map fun vs => v :: vs
    exact this

/-- Types that know where they end: no `[..]` and no `[..e]` array, and only foreign types from `F`. -/
def _root_.Verif.LTy.Prefix (F : String → Prop) : LTy → Prop
  | .prim _ => True
  | .array elem len => elem.Prefix F ∧ ∃ e, len = .fixed e
  | .ref n foreign _ _ => foreign = true → F n

/-- Transforms only from `T`. -/
def xfsIn (T : String → Prop) (xs : List XformUse) : Prop := ∀ x ∈ xs, T x.name

def _root_.Verif.Fields.Prefix (F T : String → Prop) : Fields → Prop
  | .nil => True
  | .pad _ _ r => r.Prefix F T
  | .leaf a ty r => xfsIn T a.xfs ∧ ty.Prefix F ∧ r.Prefix F T
  | .cont a _ i r => xfsIn T a.xfs ∧ i.Prefix F T ∧ r.Prefix F T

def _root_.Verif.ArmBody.Prefix (F T : String → Prop) : ArmBody → Prop
  | .leaf ty => ty.Prefix F
  | .cont _ i => i.Prefix F T

/-- A declaration that only uses such types. -/
def _root_.Verif.Decl.Prefix (F T : String → Prop) (d : Decl) : Prop :=
  xfsIn T d.xfs ∧
  match d.body with
  | .leaf _ ty => ty.Prefix F
  | .repr _ => True
  | .struct _ i => i.Prefix F T
  | .tagged _ arms => ∀ arm ∈ arms, xfsIn T arm.attr.xfs ∧ arm.body.Prefix F T

section LocalProof
variable {F T : String → Prop} {X : Ext}
  (hF : ∀ n, F n → ∀ args, Local (X.foreign n args)) (hT : ∀ n, T n → ∀ args, Local (X.xform n args))
  (hC : ∀ n args, Local (X.call n args))
include hF hC

theorem local_leaf (ty : LTy) (h : ty.Prefix F) (env : Env) : Local (decLeaf X env ty) := by
  induction ty with
  | prim p => exact local_decPrim p
  | ref n foreign res args =>
    cases foreign with
    | true =>
      have := Local.pre (c := args.mapM (ev X env)) (g := fun vs => X.foreign n vs)
        (fun vs => hF n (h rfl) vs)
      exact this
    | false =>
      have := Local.pre (c := args.mapM (ev X env)) (g := fun vs => X.call n vs) (fun vs => hC n vs)
      exact this
  | array elem len ih =>
    obtain ⟨h1, e, rfl⟩ := h
    cases hr : elem.resolved with
    | prim p =>
      have := Local.pre (c := ev X env e) (g := fun v bs => asUsize v >>= fun n => decPrimArray X.oc p (some n) bs)
        (fun v => Local.pre fun n => local_decPrimArray X.oc p n)
      simpa only [decLeaf, hr] using this
    | repr t =>
      have := Local.pre (c := ev X env e) (g := fun v bs => asUsize v >>= fun n => decReprArray X.oc t (some n) bs)
        (fun v => Local.pre fun n => local_decReprArray X.oc t n)
      simpa only [decLeaf, hr] using this
    | other =>
      have := Local.pre (c := ev X env e)
        (g := fun v bs => loopCount v >>= fun n => decN (decLeaf X env elem) n bs >>= fun y => .ok (Val.arr y.1, y.2))
        (fun v => Local.pre fun n => (local_decN (ih h1) n).map Val.arr)
      simpa only [decLeaf, hr] using this

omit hF hC
include hT

theorem local_xforms {α} (env : Env) (xs : List XformUse) (hx : xfsIn T xs)
    {k : Bytes → Res (α × Bytes)} (hk : Local k) : Local (fun bs => decXforms X env xs bs k) := by
  induction xs with
  | nil => exact hk
  | cons x xs ih =>
    have ih := ih (fun y hy => hx y (by simp [hy]))
    have hone : Local (fun bs => x.args.mapM (ev X env) >>= fun vs => X.xform x.name vs bs >>= fun d =>
        decXforms X env xs d.1 k >>= fun a => .ok (a.1, d.2)) :=
      Local.pre fun vs => (hT x.name (hx x (by simp)) vs).bind (g := fun dec rest =>
        decXforms X env xs dec k >>= fun a => .ok (a.1, rest)) fun dec =>
        Local.pre (c := decXforms X env xs dec k) fun a => Local.pure a.1
    cases hc : x.cond with
    | none => simpa only [decXforms, hc] using hone
    | some e =>
      simp only [decXforms, hc]
      refine Local.pre (c := ev X env e) fun c => Local.pre (c := c.toBool) fun b => ?_
      cases b with
      | true => exact hone
      | false => exact ih

omit hT

theorem local_limited {α} (env : Env) (len : Option Expr) {k : Bytes → Res (α × Bytes)} (hk : Local k) :
    Local (fun bs => decLimited X env len bs k) := by
  cases len with
  | none => exact hk
  | some e =>
    simp only [decLimited]
    refine Local.pre (c := ev X env e) fun v => Local.pre (c := asUsize v) fun n => ?_
    intro i a r h
    simp only at h
    cases hki : k (i.take n) with
    | error f => simp [hki, err_bind] at h
    | ok y =>
      obtain ⟨a', rest⟩ := y
      simp only [hki, ok_bind] at h
      cases h
      obtain ⟨u, e1, h1⟩ := hk _ _ _ hki
      have hu : u.length ≤ n := by
        have := congrArg List.length e1
        simp at this; omega
      refine ⟨u, ?_, ?_⟩
      · rw [← List.append_assoc, ← e1, List.take_append_drop]
      · intro r'
        have ht : (u ++ r').take n = u ++ r'.take (n - u.length) := by
          rw [List.take_append, List.take_of_length_le hu]
        have hd : (u ++ r').drop n = r'.drop (n - u.length) := by
          rw [List.drop_append, List.drop_eq_nil_of_le hu]; rfl
        simp only [ht, hd, h1, ok_bind, List.take_append_drop]

theorem local_cond (env : Env) (cond : Option Expr) (names : List String)
    {k : Bytes → Res (List (String × Val) × Bytes)} (hk : Local k) :
    Local (fun bs => decCond X env cond names bs k) := by
  cases cond with
  | none => exact hk
  | some e =>
    simp only [decCond]
    refine Local.pre (c := ev X env e) fun c => Local.pre (c := c.toBool) fun b => ?_
    cases b with
    | true => exact hk.map fun vs => vs.map fun p => (p.1, Val.opt (some p.2))
    | false => exact Local.pure (names.map fun n => (n, Val.opt none))

include hF hT hC

theorem local_items (fs : Fields) : fs.Prefix F T → ∀ env, Local (decItems X fs env) := by
  induction fs with
  | nil => intro _ env; exact Local.pure []
  | pad n e r ih =>
    intro h env
    exact Local.pre (c := ev X env e) fun v => Local.pre (c := asUsize v) fun n =>
      (local_skip n).bind fun _ => ih h env
  | leaf a ty r ih =>
    intro h env
    obtain ⟨h1, h2, h3⟩ := h
    have hf := local_cond (X := X) env a.cond [a.name]
      (local_xforms hT env a.xfs.reverse (fun x hx => h1 x (by simpa using hx))
        ((local_leaf hF hC ty h2 env).map fun v => [(a.name, v)]))
    have := hf.bind fun vs => (ih h3 (env.bindAll vs)).map fun ws => vs ++ ws
    exact this
  | cont a len i r ih1 ih2 =>
    intro h env
    obtain ⟨h1, h2, h3⟩ := h
    have hf := local_cond (X := X) env a.cond i.names
      (local_xforms hT env a.xfs.reverse (fun x hx => h1 x (by simpa using hx))
        (local_limited (X := X) env len (ih1 h2 env)))
    have := hf.bind fun vs => (ih2 h3 (env.bindAll vs)).map fun ws => vs ++ ws
    exact this

theorem local_arm (ty : String) (arm : Arm) (h : xfsIn T arm.attr.xfs ∧ arm.body.Prefix F T) :
    Local (decArm X ty arm) := by
  unfold decArm
  refine local_xforms hT Env.empty _ (fun x hx => h.1 x (by simpa using hx)) ?_
  have h2 := h.2
  cases hb : arm.body with
  | leaf t =>
    rw [hb] at h2
    exact (local_leaf hF hC t h2 Env.empty).map (Val.variant ty arm.attr.name)
  | cont len items =>
    rw [hb] at h2
    exact (local_limited Env.empty len (local_items hF hT hC items h2 Env.empty)).map
      (Val.variantS ty arm.attr.name)

theorem local_arms (ty : String) (arms : List Arm)
    (h : ∀ arm ∈ arms, xfsIn T arm.attr.xfs ∧ arm.body.Prefix F T) : Local (decArms X ty arms) := by
  induction arms with
  | nil => exact Local.error _
  | cons arm arms ih =>
    have ha := local_arm hF hT hC ty arm (h arm (by simp))
    cases hc : arm.attr.cond with
    | none => simpa only [decArms, hc] using ha
    | some e =>
      have := Local.pre (c := ev X Env.empty e) (g := fun c bs => c.toBool >>= fun b =>
        if b then decArm X ty arm bs else decArms X ty arms bs) fun c =>
        Local.pre (c := c.toBool) (g := fun b bs => if b then decArm X ty arm bs else decArms X ty arms bs)
        fun b => by
          cases b with
          | true => exact ha
          | false => exact ih (fun a ha => h a (by simp [ha]))
      simpa only [decArms, hc] using this

theorem local_decl (d : Decl) (h : d.Prefix F T) : Local (decDecl X d) := by
  obtain ⟨hx, hb⟩ := h
  have hx' : xfsIn T d.xfs.reverse := fun x h => hx x (by simpa using h)
  unfold decDecl
  cases hbody : d.body with
  | leaf cond ty =>
    rw [hbody] at hb
    have hf := local_cond (X := X) Env.empty cond [d.name]
      (local_xforms hT Env.empty d.xfs.reverse hx'
        ((local_leaf hF hC ty hb Env.empty).map fun v => [(d.name, v)]))
    have := hf.bind (g := fun vs r => match vs with
      | [(_, v)] => .ok (Val.newtype d.name v, r)
      | _ => .error .ill) fun vs => by
        match vs with
        | [(_, v)] => exact Local.pure _
        | [] => exact Local.error _
        | _ :: _ :: _ => exact Local.error _
    exact this
  | repr t => exact local_xforms hT Env.empty _ hx' (local_decRepr t)
  | struct len items =>
    rw [hbody] at hb
    exact local_xforms hT Env.empty _ hx'
      ((local_limited Env.empty len (local_items hF hT hC items hb Env.empty)).map (Val.struct d.name))
  | tagged len arms =>
    rw [hbody] at hb
    exact local_xforms hT Env.empty _ hx'
      (local_limited Env.empty len (local_arms hF hT hC d.name arms hb))

end LocalProof

/-- **C05.** In a schema of types that know where they end (no `[..]`, no `[..e]`; foreign types and
transforms from sets `F`, `T` of local ones), every generated decoder is local: its input splits into
what it used and what it left, and with anything else after the used part it gives the same value and
leaves exactly that. -/
theorem decode_local (sch : Schema) (L : Lib) (F T : String → Prop)
    (hnd : ∀ d ∈ sch, d.FieldsNodup) (hp : ∀ d ∈ sch, d.Prefix F T)
    (hF : ∀ n, F n → ∀ args, Local (L.foreign n args))
    (hT : ∀ n, T n → ∀ args, Local (L.xform n args)) (fuel : Nat) (name : String) (args : List Val) :
    Local (runDecode sch L fuel name args) := by
  rw [runDecode_eq sch L hnd]
  induction fuel generalizing name args with
  | zero => exact Local.error _
  | succ n ih =>
    have e : specDecode sch L (n + 1) name args = fun bs => match sch.find name with
      | none => .error .ill
      | some d => if d.params.length ≠ args.length then .error .ill else
        decDecl ⟨L.oc, bindArgs d.params args, specDecode sch L n, L.foreign, L.xform⟩ d bs := rfl
    rw [e]
    cases hf : sch.find name with
    | none => exact Local.error _
    | some d =>
      by_cases hl : d.params.length ≠ args.length
      · simp only [if_pos hl]; exact Local.error _
      · simp only [if_neg hl]
        exact local_decl (F := F) (T := T) hF hT ih d (hp d (Schema.find_mem hf))

example : ∀ d ∈ demoSchema, d.Prefix (fun _ => False) (fun _ => False) := by
  simp [demoSchema, Decl.Prefix, itemDecl, listDecl, Fields.Prefix, LTy.Prefix, xfsIn, plain, u8T, u16T]

/-- The restriction matters: an unbounded array sees everything. -/
example : ¬ Local (decPrimArray true (.scalar ⟨.u8, .big⟩) none) := by
  intro h
  obtain ⟨u, e, h1⟩ := h [] (.arr []) [] rfl
  have e : u = [] := by simpa using e.symm
  have := h1 [1]
  rw [e] at this
  simp [decPrimArray, readItems, ok_bind] at this

/-! ## C06, decoding -/

/-- The fields of a decoded container, for expressions to refer to. -/
def envOf (vs : List (String × Val)) : Env := fun n => (vs.find? (fun p => p.1 == n)).map (·.2)

/-- `leaf a ty` occurs among the fields themselves (not inside a nested container). -/
def _root_.Verif.Fields.HasLeaf (a : FAttr) (ty : LTy) : Fields → Prop
  | .nil => False
  | .pad _ _ r => r.HasLeaf a ty
  | .leaf b t r => (b = a ∧ t = ty) ∨ r.HasLeaf a ty
  | .cont _ _ _ r => r.HasLeaf a ty

theorem bindAll_lookup {vs : List (String × Val)} : ∀ {env : Env} {n v},
    n ∉ vs.map (·.1) → env n = some v → env.bindAll vs n = some v := by
  induction vs with
  | nil => intro env n v _ h; exact h
  | cons p vs ih =>
    intro env n v hn h
    simp only [List.map_cons, List.mem_cons, not_or] at hn
    exact ih hn.2 (by show upd env p.1 (some p.2) n = some v; rw [upd_ne _ _ hn.1]; exact h)

theorem bindAll_some {vs : List (String × Val)} : ∀ {env : Env} {n v},
    env.bindAll vs n = some v → env n = some v ∨ (n, v) ∈ vs := by
  induction vs with
  | nil => intro env n v h; exact Or.inl h
  | cons p vs ih =>
    intro env n v h
    have h' : Env.bindAll (upd env p.1 (some p.2)) vs n = some v := h
    rcases ih h' with h | h
    · by_cases e : n = p.1
      · subst e; simp at h; right; simp [← h]
      · rw [upd_ne _ _ e] at h; exact Or.inl h
    · right; simp [h]

theorem decCond_names {X : Ext} {env cond names bs k vs rest}
    (hk : ∀ b vs r, k b = .ok (vs, r) → vs.map (·.1) = names)
    (h : decCond X env cond names bs k = .ok (vs, rest)) : vs.map (·.1) = names := by
  cases cond with
  | none => exact hk _ _ _ h
  | some e =>
    simp only [decCond] at h
    obtain ⟨c, _, h⟩ := ok_of_bind h
    obtain ⟨b, _, h⟩ := ok_of_bind h
    cases b with
    | true =>
      simp only [if_true] at h
      obtain ⟨y, hy, h⟩ := ok_of_bind h
      obtain ⟨ws, r⟩ := y
      cases h
      rw [List.map_map]
      exact hk _ _ _ hy
    | false =>
      simp only [Bool.false_eq_true, if_false] at h
      cases h
      rw [List.map_map]
      exact List.map_id _

theorem decXforms_ok {α} {X : Ext} {env : Env} {k : Bytes → Res (α × Bytes)} {P : α → Prop}
    (hk : ∀ b a r, k b = .ok (a, r) → P a) (xs : List XformUse) :
    ∀ {bs a rest}, decXforms X env xs bs k = .ok (a, rest) → P a := by
  induction xs with
  | nil => intro bs a rest h; exact hk _ _ _ h
  | cons x xs ih =>
    intro bs a rest h
    have one : ∀ {a rest}, (x.args.mapM (ev X env) >>= fun vs => X.xform x.name vs bs >>= fun d =>
        decXforms X env xs d.1 k >>= fun y => .ok (y.1, d.2)) = (.ok (a, rest) : Res (α × Bytes)) → P a := by
      intro a rest h
      obtain ⟨vs, _, h⟩ := ok_of_bind h
      obtain ⟨d, _, h⟩ := ok_of_bind h
      obtain ⟨y, hy, h⟩ := ok_of_bind h
      obtain ⟨y1, y2⟩ := y
      cases h
      exact ih hy
    cases hc : x.cond with
    | none => simp only [decXforms, hc] at h; exact one h
    | some e =>
      simp only [decXforms, hc] at h
      obtain ⟨c, _, h⟩ := ok_of_bind h
      obtain ⟨b, _, h⟩ := ok_of_bind h
      cases b with
      | true => exact one h
      | false => exact ih h

theorem decLimited_ok {α} {X : Ext} {env : Env} {k : Bytes → Res (α × Bytes)} {P : α → Prop}
    (hk : ∀ b a r, k b = .ok (a, r) → P a) {len bs a rest}
    (h : decLimited X env len bs k = .ok (a, rest)) : P a := by
  cases len with
  | none => exact hk _ _ _ h
  | some e =>
    simp only [decLimited] at h
    obtain ⟨c, _, h⟩ := ok_of_bind h
    obtain ⟨b, _, h⟩ := ok_of_bind h
    obtain ⟨y, hy, h⟩ := ok_of_bind h
    obtain ⟨y1, y2⟩ := y
    cases h
    exact hk _ _ _ hy

/-- The decoded fields are the declared ones, in order. -/
theorem decItems_names {X : Ext} (fs : Fields) : ∀ {env bs vs rest},
    decItems X fs env bs = .ok (vs, rest) → vs.map (·.1) = fs.names := by
  induction fs with
  | nil => intro env bs vs rest h; cases h; rfl
  | pad n e r ih =>
    intro env bs vs rest h
    simp only [decItems] at h
    obtain ⟨v, _, h⟩ := ok_of_bind h
    obtain ⟨k, _, h⟩ := ok_of_bind h
    obtain ⟨y, _, h⟩ := ok_of_bind h
    exact ih h
  | leaf a ty r ih =>
    intro env bs vs rest h
    simp only [decItems] at h
    obtain ⟨y, hy, h⟩ := ok_of_bind h
    obtain ⟨z, hz, h⟩ := ok_of_bind h
    obtain ⟨v1, b1⟩ := y
    obtain ⟨v2, b2⟩ := z
    cases h
    have h1 := decCond_names (fun b vs r hb => decXforms_ok (P := fun vs => vs.map (·.1) = [a.name])
      (fun b a' r h => by
        obtain ⟨y, _, h⟩ := ok_of_bind h
        cases h; rfl) _ hb) hy
    have h2 := ih hz
    rw [List.map_append, h1, h2]
    simp [Fields.names, Fields.leaves]
  | cont a len i r ih1 ih2 =>
    intro env bs vs rest h
    simp only [decItems] at h
    obtain ⟨y, hy, h⟩ := ok_of_bind h
    obtain ⟨z, hz, h⟩ := ok_of_bind h
    obtain ⟨v1, b1⟩ := y
    obtain ⟨v2, b2⟩ := z
    cases h
    have h1 := decCond_names (fun b vs r hb => decXforms_ok (P := fun vs => vs.map (·.1) = i.names)
      (fun b a' r h => decLimited_ok (P := fun vs => vs.map (·.1) = i.names)
        (fun b a r h => ih1 h) h) _ hb) hy
    have h2 := ih2 hz
    rw [List.map_append, h1, h2]
    simp [Fields.names, Fields.leaves]

theorem find_of_mem_nodup {vs : List (String × Val)} : ∀ {n v}, (vs.map (·.1)).Nodup → (n, v) ∈ vs →
    (vs.find? (fun p => p.1 == n)) = some (n, v) := by
  induction vs with
  | nil => intro n v _ h; simp at h
  | cons p vs ih =>
    intro n v hd h
    simp only [List.map_cons, List.nodup_cons] at hd
    rcases List.mem_cons.1 h with rfl | h
    · simp
    · have : p.1 ≠ n := by
        intro e; exact hd.1 (e ▸ List.mem_map.2 ⟨(n, v), h, rfl⟩)
      rw [List.find?_cons_of_neg (by simpa using this)]
      exact ih hd.2 h

theorem presence {X : Ext} (fs : Fields) {a : FAttr} {ty : LTy} {e : Expr} (hc : a.cond = some e) :
    ∀ {env bs vs rest}, decItems X fs env bs = .ok (vs, rest) → fs.HasLeaf a ty → fs.names.Nodup →
    (∀ n v, env n = some v → n ∉ fs.names) →
    ∃ b o, ev X (env.bindAll vs) e = .ok (.bool b) ∧ (a.name, .opt o) ∈ vs ∧ o.isSome = b := by
  induction fs with
  | nil => intro env bs vs rest _ h; exact h.elim
  | pad n e r ih =>
    intro env bs vs rest h hl hnd hdis
    simp only [decItems] at h
    obtain ⟨v, _, h⟩ := ok_of_bind h
    obtain ⟨k, _, h⟩ := ok_of_bind h
    obtain ⟨y, _, h⟩ := ok_of_bind h
    exact ih h hl hnd hdis
  | leaf b t r ih =>
    intro env bs vs rest h hl hnd hdis
    have hnames : (Fields.leaf b t r).names = b.name :: r.names := by simp [Fields.names, Fields.leaves]
    rw [hnames] at hnd hdis
    simp only [List.nodup_cons] at hnd
    have hall := decItems_names _ h
    simp only [decItems] at h
    obtain ⟨y, hy, h⟩ := ok_of_bind h
    obtain ⟨z, hz, h⟩ := ok_of_bind h
    obtain ⟨v1, b1⟩ := y
    obtain ⟨v2, b2⟩ := z
    cases h
    have h2 := decItems_names _ hz
    have h1 : v1.map (·.1) = [b.name] := by
      rw [List.map_append, h2, hnames] at hall
      exact List.append_cancel_right hall
    have hb : env.bindAll (v1 ++ v2) = (env.bindAll v1).bindAll v2 := by simp [Env.bindAll]
    rcases hl with ⟨rfl, rfl⟩ | hl
    · simp only [hc, decCond] at hy
      obtain ⟨cv, hcv, hy⟩ := ok_of_bind hy
      obtain ⟨bb, hbb, hy⟩ := ok_of_bind hy
      have hcv' : cv = .bool bb := by cases cv <;> simp [Val.toBool] at hbb; rw [hbb]
      have hev : ev X (env.bindAll (v1 ++ v2)) e = .ok (.bool bb) := by
        have hle : Look.Le ⟨env, X.input⟩ ⟨env.bindAll (v1 ++ v2), X.input⟩ := by
          refine ⟨?_, fun _ _ h => h⟩
          intro n v hn
          refine bindAll_lookup ?_ hn
          rw [hall, hnames]; exact hdis n v hn
        rw [← hcv']
        exact evalE_mono hle e cv hcv
      refine ⟨bb, ?_⟩
      cases bb with
      | true =>
        simp only [if_true] at hy
        obtain ⟨w, hw, hy⟩ := ok_of_bind hy
        obtain ⟨w1, w2⟩ := w
        cases hy
        have hw1 : w1.map (·.1) = [b.name] := by
          rw [List.map_map] at h1; exact h1
        obtain ⟨v, rfl⟩ : ∃ v, w1 = [(b.name, v)] := by
          match w1, hw1 with
          | [(n, v)], hw1 => simp at hw1; exact ⟨v, by rw [hw1]⟩
        exact ⟨some v, hev, by simp, rfl⟩
      | false =>
        simp only [Bool.false_eq_true, if_false] at hy
        cases hy
        exact ⟨none, hev, by simp, rfl⟩
    · obtain ⟨bb, o, he, hm, ho⟩ := ih hz hl hnd.2 (by
        intro n v hn
        rcases bindAll_some hn with h | h
        · exact fun hin => hdis n v h (by simp [hin])
        · have : n ∈ v1.map (·.1) := List.mem_map.2 ⟨(n, v), h, rfl⟩
          rw [h1] at this
          simp at this; rw [this]; exact hnd.1)
      exact ⟨bb, o, by rw [hb]; exact he, by simp [hm], ho⟩
  | cont b len i r _ ih =>
    intro env bs vs rest h hl hnd hdis
    have hnames : (Fields.cont b len i r).names = i.names ++ r.names := by simp [Fields.names, Fields.leaves]
    rw [hnames] at hnd hdis
    rw [List.nodup_append] at hnd
    have hall := decItems_names _ h
    simp only [decItems] at h
    obtain ⟨y, hy, h⟩ := ok_of_bind h
    obtain ⟨z, hz, h⟩ := ok_of_bind h
    obtain ⟨v1, b1⟩ := y
    obtain ⟨v2, b2⟩ := z
    cases h
    have h2 := decItems_names _ hz
    have h1 : v1.map (·.1) = i.names := by
      rw [List.map_append, h2, hnames] at hall
      exact List.append_cancel_right hall
    have hb : env.bindAll (v1 ++ v2) = (env.bindAll v1).bindAll v2 := by simp [Env.bindAll]
    obtain ⟨bb, o, he, hm, ho⟩ := ih hz hl hnd.2.1 (by
        intro n v hn
        rcases bindAll_some hn with h | h
        · exact fun hin => hdis n v h (by simp [hin])
        · have : n ∈ v1.map (·.1) := List.mem_map.2 ⟨(n, v), h, rfl⟩
          rw [h1] at this
          exact fun hin => hnd.2.2 n this n hin rfl)
    exact ⟨bb, o, by rw [hb]; exact he, by simp [hm], ho⟩

theorem bindAll_isSome (vs : List (String × Val)) : ∀ (env : Env) (n : String), n ∈ vs.map (·.1) →
    env.bindAll vs n ≠ none := by
  induction vs with
  | nil => intro env n h; simp at h
  | cons q vs ih =>
    intro env n h hn
    have hn : Env.bindAll (upd env q.1 (some q.2)) vs n = none := hn
    by_cases hq : n ∈ vs.map (·.1)
    · exact ih _ _ hq hn
    · have e : n = q.1 := by simpa [hq] using h
      rw [bindAll_lookup hq (v := q.2) (by rw [e]; simp)] at hn
      cases hn

theorem bindAll_empty {vs : List (String × Val)} (hd : (vs.map (·.1)).Nodup) :
    Env.empty.bindAll vs = envOf vs := by
  funext n
  cases h : Env.empty.bindAll vs n with
  | some v =>
    rcases bindAll_some h with h | h
    · cases h
    · simp [envOf, find_of_mem_nodup hd h]
  | none =>
    cases he : vs.find? (fun p => p.1 == n) with
    | none => simp [envOf, he]
    | some p =>
      exfalso
      have hm := List.mem_of_find?_eq_some he
      have hp := List.find?_some he
      simp at hp
      subst hp
      exact bindAll_isSome vs _ p.1 (List.mem_map.2 ⟨p, hm, rfl⟩) h

/-- **C06, decoding (a).** In whatever a generated decoder of a container returns, a conditional field
is present exactly when its condition holds of the returned fields. -/
theorem decoded_present_iff (X : Ext) (d : Decl) {len items} (hb : d.body = .struct len items)
    (hnd : items.names.Nodup) {a : FAttr} {ty : LTy} {e : Expr} (hleaf : items.HasLeaf a ty)
    (hc : a.cond = some e) {bs vs rest}
    (h : runProg X (genDecl d) bs = .ok (.struct d.name vs, rest)) :
    ∃ b o, ev X (envOf vs) e = .ok (.bool b) ∧ (a.name, .opt o) ∈ vs ∧ o.isSome = b := by
  rw [runProg_genDecl X d (by simpa [Decl.FieldsNodup, hb] using hnd)] at h
  simp only [decDecl, hb] at h
  have := decXforms_ok (P := fun v => ∀ vs, v = Val.struct d.name vs →
      ∃ b o, ev X (envOf vs) e = .ok (.bool b) ∧ (a.name, .opt o) ∈ vs ∧ o.isSome = b)
    (fun b v r h => by
      intro vs hv
      obtain ⟨y, hy, h⟩ := ok_of_bind h
      obtain ⟨y1, y2⟩ := y
      cases h
      have e1 : y1 = vs := by injection hv
      subst e1
      refine decLimited_ok (P := fun vs => ∃ b o, ev X (envOf vs) e = .ok (.bool b) ∧
        (a.name, .opt o) ∈ vs ∧ o.isSome = b) ?_ hy
      intro b vs r h
      have hn := decItems_names _ h
      have := presence items hc h hleaf hnd (by intro n v h; cases h)
      rwa [bindAll_empty (by rw [hn]; exact hnd)] at this) _ h
  exact this vs rfl

/-- **C06, decoding (b).** A field whose condition is false reads nothing: decoding goes on with the
same bytes, the field being absent. -/
theorem absent_field_reads_nothing (X : Ext) (a : FAttr) (ty : LTy) (rest : Fields) (env : Env)
    (bs : Bytes) {e : Expr} (hc : a.cond = some e) (hf : ev X env e = .ok (.bool false)) :
    decItems X (.leaf a ty rest) env bs =
      (decItems X rest (upd env a.name (some (.opt none))) bs).map fun y =>
        ((a.name, .opt none) :: y.1, y.2) := by
  simp only [decItems, hc, decCond, hf, ok_bind, Val.toBool, Bool.false_eq_true, if_false]
  have e1 : env.bindAll ([a.name].map fun n => (n, Val.opt none)) = upd env a.name (some (.opt none)) := rfl
  rw [e1]
  cases decItems X rest (upd env a.name (some (Val.opt none))) bs <;> rfl

/-- **C06, decoding (c).** A field whose condition is true is read like the unconditional field. -/
theorem present_field_reads_field (X : Ext) (a : FAttr) (ty : LTy) (env : Env)
    (bs : Bytes) {e : Expr} (hc : a.cond = some e) (ht : ev X env e = .ok (.bool true)) :
    decItems X (.leaf a ty .nil) env bs =
      (decItems X (.leaf { a with cond := none } ty .nil) env bs).map fun y =>
        (y.1.map fun p => (p.1, .opt (some p.2)), y.2) := by
  simp only [decItems, hc, decCond, ht, ok_bind, Val.toBool, if_true]
  cases decXforms X env a.xfs.reverse bs fun b' => do
        let y ← decLeaf X env ty b'
        .ok ([(a.name, y.1)], y.2) with
  | error f => rfl
  | ok y => simp [Except.map, ok_bind]

example : ∃ bs vs rest, runProg ⟨true, fun _ => none, fun _ _ _ => .error .ill, fun _ _ _ => .error .ill,
    fun _ _ _ => .error .ill⟩ (genDecl itemDecl) bs = .ok (.struct "item" vs, rest) ∧
    ("opt", Val.opt (some (vu16 258))) ∈ vs := by
  refine ⟨[0, 1, 1, 2, 7], [("len", vu8 0), ("flag", vu8 1), ("data", .arr []),
    ("opt", .opt (some (vu16 258)))], [7], ?_, ?_⟩
  · rw [runProg_genDecl _ _ (by
      simp [Decl.FieldsNodup, itemDecl, Fields.names, Fields.leaves, plain])]
    rfl
  · simp

/-! ## C07, decoding -/

/-- Whether the arm applies: no condition, or one that is true. -/
def Applies (X : Ext) (arm : Arm) : Prop :=
  arm.attr.cond = none ∨ ∃ e, arm.attr.cond = some e ∧ ev X Env.empty e = .ok (.bool true)

/-- Whether the arm has a condition and it is false. -/
def Passed (X : Ext) (arm : Arm) : Prop :=
  ∃ e, arm.attr.cond = some e ∧ ev X Env.empty e = .ok (.bool false)

/-- The name of the arm a tagged value belongs to. -/
def armOf : Val → Option String
  | .variant _ d _ => some d
  | .variantS _ d _ => some d
  | _ => none

theorem decArms_split {X : Ext} {ty : String} {pre post : List Arm} {arm : Arm} {bs : Bytes}
    (hpre : ∀ a ∈ pre, Passed X a) (ha : Applies X arm) :
    decArms X ty (pre ++ arm :: post) bs = decArm X ty arm bs := by
  induction pre with
  | nil =>
    rcases ha with h | ⟨e, h, he⟩
    · simp [decArms, h]
    · simp [decArms, h, he, ok_bind, Val.toBool]
  | cons a pre ih =>
    obtain ⟨e, h, he⟩ := hpre a (by simp)
    have := ih fun x hx => hpre x (by simp [hx])
    simp [decArms, h, he, ok_bind, Val.toBool, this]

theorem decArms_cases (X : Ext) (ty : String) (arms : List Arm) :
    (∃ pre arm post, arms = pre ++ arm :: post ∧ (∀ a ∈ pre, Passed X a) ∧ Applies X arm) ∨
    (∀ a ∈ arms, Passed X a) ∨
    (∃ pre arm post f, arms = pre ++ arm :: post ∧ (∀ a ∈ pre, Passed X a) ∧
      (∃ e, arm.attr.cond = some e ∧ (ev X Env.empty e >>= Val.toBool) = .error f) ∧
      ∀ bs, decArms X ty arms bs = .error f) := by
  induction arms with
  | nil => right; left; simp
  | cons a arms ih =>
    cases hc : a.attr.cond with
    | none => left; exact ⟨[], a, arms, rfl, by simp, Or.inl hc⟩
    | some e =>
      cases he : (ev X Env.empty e >>= Val.toBool) with
      | error f =>
        right; right
        refine ⟨[], a, arms, f, rfl, by simp, ⟨e, hc, he⟩, ?_⟩
        intro bs
        simp only [decArms, hc]
        cases hv : ev X Env.empty e with
        | error g => rw [hv] at he; cases he; rfl
        | ok v =>
          rw [hv, ok_bind] at he
          simp only [ok_bind, he, err_bind]
      | ok b =>
        obtain ⟨v, hv, hb⟩ := ok_of_bind he
        have hv' : v = .bool b := by cases v <;> simp [Val.toBool] at hb; rw [hb]
        subst hv'
        cases b with
        | true => left; exact ⟨[], a, arms, rfl, by simp, Or.inr ⟨e, hc, hv⟩⟩
        | false =>
          have hp : Passed X a := ⟨e, hc, hv⟩
          rcases ih with ⟨pre, arm, post, h1, h2, h3⟩ | h | ⟨pre, arm, post, f, h1, h2, h3, h4⟩
          · left
            refine ⟨a :: pre, arm, post, by simp [h1], ?_, h3⟩
            intro x hx; rcases List.mem_cons.1 hx with rfl | hx
            · exact hp
            · exact h2 x hx
          · right; left
            intro x hx; rcases List.mem_cons.1 hx with rfl | hx
            · exact hp
            · exact h x hx
          · right; right
            refine ⟨a :: pre, arm, post, f, by simp [h1], ?_, h3, ?_⟩
            · intro x hx; rcases List.mem_cons.1 hx with rfl | hx
              · exact hp
              · exact h2 x hx
            · intro bs
              simp only [decArms, hc, hv, ok_bind, Val.toBool, Bool.false_eq_true, if_false, h4]

/-- **C07, decoding (a).** If the generated decoder of a tagged enum returns a value, the value belongs
to the first arm that applies: every earlier arm has a false condition. -/
theorem decoded_arm_is_first (X : Ext) (d : Decl) {arms} (hb : d.body = .tagged none arms)
    (hx : d.xfs = []) (hnd : d.FieldsNodup) {bs v rest}
    (h : runProg X (genDecl d) bs = .ok (v, rest)) :
    ∃ pre arm post, arms = pre ++ arm :: post ∧ (∀ a ∈ pre, Passed X a) ∧ Applies X arm ∧
      armOf v = some arm.attr.name := by
  rw [runProg_genDecl X d hnd] at h
  simp only [decDecl, hb, hx, List.reverse_nil, decXforms, decLimited] at h
  rcases decArms_cases X d.name arms with ⟨pre, arm, post, h1, h2, h3⟩ | hall | ⟨_, _, _, f, _, _, _, h4⟩
  · refine ⟨pre, arm, post, h1, h2, h3, ?_⟩
    rw [h1, decArms_split h2 h3] at h
    refine decXforms_ok (P := fun v => armOf v = some arm.attr.name) ?_ _ h
    intro b v r hb
    cases harm : arm.body with
    | leaf t =>
      simp only [harm] at hb
      obtain ⟨y, _, hb⟩ := ok_of_bind hb
      cases hb; rfl
    | cont len items =>
      simp only [harm] at hb
      obtain ⟨y, _, hb⟩ := ok_of_bind hb
      cases hb; rfl
  · exfalso
    have : ∀ l : List Arm, (∀ a ∈ l, Passed X a) → decArms X d.name l bs ≠ .ok (v, rest) := by
      intro l
      induction l with
      | nil => intro _ h; cases h
      | cons a l ih =>
        intro hp
        obtain ⟨e, hc, he⟩ := hp a (by simp)
        simp only [decArms, hc, he, ok_bind, Val.toBool, Bool.false_eq_true, if_false]
        exact ih fun x hx => hp x (by simp [hx])
    exact this arms hall h
  · rw [h4] at h; cases h

/-- **C07, decoding (b).** The first applying arm alone decides: the later arms do not matter. -/
theorem later_arms_do_not_matter (X : Ext) (d d' : Decl) {pre post post' : List Arm} {arm : Arm}
    (hn : d.name = d'.name) (hb : d.body = .tagged none (pre ++ arm :: post))
    (hb' : d'.body = .tagged none (pre ++ arm :: post')) (hx : d.xfs = []) (hx' : d'.xfs = [])
    (hnd : d.FieldsNodup) (hnd' : d'.FieldsNodup) (hpre : ∀ a ∈ pre, Passed X a) (ha : Applies X arm)
    (bs : Bytes) : runProg X (genDecl d) bs = runProg X (genDecl d') bs := by
  rw [runProg_genDecl X d hnd, runProg_genDecl X d' hnd']
  simp only [decDecl, hb, hb', hx, hx', List.reverse_nil, decXforms, decLimited]
  rw [decArms_split hpre ha, decArms_split hpre ha, hn]

/-- **C07, decoding (c).** If no arm applies, decoding returns an error and reads nothing. -/
theorem no_arm_is_error (X : Ext) (d : Decl) {arms} (hb : d.body = .tagged none arms)
    (hx : d.xfs = []) (hnd : d.FieldsNodup) (hall : ∀ a ∈ arms, Passed X a) (bs : Bytes) :
    ∃ msg, runProg X (genDecl d) bs = .error (.err msg) := by
  refine ⟨"no enum conditions matched for " ++ d.name, ?_⟩
  rw [runProg_genDecl X d hnd]
  simp only [decDecl, hb, hx, List.reverse_nil, decXforms, decLimited]
  clear hb hnd
  induction arms with
  | nil => rfl
  | cons a l ih =>
    obtain ⟨e, hc, he⟩ := hall a (by simp)
    simp only [decArms, hc, he, ok_bind, Val.toBool, Bool.false_eq_true, if_false]
    exact ih fun x hx => hall x (by simp [hx])

/-- `type t(kind: u8) = tagged_enum { a: u8 {kind == 1}, b: container { x: u16, } {kind == 2}, }` -/
def tagDecl : Decl :=
  ⟨"t", ["kind"], [], .tagged none
    [⟨⟨"a", some (.binary .eq (.inputRef "kind") (.int ⟨.u8, 1⟩)), [], none⟩, .leaf u8T⟩,
     ⟨⟨"b", some (.binary .eq (.inputRef "kind") (.int ⟨.u8, 2⟩)), [], none⟩,
      .cont none (.leaf (plain "x") u16T .nil)⟩]⟩

theorem tagDecl_nodup : tagDecl.FieldsNodup := by
  simp [tagDecl, Decl.FieldsNodup, Fields.names, Fields.leaves]

def kindExt (k : Int) : Ext :=
  ⟨true, fun n => if n = "kind" then some (vu8 k) else none, fun _ _ _ => .error .ill,
    fun _ _ _ => .error .ill, fun _ _ _ => .error .ill⟩

/-- The second arm is taken when the first one does not apply. -/
example : runProg (kindExt 2) (genDecl tagDecl) [1, 2, 3] =
    .ok (.variantS "t" "b" [("x", vu16 258)], [3]) := by
  rw [runProg_genDecl _ _ tagDecl_nodup]; rfl

/-- No arm applies. -/
example : runProg (kindExt 3) (genDecl tagDecl) [1, 2, 3] =
    .error (.err "no enum conditions matched for t") := by
  rw [runProg_genDecl _ _ tagDecl_nodup]; rfl

/-! ## C11 and C12, decoding -/

/-- **C11, top level.** Decoding `container[e]` where `e` is `n`: the outcome is decided by the first
`n` bytes of the stream, and every byte from `n` on is left untouched. -/
theorem limited_decl_within_length (X : Ext) (d : Decl) {e : Expr} {items : Fields}
    (hb : d.body = .struct (some e) items) (hx : d.xfs = []) (hnd : items.names.Nodup)
    {v : Val} {n : Nat} (hv : ev X Env.empty e = .ok v) (hn : asUsize v = .ok n) (head : Bytes) :
    ∃ inner : Res (Val × Bytes), ∀ bs, bs.take n = head →
      runProg X (genDecl d) bs = inner.map fun y => (y.1, y.2 ++ bs.drop n) := by
  refine ⟨(decItems X items Env.empty head).map fun y => (Val.struct d.name y.1, y.2), ?_⟩
  intro bs hbs
  rw [runProg_genDecl X d (by simpa [Decl.FieldsNodup, hb] using hnd)]
  simp only [decDecl, hb, hx, List.reverse_nil, decXforms, decLimited, hv, hn, ok_bind, hbs]
  cases decItems X items Env.empty head <;> rfl

/-- **C11, nested.** The same for a container with a length inside another one, after any fields. -/
theorem limited_field_within_length (X : Ext) (a : FAttr) (hc : a.cond = none) (hx : a.xfs = [])
    {e : Expr} (items : Fields) (env : Env)
    {v : Val} {n : Nat} (hv : ev X env e = .ok v) (hn : asUsize v = .ok n) (head : Bytes) :
    ∃ inner : Res (List (String × Val) × Bytes), ∀ bs, bs.take n = head →
      decItems X (.cont a (some e) items .nil) env bs = inner.map fun y => (y.1, y.2 ++ bs.drop n) := by
  refine ⟨decItems X items env head, ?_⟩
  intro bs hbs
  simp only [decItems, hc, hx, decCond, List.reverse_nil, decXforms, decLimited, hv, hn, ok_bind, hbs]
  cases decItems X items env head with
  | error _ => rfl
  | ok y => simp [Except.map, ok_bind]

/-- `type outer = container { inner: container[2] { a: u8, }, b: u8, }` -/
def shortDecl : Decl :=
  ⟨"outer", [], [], .struct none
    (.cont (plain "inner") (some (.int ⟨.u8, 2⟩)) (.leaf (plain "a") u8T .nil)
    (.leaf (plain "b") u8T .nil))⟩

theorem shortDecl_nodup : shortDecl.FieldsNodup := by
  simp [shortDecl, Decl.FieldsNodup, Fields.names, Fields.leaves, plain]

/-- **C12 is violated.** The container says it is two bytes long, its only field uses one: the next
field is read from inside the container (2), not from the byte after it (3). -/
theorem short_container_not_skipped (X : Ext) :
    runProg X (genDecl shortDecl) [1, 2, 3] =
      .ok (.struct "outer" [("a", vu8 1), ("b", vu8 2)], [3]) := by
  rw [runProg_genDecl _ _ shortDecl_nodup]; rfl

/-- **C12, decoding, partial.** If the fields inside use up the whole length, the following field
starts at the byte after the container. Missing: the unused rest of a longer container is not
skipped (`short_container_not_skipped`). -/
theorem exact_container_consumed_partial (X : Ext) (a : FAttr) (hc : a.cond = none) (hx : a.xfs = [])
    {e : Expr} (items : Fields) (env : Env) {v : Val} {n : Nat} (hv : ev X env e = .ok v)
    (hn : asUsize v = .ok n) (bs : Bytes) {vs}
    (hfull : decItems X items env (bs.take n) = .ok (vs, [])) (rest : Fields) :
    decItems X (.cont a (some e) items rest) env bs =
      (decItems X rest (env.bindAll vs) (bs.drop n)).map fun y => (vs ++ y.1, y.2) := by
  simp only [decItems, hc, hx, decCond, List.reverse_nil, decXforms, decLimited, hv, hn, ok_bind, hfull,
    List.nil_append]
  cases decItems X rest (env.bindAll vs) (bs.drop n) <;> rfl

/-! ## C13, decoding -/

theorem chunksN_length (size : Nat) : ∀ n bs, (chunksN size n bs).length = n
  | 0, _ => rfl
  | n + 1, bs => by simp [chunksN, chunksN_length size n]

theorem decN_length {f : Bytes → Res (Val × Bytes)} : ∀ {n bs vs rest}, decN f n bs = .ok (vs, rest) →
    vs.length = n
  | 0, _, _, _, h => by cases h; rfl
  | n + 1, bs, vs, rest, h => by
    simp only [decN] at h
    obtain ⟨y, _, h⟩ := ok_of_bind h
    obtain ⟨z, hz, h⟩ := ok_of_bind h
    obtain ⟨z1, z2⟩ := z
    cases h
    simp [decN_length hz]

theorem scalar_size_pos (k : Scalar) : 0 < k.size := by cases k <;> decide

theorem prim_size_pos (p : Prim) : 0 < p.size := by
  cases p with
  | scalar s => exact scalar_size_pos s.scalar
  | _ => decide

theorem mapM_length {α β} {f : α → Res β} : ∀ {l : List α} {vs}, l.mapM f = .ok vs → vs.length = l.length
  | [], vs, h => by cases h; rfl
  | a :: l, vs, h => by
    simp only [List.mapM_cons] at h
    obtain ⟨x, _, h⟩ := ok_of_bind h
    obtain ⟨xs, hxs, h⟩ := ok_of_bind h
    cases h
    simp [mapM_length hxs]

theorem readExact_short {n : Nat} {bs : Bytes} (h : bs.length < n) :
    readExact n bs = .error (.err "unexpected end of file") := by simp [readExact, h]

theorem readExact_long {n : Nat} {bs : Bytes} (h : n ≤ bs.length) :
    readExact n bs = .ok (bs.take n, bs.drop n) := by
  unfold readExact; rw [if_neg (by omega)]

/-- Reading a block of `n` items at once or one item after the other is the same. -/
theorem decN_prim (p : Prim) : ∀ n bs, decN (decPrim p) n bs =
    (readExact (n * p.size) bs).map fun y =>
      ((chunksN p.size n y.1).map (primOfBytes p), y.2)
  | 0, bs => by simp [decN, chunksN, readExact, Except.map]
  | n + 1, bs => by
    have hmul : (n + 1) * p.size = p.size + n * p.size := by rw [Nat.add_mul, Nat.one_mul, Nat.add_comm]
    simp only [decN, decPrim]
    by_cases h1 : bs.length < p.size
    · rw [readExact_short h1, readExact_short (by omega)]; rfl
    · rw [readExact_long (by omega)]
      simp only [ok_bind]
      have ih := decN_prim p n (bs.drop p.size)
      rw [ih]
      by_cases h2 : bs.length < (n + 1) * p.size
      · rw [readExact_short h2, readExact_short (by simp; omega)]; rfl
      · rw [readExact_long (by simp; omega), readExact_long (by omega)]
        simp only [Except.map, ok_bind, chunksN, List.map_cons, List.drop_drop, List.take_take,
          List.drop_take, hmul]
        rw [Nat.min_eq_left (by omega), Nat.add_sub_cancel_left]

/-- **C13, decoding (a).** A fixed-length array decodes to exactly the declared number of elements, in builds with
overflow checks, and for less than 2^60 elements in others (beyond that: `array_count_wraps`). -/
theorem decoded_array_length (X : Ext) (env : Env) (elem : LTy) (e : Expr) {v : Val} {i : CInt}
    (hv : ev X env e = .ok v) (hi : v = .int i) (hpos : 0 ≤ i.val) (hlt : i.val < 2 ^ 64)
    (hoc : X.oc = true ∨ i.val < 2 ^ 60)
    {bs w rest} (h : decLeaf X env (.array elem (.fixed e)) bs = .ok (w, rest)) :
    ∃ ws, w = .arr ws ∧ (ws.length : Int) = i.val := by
  subst hi
  have hu : asUsize (.int i) = .ok i.val.toNat := by
    have : Scalar.u64.wrap i.val = i.val := by
      simp only [Scalar.wrap, Scalar.signed, Scalar.bits, Scalar.size]
      simp
      omega
    simp [asUsize, Val.toInt, ok_bind, this]
  simp only [decLeaf, hv, ok_bind] at h
  cases hr : elem.resolved with
  | prim p =>
    simp only [hr, hu, ok_bind, decPrimArray] at h
    split at h
    · cases h
    · have hs : p.size ≤ 16 := by
        cases p with
        | scalar s => obtain ⟨k, _⟩ := s; cases k <;> simp [Prim.size, Scalar.size]
        | _ => decide
      have ho : X.oc = true ∨ i.val.toNat * p.size < 2 ^ 64 := hoc.imp id fun h => by
        have := Nat.mul_le_mul (show i.val.toNat ≤ 2 ^ 60 - 1 by omega) hs
        omega
      by_cases hb : 2 ^ 63 ≤ i.val.toNat * p.size
      · rw [readItems_big ho hb] at h; cases h
      · rw [readItems_small _ (by omega)] at h
        obtain ⟨y, hy, h⟩ := ok_of_bind h
        obtain ⟨y1, y2⟩ := y
        cases h
        refine ⟨_, rfl, ?_⟩
        unfold readExact at hy
        split at hy
        · cases hy
        · cases hy
          have := prim_size_pos p
          rw [List.length_map]
          unfold chunksExact
          rw [chunksN_length, List.length_take, Nat.min_eq_left (by omega),
            Nat.mul_div_cancel _ this]
          omega
  | repr t =>
    simp only [hr, hu, ok_bind, decReprArray] at h
    have hs : t.rep.scalar.size ≤ 16 := by
      generalize t.rep.scalar = k
      cases k <;> decide
    have ho : X.oc = true ∨ i.val.toNat * t.rep.scalar.size < 2 ^ 64 := hoc.imp id fun h => by
      have := Nat.mul_le_mul (show i.val.toNat ≤ 2 ^ 60 - 1 by omega) hs
      omega
    by_cases hb : 2 ^ 63 ≤ i.val.toNat * t.rep.scalar.size
    · rw [readItems_big ho hb] at h; cases h
    · rw [readItems_small _ (by omega)] at h
      obtain ⟨y, hy, h⟩ := ok_of_bind h
      obtain ⟨y1, y2⟩ := y
      obtain ⟨vs, hvs, h⟩ := ok_of_bind h
      cases h
      refine ⟨_, rfl, ?_⟩
      have hlen := mapM_length hvs
      unfold readExact at hy
      split at hy
      · cases hy
      · cases hy
        have := scalar_size_pos t.rep.scalar
        simp only at hlen
        rw [hlen]
        unfold chunksExact
        rw [chunksN_length, List.length_take, Nat.min_eq_left (by omega), Nat.mul_div_cancel _ this]
        omega
  | other =>
    simp only [hr] at h
    obtain ⟨n, hn, h⟩ := ok_of_bind h
    obtain ⟨y, hy, h⟩ := ok_of_bind h
    obtain ⟨y1, y2⟩ := y
    cases h
    refine ⟨_, rfl, ?_⟩
    rw [decN_length hy]
    simp only [loopCount, Val.toInt, ok_bind] at hn
    split at hn
    · cases hn
    · cases hn
      omega

/-- **C13 is violated** in builds without overflow checks: the number of bytes is computed modulo 2^64, so
2^61 elements of eight bytes come out as none at all, whatever follows. -/
theorem array_count_wraps (X : Ext) (hoc : X.oc = false) (env : Env) (bs : Bytes) :
    decLeaf X env (.array (.prim (.scalar ⟨.u64, .big⟩)) (.fixed (.int ⟨.u64, 2 ^ 61⟩))) bs = .ok (.arr [], bs) := by
  simp only [decLeaf, LTy.resolved, ev, evalE, ok_bind, hoc]
  have h : readItems false 8 (some (2 ^ 61)) bs = .ok ([], bs) := by
    simp only [readItems, usizeMul, allocBytes, readExact]
    rw [if_neg (by decide)]
    simp [ok_bind]
  have hu : asUsize (.int ⟨.u64, 2 ^ 61⟩) = .ok (2 ^ 61) := rfl
  rw [hu]
  simp only [ok_bind, decPrimArray]
  rw [if_neg (by decide)]
  show (readItems false 8 (some (2 ^ 61)) bs >>= _) = _
  rw [h]
  simp [ok_bind, chunksExact, chunksN]

/-- **C13, decoding (b).** A fixed-length array of primitives is its elements one after the other. -/
theorem decoded_array_elements (oc : Bool) (p : Prim) (hp : p ≠ .bool) (n : Nat) (hn : n * p.size < 2 ^ 63)
    (bs : Bytes) :
    decPrimArray oc p (some n) bs = (decN (decPrim p) n bs).map fun y => (.arr y.1, y.2) := by
  rw [decN_prim]
  unfold decPrimArray
  rw [if_neg hp, readItems_small _ hn]
  unfold readExact
  by_cases h : bs.length < n * p.size
  · simp only [h, if_true]; rfl
  · simp only [h, if_false]
    simp only [ok_bind, Except.map, chunksExact, List.length_take]
    rw [Nat.min_eq_left (by omega), Nat.mul_div_cancel _ (prim_size_pos p)]

example : decPrimArray true (.scalar ⟨.u16, .big⟩) (some 2) [0, 1, 0, 2, 9] =
    .ok (.arr [vu16 1, vu16 2], [9]) := rfl

/-! ## C14 -/

/-- **C14, consuming.** `T[..]` leaves nothing of its stream. -/
theorem unbounded_consumes_all (X : Ext) (env : Env) (elem : LTy) {bs v rest}
    (h : decLeaf X env (.array elem .unbounded) bs = .ok (v, rest)) : rest = [] := by
  simp only [decLeaf] at h
  cases hr : elem.resolved with
  | prim p =>
    simp only [hr, decPrimArray] at h
    split at h
    · cases h
    · simp [readItems, ok_bind] at h; exact h.2
  | repr t =>
    simp only [hr, decReprArray, readItems, ok_bind] at h
    obtain ⟨vs, _, h⟩ := ok_of_bind h
    cases h; rfl
  | other =>
    simp only [hr] at h
    obtain ⟨y, _, h⟩ := ok_of_bind h
    cases h; rfl

/-- **C14 is violated.** Three bytes are not a whole number of `u16`, yet `u16[..]` accepts them and
drops the last byte. -/
theorem unbounded_drops_tail (X : Ext) (env : Env) :
    decLeaf X env (.array u16T .unbounded) [0, 1, 7] = .ok (.arr [vu16 1], []) := rfl

/-- **C14, partial.** For a whole number of elements all of them are returned in order (the bytes are
those of the elements one after the other); for element types that are not primitive, enum or bitfield,
bytes that are not a whole number of elements make decoding fail (`decAll` decodes element after
element until nothing is left). Missing: primitive, enum and bitfield elements drop an incomplete last
element (`unbounded_drops_tail`). -/
theorem unbounded_whole_elements_partial (oc : Bool) (p : Prim) (hp : p ≠ .bool) (n : Nat) (bs : Bytes)
    (hlen : bs.length = n * p.size) :
    decPrimArray oc p none bs = (decN (decPrim p) n bs).map fun y => (.arr y.1, y.2) := by
  rw [decN_prim]
  unfold decPrimArray readItems
  rw [if_neg hp]
  unfold readExact
  rw [if_neg (by omega)]
  simp only [ok_bind, Except.map, chunksExact]
  rw [hlen, Nat.mul_div_cancel _ (prim_size_pos p), ← hlen, List.take_length, List.drop_length]

/-- Elements decoded one after the other until nothing is left are elements decoded `n` times. -/
theorem decAll_is_decN {f : Bytes → Res (Val × Bytes)} : ∀ {fuel bs vs rest},
    decAll f fuel bs = .ok (vs, rest) → rest = [] ∧ decN f vs.length bs = .ok (vs, []) := by
  intro fuel
  induction fuel with
  | zero =>
    intro bs vs rest h
    unfold decAll at h
    by_cases hb : bs = []
    · rw [if_pos hb] at h; cases h; subst hb; exact ⟨rfl, rfl⟩
    · rw [if_neg hb] at h; cases h
  | succ n ih =>
    intro bs vs rest h
    unfold decAll at h
    by_cases hb : bs = []
    · rw [if_pos hb] at h; cases h; subst hb; exact ⟨rfl, rfl⟩
    · rw [if_neg hb] at h
      obtain ⟨y, hy, h⟩ := ok_of_bind h
      obtain ⟨v, b1⟩ := y
      simp only at h
      by_cases hlt : b1.length < bs.length
      · rw [if_pos hlt] at h
        obtain ⟨z, hz, h⟩ := ok_of_bind h
        obtain ⟨z1, z2⟩ := z
        cases h
        obtain ⟨h1, h2⟩ := ih hz
        refine ⟨h1, ?_⟩
        simp only [List.length_cons, decN, hy, ok_bind, h2]
      · rw [if_neg hlt] at h; cases h

/-- **C14, other element types.** On success the input is exactly a sequence of elements. -/
theorem unbounded_other_is_elements (X : Ext) (env : Env) (elem : LTy) (hr : elem.resolved = .other)
    {bs v rest} (h : decLeaf X env (.array elem .unbounded) bs = .ok (v, rest)) :
    ∃ vs, v = .arr vs ∧ decN (decLeaf X env elem) vs.length bs = .ok (vs, []) := by
  simp only [decLeaf, hr] at h
  obtain ⟨y, hy, h⟩ := ok_of_bind h
  obtain ⟨vs, r⟩ := y
  cases h
  exact ⟨vs, rfl, (decAll_is_decN hy).2⟩

/-! ## C15, decoding -/

/-- Elements are decoded one after the other, the terminator being absent at every boundary before the
last one. -/
inductive Before (f : Bytes → Res (Val × Bytes)) (t : Bytes) : List Val → Bytes → Bytes → Prop
  | nil (bs) : Before f t [] bs bs
  | cons {v vs bs b1 r} : f bs = .ok (v, b1) → bs.take t.length ≠ t → Before f t vs b1 r →
      Before f t (v :: vs) bs r

theorem decUntil_before {f : Bytes → Res (Val × Bytes)} {t : Bytes} : ∀ {fuel bs vs rest},
    decUntil f t fuel bs = .ok (vs, rest) →
    ∃ at_, Before f t vs bs at_ ∧ ((at_ = [] ∧ rest = []) ∨ (at_ ≠ [] ∧ at_ = t ++ rest)) := by
  intro fuel
  induction fuel with
  | zero =>
    intro bs vs rest h
    unfold decUntil at h
    by_cases h0 : bs = []
    · rw [if_pos h0] at h; cases h; exact ⟨bs, .nil _, Or.inl ⟨h0, h0⟩⟩
    · rw [if_neg h0] at h
      by_cases h1 : bs.length < t.length
      · rw [if_pos h1] at h; cases h
      · rw [if_neg h1] at h
        by_cases h2 : bs.take t.length = t
        · rw [if_pos h2] at h; cases h
          refine ⟨bs, .nil _, Or.inr ⟨h0, ?_⟩⟩
          conv => lhs; rw [← List.take_append_drop t.length bs, h2]
        · rw [if_neg h2] at h; cases h
  | succ n ih =>
    intro bs vs rest h
    unfold decUntil at h
    by_cases h0 : bs = []
    · rw [if_pos h0] at h; cases h; exact ⟨bs, .nil _, Or.inl ⟨h0, h0⟩⟩
    · rw [if_neg h0] at h
      by_cases h1 : bs.length < t.length
      · rw [if_pos h1] at h; cases h
      · rw [if_neg h1] at h
        by_cases h2 : bs.take t.length = t
        · rw [if_pos h2] at h; cases h
          refine ⟨bs, .nil _, Or.inr ⟨h0, ?_⟩⟩
          conv => lhs; rw [← List.take_append_drop t.length bs, h2]
        · rw [if_neg h2] at h
          obtain ⟨y, hy, h⟩ := ok_of_bind h
          obtain ⟨v, b1⟩ := y
          simp only at h
          by_cases hlt : b1.length < bs.length
          · rw [if_pos hlt] at h
            obtain ⟨z, hz, h⟩ := ok_of_bind h
            obtain ⟨z1, z2⟩ := z
            cases h
            obtain ⟨a, hb, ha⟩ := ih hz
            exact ⟨a, .cons hy h2 hb, ha⟩
          · rw [if_neg hlt] at h; cases h

/-- **C15, what is returned (partial).** When decoding `T[..e]` succeeds, the elements are those before
the first element boundary at which the terminator appears, and the terminator is consumed; or the input
ended at an element boundary without a terminator. Missing: that second case is not an error, and
decoding need not terminate (`terminated_array_diverges`). -/
theorem terminated_array_partial (X : Ext) (env : Env) (elem : LTy) (e : Expr) {tv : Val} {t : Bytes}
    (hv : ev X env e = .ok tv) (ht : tv.toBytes = some t) {bs v rest}
    (h : decLeaf X env (.array elem (.term e)) bs = .ok (v, rest)) :
    ∃ vs at_, v = .arr vs ∧ Before (decLeaf X env elem) t vs bs at_ ∧
      ((at_ = [] ∧ rest = []) ∨ (at_ ≠ [] ∧ at_ = t ++ rest)) := by
  simp only [decLeaf, hv, ok_bind, ht, optRes] at h
  obtain ⟨y, hy, h⟩ := ok_of_bind h
  obtain ⟨vs, r⟩ := y
  cases h
  obtain ⟨a, h1, h2⟩ := decUntil_before hy
  exact ⟨vs, a, rfl, h1, h2⟩

/-- **C15 is violated.** With a two-byte terminator and one byte left, the generated loop never ends. -/
theorem terminated_array_diverges (X : Ext) (env : Env) :
    decLeaf X env (.array u8T (.term (.str [13, 10]))) [65, 66, 67] = .error .diverge := rfl

/-- **C15 is violated.** A missing terminator is not noticed. -/
theorem missing_terminator_accepted (X : Ext) (env : Env) :
    decLeaf X env (.array u8T (.term (.str [0]))) [65, 66] = .ok (.arr [vu8 65, vu8 66], []) := rfl

example (X : Ext) (env : Env) :
    decLeaf X env (.array u8T (.term (.str [0]))) [65, 66, 0, 9] = .ok (.arr [vu8 65, vu8 66], [9]) := rfl

/-- **C15, termination (partial).** With a one-byte terminator, decoding elements that always consume
something (and do not loop themselves) never loops. -/
theorem terminated_array_ends_partial {f : Bytes → Res (Val × Bytes)} (t : UInt8)
    (hf : ∀ bs, f bs ≠ .error .diverge) (hp : ∀ bs v r, f bs = .ok (v, r) → r.length < bs.length) :
    ∀ bs, decUntil f [t] bs.length bs ≠ .error .diverge := by
  have key : ∀ fuel bs, bs.length ≤ fuel → decUntil f [t] fuel bs ≠ .error .diverge := by
    intro fuel
    induction fuel with
    | zero =>
      intro bs hl
      have : bs = [] := List.length_eq_zero_iff.1 (by omega)
      subst this
      simp [decUntil]
    | succ n ih =>
      intro bs hl
      unfold decUntil
      by_cases h0 : bs = []
      · rw [if_pos h0]; simp
      · have hpos : 0 < bs.length := List.length_pos_iff.2 h0
        rw [if_neg h0, if_neg (by simp; omega)]
        by_cases h2 : bs.take [t].length = [t]
        · rw [if_pos h2]; simp
        · rw [if_neg h2]
          cases hy : f bs with
          | error g => simp only [err_bind]; intro h; cases h; exact hf bs hy
          | ok y =>
            obtain ⟨v, b1⟩ := y
            have hlt := hp bs v b1 hy
            simp only [ok_bind, hlt, if_true]
            intro h
            cases hz : decUntil f [t] n b1 with
            | error g => rw [hz] at h; cases h; exact ih b1 (by omega) hz
            | ok z => rw [hz] at h; cases h
  intro bs
  exact key bs.length bs (Nat.le_refl _)

/-! ## Nested `Take` adapters are windows -/

/-- Nested `std::io::Take` adapters over one reader: remaining limits, outermost first. -/
abbrev Takes := List Nat

/-- What the outermost adapter can still deliver. -/
def avail : Takes → Bytes → Bytes
  | [], b => b
  | l :: ls, b => (avail ls b).take l

/-- Reading `k` bytes through all adapters lowers every limit. -/
def afterRead (k : Nat) (ls : Takes) : Takes := ls.map (· - k)

/-- The window of the model for a stack of adapters: how many bytes of the reader are beyond it. -/
def stopOf : Takes → Bytes → Nat
  | [], _ => 0
  | l :: ls, b => max (stopOf ls b) (b.length - l)

theorem avail_eq (ls : Takes) (b : Bytes) : avail ls b = b.take (b.length - stopOf ls b) := by
  induction ls with
  | nil => simp [avail, stopOf]
  | cons l ls ih =>
    simp only [avail, stopOf, ih, List.take_take]
    congr 1
    by_cases h : l ≤ b.length
    · omega
    · -- a limit beyond the end changes nothing
      omega

/-- The model's reader variables (`Win`, `Constrict`) are nested `Take` adapters: a new adapter of `l`
bytes is the window `Constrict` makes; what is visible is what the adapters deliver; reading `k`
available bytes through them leaves the window where it was, for all the adapters of the stack. -/
theorem take_is_window (ls : Takes) (b : Bytes) (l k : Nat) (hk : k ≤ (avail ls b).length) :
    avail (l :: ls) b = b.take (b.length - max (stopOf ls b) (b.length - l)) ∧
    avail ls b = b.take (b.length - stopOf ls b) ∧
    avail (afterRead k ls) (b.drop k) = (avail ls b).drop k ∧
    stopOf (afterRead k ls) (b.drop k) = stopOf ls b := by
  have h4 : ∀ ls : Takes, k ≤ (avail ls b).length → stopOf (afterRead k ls) (b.drop k) = stopOf ls b := by
    intro ls
    induction ls with
    | nil => intro _; rfl
    | cons l ls ih =>
      intro hk
      have hk1 : k ≤ (avail ls b).length := by
        simp only [avail, List.length_take] at hk; omega
      have hkl : k ≤ l := by simp only [avail, List.length_take] at hk; omega
      have := ih hk1
      simp only [afterRead, List.map_cons, stopOf, List.length_drop] at this ⊢
      rw [this]
      congr 1
      omega
  refine ⟨avail_eq (l :: ls) b, avail_eq ls b, ?_, h4 ls hk⟩
  rw [avail_eq (afterRead k ls), h4 ls hk, avail_eq ls b]
  rw [avail_eq ls b] at hk
  simp only [List.length_drop, List.length_take] at hk ⊢
  rw [List.drop_take]
  congr 1
  omega

example : avail [2, 5] [1, 2, 3, 4, 5, 6] = [1, 2] ∧
    avail (afterRead 1 [2, 5]) [2, 3, 4, 5, 6] = [2] := ⟨rfl, rfl⟩


/-! ## Wire values of `bool`, enums and bitfields (C01, C17, C20) -/

/-- A `bool` is one byte; every byte but zero is `true`. -/
theorem bool_decodes (b : UInt8) (rest : Bytes) :
    decPrim .bool (b :: rest) = .ok (.bool (decide (b ≠ 0)), rest) := by
  have h : readExact (Prim.size .bool) (b :: rest) = .ok ([b], rest) := by
    simp [readExact, Prim.size]
  unfold decPrim
  rw [h, ok_bind]
  have : leNat [b] = b.toNat := by simp [leNat]
  simp only [primOfBytes, this]
  have e : (b.toNat ≠ 0) ↔ b ≠ 0 := by
    constructor
    · rintro h rfl; exact h rfl
    · intro h h0; exact h (UInt8.toNat_inj.mp (by simpa using h0))
  by_cases hb : b = 0
  · subst hb; rfl
  · simp [hb, e.mpr hb]

private theorem readExact_append {raw rest : Bytes} {n : Nat} (h : raw.length = n) :
    readExact n (raw ++ rest) = .ok (raw, rest) := by
  rw [readExact_long (by simp; omega), List.take_left' h, List.drop_left' h]

private theorem fromRepr_unit {items : List (String × Option Int)} (hd : ∀ m, (m, none) ∉ items) {x : Int}
    {e : EnumVal} (h : fromReprArms items x = some e) : ∃ m, e = .unit m ∧ (m, some x) ∈ items := by
  induction items with
  | nil => cases h
  | cons p rest ih =>
    obtain ⟨m, v⟩ := p
    cases v with
    | none => exact absurd (List.mem_cons_self) (hd m)
    | some v =>
      simp only [fromReprArms] at h
      split at h
      · rename_i hx; cases h; exact ⟨m, rfl, by simp [hx]⟩
      · obtain ⟨m', h1, h2⟩ := ih (fun n hn => hd n (List.mem_cons_of_mem _ hn)) h
        exact ⟨m', h1, List.mem_cons_of_mem _ h2⟩

/-- C17 on the wire: decoding an enum without a default variant yields a variant declared with the
number on the wire, or an error if there is none. -/
theorem enum_decodes (n : String) (d : EnumDecl) (hd : ∀ m, (m, none) ∉ d.items) (raw rest : Bytes)
    (hr : raw.length = d.rep.scalar.size) :
    (∃ m, (m, some (bytesInt d.rep raw)) ∈ d.items ∧
      decRepr (.enum n d) (raw ++ rest) =
        .ok (.enm n (.unit m) ⟨d.rep.scalar, bytesInt d.rep raw⟩, rest)) ∨
    ((∀ m, (m, some (bytesInt d.rep raw)) ∉ d.items) ∧
      ∃ msg, decRepr (.enum n d) (raw ++ rest) = .error (.err msg)) := by
  have h : readExact (ReprTy.rep (.enum n d)).scalar.size (raw ++ rest) = .ok (raw, rest) :=
    readExact_append hr
  unfold decRepr
  rw [h, ok_bind]
  simp only [ofRepr]
  cases hf : d.fromRepr (bytesInt d.rep raw) with
  | some e =>
    obtain ⟨m, rfl, hm⟩ := fromRepr_unit hd hf
    left
    refine ⟨m, hm, ?_⟩
    simp only [ReprTy.rep, hf, ok_bind]
  | none =>
    right
    refine ⟨?_, ?_⟩
    · intro m hm
      obtain ⟨e, he⟩ := (enum_accepts_declared d hd _).mpr ⟨m, hm⟩
      rw [hf] at he; cases he
    · simp only [ReprTy.rep, hf]
      exact ⟨_, rfl⟩

/-- C17 on the wire: with a default variant every number decodes, and encodes back to itself. -/
theorem enum_default_decodes (n dn : String) (d : EnumDecl) (hd : (dn, none) ∈ d.items) (raw rest : Bytes)
    (hr : raw.length = d.rep.scalar.size) :
    ∃ e, decRepr (.enum n d) (raw ++ rest) = .ok (.enm n e ⟨d.rep.scalar, bytesInt d.rep raw⟩, rest) := by
  have h : readExact (ReprTy.rep (.enum n d)).scalar.size (raw ++ rest) = .ok (raw, rest) :=
    readExact_append hr
  obtain ⟨e, he⟩ := enum_default_accepts_all d dn hd (bytesInt d.rep raw)
  refine ⟨e, ?_⟩
  unfold decRepr
  rw [h, ok_bind]
  simp only [ofRepr, ReprTy.rep, he, ok_bind]

/-- C20 on the wire: decoding a bitfield keeps the bits, or fails if one of them is undeclared. -/
theorem bitfield_decodes (n : String) (d : BitfieldDecl) (raw rest : Bytes)
    (hr : raw.length = d.rep.scalar.size) :
    ((∀ i < d.rep.scalar.bits, bitAt (bytesInt d.rep raw) i = true → ∃ p ∈ d.flags, bitAt p.2 i = true) →
      decRepr (.bitfield n d) (raw ++ rest) = .ok (.bits n ⟨d.rep.scalar, bytesInt d.rep raw⟩, rest)) ∧
    (∀ i < d.rep.scalar.bits, bitAt (bytesInt d.rep raw) i = true → (∀ p ∈ d.flags, bitAt p.2 i = false) →
      ∃ msg, decRepr (.bitfield n d) (raw ++ rest) = .error (.err msg)) := by
  have h : readExact (ReprTy.rep (.bitfield n d)).scalar.size (raw ++ rest) = .ok (raw, rest) :=
    readExact_append hr
  obtain ⟨ha, hb⟩ := bitfield_accepts d (bytesInt d.rep raw)
  unfold decRepr
  rw [h, ok_bind]
  simp only [ofRepr, ReprTy.rep]
  constructor
  · intro hd
    obtain ⟨y, hy⟩ := ha.mpr hd
    rw [hy, hb y hy, ok_bind]
  · intro i hi h1 h2
    cases hf : d.fromRepr (bytesInt d.rep raw) with
    | some y =>
      obtain ⟨p, hp, hp2⟩ := ha.mp ⟨y, hf⟩ i hi h1
      rw [h2 p hp] at hp2; cases hp2
    | none => exact ⟨_, rfl⟩

/-- A concrete enum and bitfield meeting the hypotheses. -/
example : decRepr (.enum "E" ⟨⟨.u16, .big⟩, [("A", some 1), ("B", some 258)]⟩) [1, 2, 9] =
      .ok (.enm "E" (.unit "B") ⟨.u16, 258⟩, [9]) ∧
    decRepr (.enum "E" ⟨⟨.u16, .big⟩, [("A", some 1), ("B", some 258)]⟩) [1, 3, 9] =
      .error (.err "invalid enum value") ∧
    decRepr (.bitfield "F" ⟨⟨.u8, .big⟩, [("X", 1), ("Y", 8)]⟩) [9, 0] =
      .ok (.bits "F" ⟨.u8, 9⟩, [0]) := ⟨rfl, rfl, rfl⟩

end Verif.Props
