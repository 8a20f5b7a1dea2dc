import Verif.EncodeSpec
import Verif.ExprLemmas
/-!
# The bytes of a container in declaration order

`wire` is the encoding of the items of a container when the value of every field is known: one item after
the other, nothing waits. `items_order` relates it to `encItems`, which models the order in which the
generated code works things out.
-/
namespace Verif.Enc

/-! ## Specification -/

/-- Inside a conditional container the values of its fields are plain. -/
def unwrap (ns : List String) (σ : Env) : Env := fun n =>
  if n ∈ ns then
    match σ n with
    | some (.opt (some w)) => some w
    | _ => none
  else σ n

/-- The stored fields of a container without a condition of their own, including those of nested
containers without a condition. -/
def plainNames : Fields → List String
  | .nil => []
  | .pad _ _ rest => plainNames rest
  | .leaf a _ rest => (if a.auto.isSome || a.cond.isSome then [] else [a.name]) ++ plainNames rest
  | .cont a _ items rest => (if a.cond.isSome then [] else plainNames items) ++ plainNames rest

/-- Written only if the condition holds. -/
def whenHolds (X : Ext) (σ : Env) (cond : Option Expr) (body : Res (List (String × Nat) × Bytes)) :
    Res (List (String × Nat) × Bytes) :=
  match cond with
  | none => body
  | some e => do
    let c ← ev X σ e
    let b ← c.toBool
    if b then body else .ok ([], [])

/-- The values inside a container. -/
def inside (a : FAttr) (items : Fields) (σ : Env) : Env :=
  if a.cond.isSome then unwrap (plainNames items) σ else σ

/-- The encoding of the items of a container, in declaration order, and the length of the content of each
container written. `σ` has the value of every field. -/
def wire (X : Ext) : Fields → Env → Res (List (String × Nat) × Bytes)
  | .nil, _ => .ok ([], [])
  | .pad _ e rest, σ => do
    let v ← ev X σ e
    let b ← padBytes v
    let (ls, bs) ← wire X rest σ
    .ok (ls, b ++ bs)
  | .leaf a ty rest, σ => do
    let v ← optRes (σ a.name)
    let b ← encField X σ a ty v
    let (ls, bs) ← wire X rest σ
    .ok (ls, b ++ bs)
  | .cont a _ items rest, σ => do
    let (l, b) ← whenHolds X σ a.cond (encXforms X σ a.xfs do
      let (l, b) ← wire X items (inside a items σ)
      .ok ((a.name, b.length) :: l, b))
    let (ls, bs) ← wire X rest σ
    .ok (l ++ ls, b ++ bs)

/-- The expression with every `blen(f)` of known length replaced by that number (`blen` itself has no
value). -/
def _root_.Verif.Expr.withLens (L : String → Option Nat) : Expr → Expr
  | .binary op l r => .binary op (l.withLens L) (r.withLens L)
  | .unary op e => .unary op (e.withLens L)
  | .cast s e t => .cast s (e.withLens L) t
  | .index a i => .index (a.withLens L) (i.withLens L)
  | .ternary c t f => .ternary (c.withLens L) (t.withLens L) (f.withLens L)
  | .len n e => .len n (e.withLens L)
  | .blen f =>
    match L f with
    | some n => .int ⟨.u64, n⟩
    | none => .blen f
  | .sum e => .sum (e.withLens L)
  | .bits e => .bits (e.withLens L)
  | .pad p b => .pad (p.withLens L) (b.withLens L)
  | .member e f v => .member (e.withLens L) f v
  | e => e

/-- The value of a calculated field that uses `blen` is that of its expression, the lengths being those
of the contents written. -/
def LengthEq (X : Ext) (Lg : List (String × Nat)) (a : FAttr) (σ : Env) : Prop :=
  ∀ e, a.auto = some e → e.blens ≠ [] →
    ∃ (L : String → Option Nat) (v : Val), (∀ f n, L f = some n → (f, n) ∈ Lg) ∧ σ a.name = some v ∧
      ev X σ (e.withLens L) = .ok v

/-- `LengthEq` for all items written. -/
def Calculated (X : Ext) (Lg : List (String × Nat)) : Fields → Env → Prop
  | .nil, _ => True
  | .pad _ _ rest, σ => Calculated X Lg rest σ
  | .leaf a _ rest, σ => LengthEq X Lg a σ ∧ Calculated X Lg rest σ
  | .cont a _ items rest, σ =>
    ((∀ e, a.cond = some e → ev X σ e = .ok (.bool true)) → Calculated X Lg items (inside a items σ)) ∧
    Calculated X Lg rest σ

/-! ## Which declarations -/

def XformUse.exprs (x : XformUse) : List Expr := x.cond.toList ++ x.args

def LTy.exprs : LTy → List Expr
  | .prim _ => []
  | .array elem len =>
    (match len with | .fixed e => [e] | .unbounded => [] | .term e => [e]) ++ LTy.exprs elem
  | .ref _ _ _ args => args

def FAttr.exprs (a : FAttr) : List Expr := a.cond.toList ++ a.xfs.flatMap XformUse.exprs

/-- All field references of the expressions are in `S`. -/
def In (S : String → Prop) (es : List Expr) : Prop := ∀ e ∈ es, ∀ n ∈ e.refs, S n

/-- The fields of a container that can be referred to after it: `vis` says which, and those inside
conditional containers are gone (their variables are out of scope in the generated code). -/
def visible (vis : FAttr → LTy → Bool) : Fields → List String
  | .nil => []
  | .pad _ _ rest => visible vis rest
  | .leaf a ty rest => (if vis a ty then [a.name] else []) ++ visible vis rest
  | .cont a _ items rest => (if a.cond.isSome then [] else visible vis items) ++ visible vis rest

/-- Expressions refer to earlier visible fields only. A calculated field that uses `blen` may refer to
earlier fields too, but not to one whose name is the internal name of a length. -/
def Scoped (vis : FAttr → LTy → Bool) : Fields → (String → Prop) → Prop
  | .nil, _ => True
  | .pad _ e rest, S => In S [e] ∧ Scoped vis rest S
  | .leaf a ty rest, S =>
    In S (FAttr.exprs a) ∧ In S (LTy.exprs ty) ∧
    (∀ e, a.auto = some e → e.blens ≠ [] → In S [e] ∧ ∀ n ∈ e.refs, ∀ f ∈ e.blens, n ≠ blenName f) ∧
    Scoped vis rest (fun n => S n ∨ (vis a ty = true ∧ n = a.name))
  | .cont a len items rest, S =>
    In S (FAttr.exprs a) ∧ In S len.toList ∧ Scoped vis items S ∧
    Scoped vis rest (fun n => S n ∨ (a.cond = none ∧ n ∈ visible vis items))

/-- At any time at most one calculated field of a container waits for a length (`W`: the lengths it waits
for), and it does not wait longer than to the end of the container. -/
def oneWaiting : Fields → Plan → Option (List String) → Bool
  | .nil, _, W => W.isNone
  | .pad _ _ rest, p, W => oneWaiting rest p (W.filter fun w => !p.known w)
  | .leaf a _ rest, p, W =>
    if (FAttr.blens a).isEmpty || p.known (FAttr.blens a) then oneWaiting rest p (W.filter fun w => !p.known w)
    else W.isNone && oneWaiting rest (p.await a) (some (FAttr.blens a))
  | .cont a len items rest, p, W =>
    oneWaiting items p none &&
      oneWaiting rest ((planItems items p).close a.name len)
        (W.filter fun w => !((planItems items p).close a.name len).known w)

/-! ## Knowing more does not change results -/

/-- `σ` knows at least what `env` knows about the names in `S`. -/
def Sub (S : String → Prop) (env σ : Env) : Prop := ∀ n, S n → ∀ v, env n = some v → σ n = some v

theorem ev_on {X : Ext} {S : String → Prop} {env σ : Env} (h : Sub S env σ) {e : Expr}
    (hs : ∀ n ∈ e.refs, S n) : OkLe (ev X env e) (ev X σ e) :=
  evalE_mono_on e (fun n hn v hv => h n (hs n hn) v hv) (fun _ _ h => h)

theorem args_on {X : Ext} {S : String → Prop} {env σ : Env} (h : Sub S env σ) {es : List Expr}
    (hs : In S es) : OkLe (es.mapM (ev X env)) (es.mapM (ev X σ)) :=
  OkLe.mapM es fun e he => ev_on h (hs e he)

theorem OkLe.encN {f g : Val → Res Bytes} (h : ∀ x, OkLe (f x) (g x)) (v : Val) :
    ∀ (n i : Nat), OkLe (encN f v i n) (encN g v i n)
  | 0, _ => OkLe.refl _
  | n + 1, i => by
    unfold Enc.encN
    exact OkLe.bind (OkLe.refl _) fun x => (h x).bind fun b => (OkLe.encN h v n (i + 1)).bind fun _ => OkLe.refl _

theorem encLeaf_on {X : Ext} {S : String → Prop} {env σ : Env} (h : Sub S env σ) :
    ∀ (ty : LTy) (_ : In S (LTy.exprs ty)) (v : Val), OkLe (encLeaf X env ty v) (encLeaf X σ ty v)
  | .prim _, _, _ => OkLe.refl _
  | .ref t f r args, hs, v => by
    unfold encLeaf
    exact (args_on h hs).bind fun _ => OkLe.refl _
  | .array elem len, hs, v => by
    have he := encLeaf_on (X := X) h elem (fun e he => hs e (by simp [LTy.exprs, he]))
    cases len with
    | fixed e =>
      have h1 := ev_on (X := X) h (e := e) (hs e (by simp [LTy.exprs]))
      simp only [encLeaf]
      refine h1.bind fun l => ?_
      cases elem.resolved with
      | prim p => exact OkLe.refl _
      | repr t => exact OkLe.refl _
      | other => exact OkLe.bind (OkLe.refl _) fun n => OkLe.encN he v n 0
    | unbounded =>
      simp only [encLeaf]
      cases elem.resolved with
      | prim p => exact OkLe.refl _
      | repr t => exact OkLe.refl _
      | other => exact OkLe.bind (OkLe.refl _) fun n => OkLe.encN he v n 0
    | term e =>
      have h1 := ev_on (X := X) h (e := e) (hs e (by simp [LTy.exprs]))
      simp only [encLeaf]
      exact h1.bind fun t => OkLe.bind (OkLe.refl _) fun n => (OkLe.encN he v n 0).bind fun _ => OkLe.refl _

theorem encXforms_on {α} {X : Ext} {S : String → Prop} {env σ : Env} (h : Sub S env σ) {k k' : Res (α × Bytes)}
    (hk : OkLe k k') : ∀ (xs : List XformUse) (_ : In S (xs.flatMap XformUse.exprs)),
      OkLe (encXforms X env xs k) (encXforms X σ xs k')
  | [], _ => hk
  | x :: xs, hs => by
    have ih := encXforms_on (X := X) h hk xs fun e he => hs e (by simp [he])
    have ha : In S x.args := fun e he => hs e (by simp [XformUse.exprs, he])
    have h1 : OkLe (do
        let vs ← x.args.mapM (ev X env)
        let (a, bs) ← encXforms X env xs k
        let out ← X.xform x.name vs bs
        .ok (a, out)) (do
        let vs ← x.args.mapM (ev X σ)
        let (a, bs) ← encXforms X σ xs k'
        let out ← X.xform x.name vs bs
        .ok (a, out)) := (args_on h ha).bind fun _ => ih.bind fun _ => OkLe.refl _
    unfold encXforms
    cases hc : x.cond with
    | none => exact h1
    | some e =>
      refine (ev_on (X := X) h (e := e) (hs e (by simp [XformUse.exprs, hc]))).bind fun c =>
        OkLe.bind (OkLe.refl _) fun b => ?_
      cases b with
      | true => exact h1
      | false => exact ih

theorem encField_on {X : Ext} {S : String → Prop} {env σ : Env} (h : Sub S env σ) {a : FAttr} {ty : LTy}
    (ha : In S (FAttr.exprs a)) (ht : In S (LTy.exprs ty)) (v : Val) :
    OkLe (encField X env a ty v) (encField X σ a ty v) := by
  have hx : In S (a.xfs.flatMap XformUse.exprs) := fun e he => ha e (by simp only [FAttr.exprs, List.mem_append]; exact .inr he)
  have hpl : ∀ w, OkLe (do
      let bs ← encLeaf X env ty w
      (.ok ((), bs) : Res (Unit × Bytes))) (do
      let bs ← encLeaf X σ ty w
      (.ok ((), bs) : Res (Unit × Bytes))) := fun w => (encLeaf_on h ty ht w).bind fun _ => OkLe.refl _
  unfold encField
  cases hc : a.cond with
  | none =>
    simp only [Option.isSome_none, Bool.false_and, Bool.false_eq_true, if_false]
    exact (encXforms_on h (OkLe.bind (OkLe.refl _) hpl) _ hx).bind fun _ => OkLe.refl _
  | some e =>
    refine (ev_on (X := X) h (e := e) (ha e (by simp [FAttr.exprs, hc]))).bind fun c =>
      OkLe.bind (OkLe.refl _) fun b => ?_
    cases b with
    | false => exact OkLe.refl _
    | true =>
      cases hau : a.auto with
      | none =>
        simp only [Option.isSome_some, Option.isNone_none, Bool.true_and, if_true]
        exact (encXforms_on h (OkLe.bind (OkLe.refl _) hpl) _ hx).bind fun _ => OkLe.refl _
      | some e' =>
        simp only [Option.isSome_some, Option.isNone_some, Bool.and_false, Bool.false_eq_true, if_false, if_true]
        exact (encXforms_on h (OkLe.bind (OkLe.refl _) hpl) _ hx).bind fun _ => OkLe.refl _

/-! ## Lengths in expressions -/

/-- An expression in which the lengths are looked up under their internal names has the value of the
expression with the lengths put in. -/
theorem evalE_unblen {rust oc : Bool} {lk lk' : Look} {L : String → Option Nat} : ∀ (e : Expr)
    (_ : ∀ n ∈ e.refs, ∀ v, lk.field n = some v → lk'.field n = some v)
    (_ : ∀ f ∈ e.blens, ∀ v, lk.field (blenName f) = some v → ∃ n, L f = some n ∧ v = .int ⟨.u64, n⟩)
    (_ : ∀ n v, lk.input n = some v → lk'.input n = some v),
    OkLe (evalE rust oc lk e.unblen) (evalE rust oc lk' (e.withLens L))
  | .binary op l r, hf, hb, hi => by
    have hl := evalE_unblen (rust := rust) (oc := oc) (lk := lk) (lk' := lk') (L := L) l
      (fun n h v hv => hf n (by simp [Expr.refs, h]) v hv) (fun f h v hv => hb f (by simp [Expr.blens, h]) v hv) hi
    have hr := evalE_unblen (rust := rust) (oc := oc) (lk := lk) (lk' := lk') (L := L) r
      (fun n h v hv => hf n (by simp [Expr.refs, h]) v hv) (fun f h v hv => hb f (by simp [Expr.blens, h]) v hv) hi
    have hs : OkLe (do
        let a ← evalE rust oc lk l.unblen
        let b ← evalE rust oc lk r.unblen
        rtBin oc op a b) (do
        let a ← evalE rust oc lk' (l.withLens L)
        let b ← evalE rust oc lk' (r.withLens L)
        rtBin oc op a b) := hl.bind fun a => hr.bind fun b => OkLe.refl _
    simp only [Expr.unblen, Expr.withLens]
    cases op with
    | or =>
      refine hl.bind fun a => OkLe.bind (OkLe.refl _) fun x => ?_
      split
      · exact OkLe.refl _
      · exact hr.bind fun b => OkLe.refl _
    | and =>
      refine hl.bind fun a => OkLe.bind (OkLe.refl _) fun x => ?_
      split
      · exact hr.bind fun b => OkLe.refl _
      · exact OkLe.refl _
    | elvis => exact hl.bind fun a => hr.bind fun b => OkLe.refl _
    | _ =>
      simp only [evalE]
      split
      · exact OkLe.refl _
      · exact hs
  | .unary op (.cast src e ty), hf, hb, hi => by
    have he := evalE_unblen (rust := rust) (oc := oc) (lk := lk) (lk' := lk') (L := L) e
      (fun n h v hv => hf n (by simp [Expr.refs, h]) v hv) (fun f h v hv => hb f (by simp [Expr.blens, h]) v hv) hi
    exact he.bind fun v => OkLe.refl _
  | .unary op (.binary a b c), hf, hb, hi =>
    (evalE_unblen (rust := rust) (oc := oc) (.binary a b c) hf hb hi).bind fun _ => OkLe.refl _
  | .unary op (.unary a b), hf, hb, hi =>
    (evalE_unblen (rust := rust) (oc := oc) (.unary a b) hf hb hi).bind fun _ => OkLe.refl _
  | .unary op (.index a b), hf, hb, hi =>
    (evalE_unblen (rust := rust) (oc := oc) (.index a b) hf hb hi).bind fun _ => OkLe.refl _
  | .unary op (.enumAccess a b c), hf, hb, hi =>
    (evalE_unblen (rust := rust) (oc := oc) (.enumAccess a b c) hf hb hi).bind fun _ => OkLe.refl _
  | .unary op (.int a), hf, hb, hi =>
    (evalE_unblen (rust := rust) (oc := oc) (.int a) hf hb hi).bind fun _ => OkLe.refl _
  | .unary op (.constRef a b), hf, hb, hi =>
    (evalE_unblen (rust := rust) (oc := oc) (.constRef a b) hf hb hi).bind fun _ => OkLe.refl _
  | .unary op (.inputRef a), hf, hb, hi =>
    (evalE_unblen (rust := rust) (oc := oc) (.inputRef a) hf hb hi).bind fun _ => OkLe.refl _
  | .unary op (.fieldRef a), hf, hb, hi =>
    (evalE_unblen (rust := rust) (oc := oc) (.fieldRef a) hf hb hi).bind fun _ => OkLe.refl _
  | .unary op (.str a), hf, hb, hi =>
    (evalE_unblen (rust := rust) (oc := oc) (.str a) hf hb hi).bind fun _ => OkLe.refl _
  | .unary op (.ternary a b c), hf, hb, hi =>
    (evalE_unblen (rust := rust) (oc := oc) (.ternary a b c) hf hb hi).bind fun _ => OkLe.refl _
  | .unary op (.bool a), hf, hb, hi =>
    (evalE_unblen (rust := rust) (oc := oc) (.bool a) hf hb hi).bind fun _ => OkLe.refl _
  | .unary op (.len a b), hf, hb, hi =>
    (evalE_unblen (rust := rust) (oc := oc) (.len a b) hf hb hi).bind fun _ => OkLe.refl _
  | .unary op (.blen a), hf, hb, hi => by
    have h := evalE_unblen (rust := rust) (oc := oc) (lk := lk) (lk' := lk') (L := L) (.blen a) hf hb hi
    simp only [Expr.withLens] at h ⊢
    cases hl : L a with
    | none => rw [hl] at h; exact h.bind fun _ => OkLe.refl _
    | some n => rw [hl] at h; exact h.bind fun _ => OkLe.refl _
  | .unary op (.sum a), hf, hb, hi =>
    (evalE_unblen (rust := rust) (oc := oc) (.sum a) hf hb hi).bind fun _ => OkLe.refl _
  | .unary op (.bits a), hf, hb, hi =>
    (evalE_unblen (rust := rust) (oc := oc) (.bits a) hf hb hi).bind fun _ => OkLe.refl _
  | .unary op (.pad a b), hf, hb, hi =>
    (evalE_unblen (rust := rust) (oc := oc) (.pad a b) hf hb hi).bind fun _ => OkLe.refl _
  | .unary op (.member a b c), hf, hb, hi =>
    (evalE_unblen (rust := rust) (oc := oc) (.member a b c) hf hb hi).bind fun _ => OkLe.refl _
  | .cast src e ty, hf, hb, hi => by
    have he := evalE_unblen (rust := rust) (oc := oc) (lk := lk) (lk' := lk') (L := L) e
      (fun n h v hv => hf n (by simp [Expr.refs, h]) v hv) (fun f h v hv => hb f (by simp [Expr.blens, h]) v hv) hi
    exact he.bind fun v => OkLe.refl _
  | .index a i, hf, hb, hi => by
    have ha := evalE_unblen (rust := rust) (oc := oc) (lk := lk) (lk' := lk') (L := L) a
      (fun n h v hv => hf n (by simp [Expr.refs, h]) v hv) (fun f h v hv => hb f (by simp [Expr.blens, h]) v hv) hi
    have hii := evalE_unblen (rust := rust) (oc := oc) (lk := lk) (lk' := lk') (L := L) i
      (fun n h v hv => hf n (by simp [Expr.refs, h]) v hv) (fun f h v hv => hb f (by simp [Expr.blens, h]) v hv) hi
    simp only [Expr.unblen, Expr.withLens, evalE]
    split
    · exact OkLe.refl _
    · exact ha.bind fun v => hii.bind fun w => OkLe.refl _
  | .enumAccess a b c, hf, _, hi => evalE_mono_on (.enumAccess a b c) hf hi
  | .int a, hf, _, hi => evalE_mono_on (.int a) hf hi
  | .constRef a b, hf, _, hi => evalE_mono_on (.constRef a b) hf hi
  | .inputRef a, hf, _, hi => evalE_mono_on (.inputRef a) hf hi
  | .fieldRef a, hf, _, hi => evalE_mono_on (.fieldRef a) hf hi
  | .str a, hf, _, hi => evalE_mono_on (.str a) hf hi
  | .bool a, hf, _, hi => evalE_mono_on (.bool a) hf hi
  | .blen f, _, hb, _ => by
    intro v hv
    simp only [Expr.unblen, evalE, optRes_ok] at hv
    obtain ⟨n, h1, rfl⟩ := hb f (by simp [Expr.blens]) v hv
    simp only [Expr.withLens, h1, evalE]
  | .ternary c t f, hf, hb, hi => by
    have hc := evalE_unblen (rust := rust) (oc := oc) (lk := lk) (lk' := lk') (L := L) c
      (fun n h v hv => hf n (by simp [Expr.refs, h]) v hv) (fun f h v hv => hb f (by simp [Expr.blens, h]) v hv) hi
    have ht := evalE_unblen (rust := rust) (oc := oc) (lk := lk) (lk' := lk') (L := L) t
      (fun n h v hv => hf n (by simp [Expr.refs, h]) v hv) (fun f h v hv => hb f (by simp [Expr.blens, h]) v hv) hi
    have hff := evalE_unblen (rust := rust) (oc := oc) (lk := lk) (lk' := lk') (L := L) f
      (fun n h v hv => hf n (by simp [Expr.refs, h]) v hv) (fun f h v hv => hb f (by simp [Expr.blens, h]) v hv) hi
    refine hc.bind fun v => OkLe.bind (OkLe.refl _) fun b => ?_
    split
    · exact ht
    · exact hff
  | .len fixed e, hf, hb, hi => by
    have he := evalE_unblen (rust := rust) (oc := oc) (lk := lk) (lk' := lk') (L := L) e
      (fun n h v hv => hf n (by simp [Expr.refs, h]) v hv) (fun f h v hv => hb f (by simp [Expr.blens, h]) v hv) hi
    cases fixed with
    | some n => exact OkLe.refl _
    | none => exact he.bind fun v => OkLe.refl _
  | .sum e, hf, hb, hi => by
    have he := evalE_unblen (rust := rust) (oc := oc) (lk := lk) (lk' := lk') (L := L) e
      (fun n h v hv => hf n (by simp [Expr.refs, h]) v hv) (fun f h v hv => hb f (by simp [Expr.blens, h]) v hv) hi
    exact he.bind fun v => OkLe.refl _
  | .bits e, hf, hb, hi => by
    have he := evalE_unblen (rust := rust) (oc := oc) (lk := lk) (lk' := lk') (L := L) e
      (fun n h v hv => hf n (by simp [Expr.refs, h]) v hv) (fun f h v hv => hb f (by simp [Expr.blens, h]) v hv) hi
    exact he.bind fun v => OkLe.refl _
  | .pad p b, hf, hb, hi => by
    have hp := evalE_unblen (rust := rust) (oc := oc) (lk := lk) (lk' := lk') (L := L) p
      (fun n h v hv => hf n (by simp [Expr.refs, h]) v hv) (fun f h v hv => hb f (by simp [Expr.blens, h]) v hv) hi
    have hbb := evalE_unblen (rust := rust) (oc := oc) (lk := lk) (lk' := lk') (L := L) b
      (fun n h v hv => hf n (by simp [Expr.refs, h]) v hv) (fun f h v hv => hb f (by simp [Expr.blens, h]) v hv) hi
    exact hbb.bind fun v => hp.bind fun w => OkLe.refl _
  | .member e _ v, hf, hb, hi => by
    have he := evalE_unblen (rust := rust) (oc := oc) (lk := lk) (lk' := lk') (L := L) e
      (fun n h v hv => hf n (by simp [Expr.refs, h]) v hv) (fun f h v hv => hb f (by simp [Expr.blens, h]) v hv) hi
    exact he.bind fun v => OkLe.refl _

theorem blenName_inj {f g : String} (h : blenName f = blenName g) : f = g := by
  have := congrArg String.toList h
  simp only [blenName, String.toList_append, List.append_cancel_left_eq] at this
  exact String.toList_injective this

theorem overlay_blen (env lens : Env) : ∀ (fs : List String) (f : String), f ∈ fs →
    overlay env (fs.map fun f => (blenName f, lens f)) (blenName f) = lens f
  | g :: gs, f, h => by
    simp only [List.map_cons, overlay, List.foldr_cons]
    by_cases hfg : f = g
    · subst hfg; simp
    · rw [upd_ne _ _ (fun h => hfg (blenName_inj h))]
      exact overlay_blen env lens gs f (by simpa [hfg] using h)

theorem overlay_other (env lens : Env) (n : String) : ∀ (fs : List String), (∀ f ∈ fs, n ≠ blenName f) →
    overlay env (fs.map fun f => (blenName f, lens f)) n = env n
  | [], _ => rfl
  | g :: gs, h => by
    simp only [List.map_cons, overlay, List.foldr_cons]
    rw [upd_ne _ _ (h g (by simp))]
    exact overlay_other env lens n gs fun f hf => h f (by simp [hf])

/-! ## More knowledge -/

abbrev All : String → Prop := fun _ => True

theorem In.all (es : List Expr) : In All es := fun _ _ _ _ => trivial

theorem unwrap_mono {ns : List String} {env σ : Env} (h : Sub All env σ) :
    Sub All (unwrap ns env) (unwrap ns σ) := by
  intro n _ v hv
  unfold unwrap at *
  split at hv
  · rename_i hn
    rw [if_pos hn]
    split at hv
    · rename_i w hw; rw [h n trivial _ hw]; exact hv
    · cases hv
  · rename_i hn
    rw [if_neg hn]; exact h n trivial v hv

theorem inside_mono {a : FAttr} {items : Fields} {env σ : Env} (h : Sub All env σ) :
    Sub All (inside a items env) (inside a items σ) := by
  unfold inside
  split
  · exact unwrap_mono h
  · exact h

theorem whenHolds_mono {X : Ext} {env σ : Env} (h : Sub All env σ) (c : Option Expr)
    {k k' : Res (List (String × Nat) × Bytes)} (hk : OkLe k k') :
    OkLe (whenHolds X env c k) (whenHolds X σ c k') := by
  cases c with
  | none => exact hk
  | some e =>
    refine (ev_on h fun _ _ => trivial).bind fun c => OkLe.bind (OkLe.refl _) fun b => ?_
    cases b with
    | true => exact hk
    | false => exact OkLe.refl _

theorem wire_mono {X : Ext} : ∀ (fs : Fields) {env σ : Env} (_ : Sub All env σ),
    OkLe (wire X fs env) (wire X fs σ)
  | .nil, _, _, _ => OkLe.refl _
  | .pad _ e rest, env, σ, h => by
    unfold wire
    exact (ev_on h fun _ _ => trivial).bind fun v => OkLe.bind (OkLe.refl _) fun b =>
      (wire_mono rest h).bind fun _ => OkLe.refl _
  | .leaf a ty rest, env, σ, h => by
    unfold wire
    refine OkLe.bind (fun v hv => ?_) fun v => (encField_on h (In.all _) (In.all _) v).bind fun b =>
      (wire_mono rest h).bind fun _ => OkLe.refl _
    rw [optRes_ok] at *; exact h _ trivial v hv
  | .cont a len items rest, env, σ, h => by
    unfold wire
    exact (whenHolds_mono h _ (encXforms_on h ((wire_mono items (inside_mono h)).bind fun _ => OkLe.refl _) _
      (In.all _))).bind fun _ => (wire_mono rest h).bind fun _ => OkLe.refl _

theorem LengthEq.mono {X : Ext} {Lg : List (String × Nat)} {a : FAttr} {env σ : Env} (h : Sub All env σ)
    (hl : LengthEq X Lg a env) : LengthEq X Lg a σ := by
  intro e he hb
  obtain ⟨L, v, h1, h2, h3⟩ := hl e he hb
  exact ⟨L, v, h1, h _ trivial v h2, ev_on h (fun _ _ => trivial) v h3⟩

theorem toBool_ok {v : Val} {b : Bool} (h : v.toBool = .ok b) : v = .bool b := by
  cases v <;> simp [Val.toBool] at h
  subst h; rfl

/-- `encXforms` runs its content. -/
theorem encXforms_inner {α} {X : Ext} {σ : Env} {k : Res (α × Bytes)} : ∀ {xs : List XformUse} {r},
    encXforms X σ xs k = .ok r → ∃ bs, k = .ok (r.1, bs)
  | [], r, h => ⟨r.2, h⟩
  | x :: xs, r, h => by
    unfold encXforms at h
    cases hc : x.cond with
    | none =>
      rw [hc] at h
      obtain ⟨vs, _, h⟩ := ok_of_bind h
      obtain ⟨q, hq, h⟩ := ok_of_bind h
      obtain ⟨o, _, h⟩ := ok_of_bind h
      cases h
      have := encXforms_inner hq
      exact this
    | some e =>
      rw [hc] at h
      obtain ⟨c, _, h⟩ := ok_of_bind h
      obtain ⟨b, _, h⟩ := ok_of_bind h
      cases b with
      | false => exact encXforms_inner h
      | true =>
        obtain ⟨vs, _, h⟩ := ok_of_bind h
        obtain ⟨q, hq, h⟩ := ok_of_bind h
        obtain ⟨o, _, h⟩ := ok_of_bind h
        cases h
        have := encXforms_inner hq
        exact this

theorem Calculated.mono {X : Ext} {Lg : List (String × Nat)} : ∀ (fs : Fields) {env σ : Env}
    (_ : Sub All env σ) {r} (_ : wire X fs env = .ok r), Calculated X Lg fs env → Calculated X Lg fs σ
  | .nil, _, _, _, _, _, _ => trivial
  | .pad _ e rest, env, σ, h, r, hw, hc => by
    unfold wire at hw
    obtain ⟨_, _, hw⟩ := ok_of_bind hw
    obtain ⟨_, _, hw⟩ := ok_of_bind hw
    obtain ⟨_, hw, _⟩ := ok_of_bind hw
    exact Calculated.mono rest h hw hc
  | .leaf a ty rest, env, σ, h, r, hw, hc => by
    unfold wire at hw
    obtain ⟨_, _, hw⟩ := ok_of_bind hw
    obtain ⟨_, _, hw⟩ := ok_of_bind hw
    obtain ⟨_, hw, _⟩ := ok_of_bind hw
    exact ⟨hc.1.mono h, Calculated.mono rest h hw hc.2⟩
  | .cont a len items rest, env, σ, h, r, hw, hc => by
    unfold wire at hw
    obtain ⟨q, hq, hw⟩ := ok_of_bind hw
    obtain ⟨_, hw, _⟩ := ok_of_bind hw
    refine ⟨fun hcond => ?_, Calculated.mono rest h hw hc.2⟩
    have henv : ∀ e, a.cond = some e → ev X env e = .ok (.bool true) := by
      intro e he
      rw [he] at hq
      obtain ⟨c, hc, hq⟩ := ok_of_bind hq
      have := ev_on (X := X) h (fun _ _ => trivial) c hc
      rw [hcond e he] at this
      cases this; exact hc
    have hin : ∃ r, wire X items (inside a items env) = .ok r := by
      cases hcd : a.cond with
      | none =>
        rw [hcd] at hq
        obtain ⟨_, hk⟩ := encXforms_inner hq
        obtain ⟨r, hr, _⟩ := ok_of_bind hk
        exact ⟨r, hr⟩
      | some e =>
        rw [hcd] at hq
        simp only [whenHolds, henv e hcd, ok_bind, Val.toBool, if_true] at hq
        obtain ⟨_, hk⟩ := encXforms_inner hq
        obtain ⟨r, hr, _⟩ := ok_of_bind hk
        exact ⟨r, hr⟩
    obtain ⟨r, hr⟩ := hin
    exact Calculated.mono items (inside_mono h) hr (hc.1 henv)

/-! ## Names -/

/-- Stored fields of nested containers without a condition. -/
def nested : Fields → List String
  | .nil => []
  | .pad _ _ rest => nested rest
  | .leaf _ _ rest => nested rest
  | .cont a _ items rest => (if a.cond.isSome then [] else plainNames items) ++ nested rest

/-- Calculated fields that use `blen`. -/
def blenAutos : Fields → List String
  | .nil => []
  | .pad _ _ rest => blenAutos rest
  | .leaf a _ rest => (if (FAttr.blens a).isEmpty then [] else [a.name]) ++ blenAutos rest
  | .cont _ _ items rest => blenAutos items ++ blenAutos rest

theorem names_leaf (a : FAttr) (ty : LTy) (r : Fields) : (Fields.leaf a ty r).names = a.name :: r.names := rfl

theorem names_cont (a : FAttr) (l : Option Expr) (i r : Fields) :
    (Fields.cont a l i r).names = i.names ++ r.names := by simp [Fields.names, Fields.leaves]

theorem names_pad (n : String) (e : Expr) (r : Fields) : (Fields.pad n e r).names = r.names := rfl

theorem mem_plain (n : String) : ∀ fs : Fields, n ∈ plainNames fs ↔ n ∈ nullNames fs ∨ n ∈ nested fs
  | .nil => by simp [plainNames, nullNames, nested]
  | .pad _ _ r => by simpa [plainNames, nullNames, nested] using mem_plain n r
  | .leaf a _ r => by
    have := mem_plain n r
    simp only [plainNames, nullNames, nested]
    split <;> simp [this, or_assoc]
  | .cont a _ i r => by
    have := mem_plain n r
    simp only [plainNames, nullNames, nested, List.mem_append, this]
    split
    · simp
    · constructor
      · rintro (h | h | h)
        · exact .inr (.inl h)
        · exact .inl h
        · exact .inr (.inr h)
      · rintro (h | h | h)
        · exact .inr (.inl h)
        · exact .inl h
        · exact .inr (.inr h)

theorem plain_sub {n : String} : ∀ {fs : Fields}, n ∈ plainNames fs → n ∈ fs.names
  | .nil, h => by cases h
  | .pad _ _ r, h => plain_sub (fs := r) h
  | .leaf a _ r, h => by
    simp only [plainNames, List.mem_append] at h
    rw [names_leaf]
    rcases h with h | h
    · split at h
      · cases h
      · simp at h; simp [h]
    · simp [plain_sub h]
  | .cont a _ i r, h => by
    simp only [plainNames, List.mem_append] at h
    rw [names_cont]
    rcases h with h | h
    · split at h
      · cases h
      · simp [plain_sub h]
    · simp [plain_sub h]

theorem nested_sub {n : String} {fs : Fields} (h : n ∈ nested fs) : n ∈ fs.names :=
  plain_sub ((mem_plain n fs).2 (.inr h))

theorem null_sub {n : String} {fs : Fields} (h : n ∈ nullNames fs) : n ∈ fs.names :=
  plain_sub ((mem_plain n fs).2 (.inl h))

theorem blenAutos_sub {n : String} : ∀ {fs : Fields}, n ∈ blenAutos fs → n ∈ fs.names
  | .nil, h => by cases h
  | .pad _ _ r, h => blenAutos_sub (fs := r) h
  | .leaf a _ r, h => by
    simp only [blenAutos, List.mem_append] at h
    rw [names_leaf]
    rcases h with h | h
    · split at h
      · cases h
      · simp at h; simp [h]
    · simp [blenAutos_sub h]
  | .cont a _ i r, h => by
    simp only [blenAutos, List.mem_append] at h
    rw [names_cont]
    rcases h with h | h
    · simp [blenAutos_sub h]
    · simp [blenAutos_sub h]

theorem visible_sub {vis} {n : String} : ∀ {fs : Fields}, n ∈ visible vis fs → n ∈ fs.names
  | .nil, h => by cases h
  | .pad _ _ r, h => visible_sub (fs := r) h
  | .leaf a _ r, h => by
    simp only [visible, List.mem_append] at h
    rw [names_leaf]
    rcases h with h | h
    · split at h
      · simp at h; simp [h]
      · cases h
    · simp [visible_sub h]
  | .cont a _ i r, h => by
    simp only [visible, List.mem_append] at h
    rw [names_cont]
    rcases h with h | h
    · split at h
      · cases h
      · simp [visible_sub h]
    · simp [visible_sub h]

theorem null_nodup : ∀ {fs : Fields}, fs.names.Nodup → (nullNames fs).Nodup
  | .nil, _ => by simp [nullNames]
  | .pad _ _ r, h => null_nodup (fs := r) h
  | .leaf a _ r, h => by
    rw [names_leaf, List.nodup_cons] at h
    simp only [nullNames]
    split
    · exact null_nodup h.2
    · exact List.nodup_cons.2 ⟨fun hm => h.1 (null_sub hm), null_nodup h.2⟩
  | .cont a _ i r, h => by
    rw [names_cont, List.nodup_append] at h
    exact null_nodup (fs := r) h.2.1

theorem null_not_nested {n : String} : ∀ {fs : Fields}, fs.names.Nodup → n ∈ nullNames fs → n ∉ nested fs
  | .nil, _, h => by cases h
  | .pad _ _ r, hn, h => null_not_nested (fs := r) hn h
  | .leaf a _ r, hn, h => by
    rw [names_leaf, List.nodup_cons] at hn
    simp only [nullNames] at h
    simp only [nested]
    split at h
    · exact null_not_nested hn.2 h
    · rcases List.mem_cons.1 h with rfl | h
      · exact fun hm => hn.1 (nested_sub hm)
      · exact null_not_nested hn.2 h
  | .cont a _ i r, hn, h => by
    rw [names_cont, List.nodup_append] at hn
    simp only [nullNames] at h
    simp only [nested, List.mem_append, not_or]
    refine ⟨fun hm => ?_, null_not_nested hn.2.1 h⟩
    split at hm
    · cases hm
    · exact hn.2.2 n (plain_sub hm) n (null_sub h) rfl

theorem blen_not_plain {n : String} : ∀ {fs : Fields}, fs.names.Nodup → n ∈ blenAutos fs → n ∉ plainNames fs
  | .nil, _, h => by cases h
  | .pad _ _ r, hn, h => blen_not_plain (fs := r) hn h
  | .leaf a _ r, hn, h => by
    rw [names_leaf, List.nodup_cons] at hn
    simp only [blenAutos, List.mem_append] at h
    simp only [plainNames, List.mem_append, not_or]
    rcases h with h | h
    · split at h
      · cases h
      · rename_i hb
        simp only [List.mem_singleton] at h
        subst h
        refine ⟨?_, fun hm => hn.1 (plain_sub hm)⟩
        have : a.auto.isSome = true := by
          cases ha : a.auto with
          | none => simp [FAttr.blens, ha] at hb
          | some e => rfl
        simp [this]
    · refine ⟨fun hm => ?_, blen_not_plain hn.2 h⟩
      split at hm
      · cases hm
      · simp only [List.mem_singleton] at hm
        subst hm
        exact hn.1 (blenAutos_sub h)
  | .cont a _ i r, hn, h => by
    rw [names_cont, List.nodup_append] at hn
    simp only [blenAutos, List.mem_append] at h
    simp only [plainNames, List.mem_append, not_or]
    rcases h with h | h
    · refine ⟨fun hm => ?_, fun hm => hn.2.2 n (blenAutos_sub h) n (plain_sub hm) rfl⟩
      split at hm
      · cases hm
      · exact blen_not_plain hn.1 h hm
    · refine ⟨fun hm => ?_, blen_not_plain hn.2.1 h⟩
      split at hm
      · cases hm
      · exact hn.2.2 n (plain_sub hm) n (blenAutos_sub h) rfl

theorem encNulls_ok {ns : List String} (hn : ns.Nodup) : ∀ {env env1 : Env}, encNulls ns env = .ok env1 →
    (∀ n ∈ ns, ∃ w, env n = some (.opt (some w)) ∧ env1 n = some w) ∧ (∀ n, n ∉ ns → env1 n = env n) := by
  induction ns with
  | nil => intro env env1 h; cases h; exact ⟨fun _ h => (nomatch h), fun _ _ => rfl⟩
  | cons m ns ih =>
    intro env env1 h
    rw [List.nodup_cons] at hn
    unfold encNulls at h
    obtain ⟨v, hv, h⟩ := ok_of_bind h
    obtain ⟨w, hw, h⟩ := ok_of_bind h
    obtain ⟨h1, h2⟩ := ih hn.2 h
    have hm1 : env1 m = some w := by rw [h2 m hn.1]; simp
    have hvm : v = .opt (some w) := by
      unfold nullCheck at hw
      split at hw <;> cases hw
      rfl
    refine ⟨fun n hmem => ?_, fun n hmem => ?_⟩
    · rcases List.mem_cons.1 hmem with rfl | hmem'
      · exact ⟨w, by rw [optRes_ok] at hv; rw [hv, hvm], hm1⟩
      · obtain ⟨x, hx1, hx2⟩ := h1 n hmem'
        refine ⟨x, ?_, hx2⟩
        rw [upd_ne] at hx1
        · exact hx1
        · rintro rfl; exact hn.1 hmem'
    · simp only [List.mem_cons, not_or] at hmem
      rw [h2 n hmem.2, upd_ne _ _ hmem.1]

/-! ## Order -/

/-- What the generated code knows agrees with the values of the fields, except that the fields `N` are
still to be unwrapped. -/
def Rel (N : String → Prop) (env σ : Env) : Prop :=
  (∀ n, ¬ N n → ∀ v, env n = some v → σ n = some v) ∧
  (∀ n, N n → ∀ w, env n = some (.opt (some w)) → σ n = some w)

theorem Rel.sub {N S : String → Prop} {env σ : Env} (h : Rel N env σ) (hs : ∀ n, S n → ¬ N n) : Sub S env σ :=
  fun n hn v hv => h.1 n (hs n hn) v hv

theorem Rel.mono {N : String → Prop} {env σ σ' : Env} (h : Rel N env σ) (hs : Sub All σ σ') : Rel N env σ' :=
  ⟨fun n hn v hv => hs n trivial v (h.1 n hn v hv), fun n hn w hw => hs n trivial w (h.2 n hn w hw)⟩

theorem Rel.congr {N N' : String → Prop} {env σ : Env} (h : Rel N env σ) (hn : ∀ n, N n ↔ N' n) : Rel N' env σ :=
  ⟨fun n hn' v hv => h.1 n (fun x => hn' ((hn n).1 x)) v hv, fun n hn' w hw => h.2 n ((hn n).2 hn') w hw⟩

theorem Rel.upd {N : String → Prop} {env σ : Env} (h : Rel N env σ) {x : String} (hx : ¬ N x) (v : Val) :
    Rel N (upd env x (some v)) (upd σ x (some v)) := by
  refine ⟨fun n hn w hw => ?_, fun n hn w hw => ?_⟩
  · by_cases hnx : n = x
    · subst hnx; simpa using hw
    · rw [upd_ne _ _ hnx] at *; exact h.1 n hn w hw
  · have hnx : n ≠ x := by rintro rfl; exact hx hn
    rw [upd_ne _ _ hnx] at *; exact h.2 n hn w hw

theorem Sub.trans {S : String → Prop} {a b c : Env} (h1 : Sub S a b) (h2 : Sub S b c) : Sub S a c :=
  fun n hn v hv => h2 n hn v (h1 n hn v hv)

theorem Sub.weaken {S S' : String → Prop} {a b : Env} (h : Sub S a b) (hs : ∀ n, S' n → S n) : Sub S' a b :=
  fun n hn v hv => h n (hs n hn) v hv

theorem Sub.upd_none {σ : Env} {x : String} (h : σ x = none) (v : Option Val) : Sub All σ (upd σ x v) := by
  intro n _ w hw
  rw [upd_ne]
  · exact hw
  · rintro rfl; rw [h] at hw; cases hw

/-- The recorded lengths are among `L`. -/
def LensIn (lens : Env) (L : List (String × Nat)) : Prop :=
  ∀ f v, lens f = some v → ∃ k : Nat, v = .int ⟨.u64, k⟩ ∧ (f, k) ∈ L

theorem LensIn.mono {lens : Env} {L L' : List (String × Nat)} (h : LensIn lens L) (hl : ∀ x ∈ L, x ∈ L') :
    LensIn lens L' := fun f v hv => by
  obtain ⟨k, h1, h2⟩ := h f v hv
  exact ⟨k, h1, hl _ h2⟩

theorem lengthEq_of {X : Ext} {env lens σ : Env} {a : FAttr} {v : Val} {S : String → Prop}
    {L Lg : List (String × Nat)} (h : evBlen X env lens a = .ok v) (hs : Sub S env σ)
    (ha : ∀ e, a.auto = some e → e.blens ≠ [] → In S [e] ∧ ∀ n ∈ e.refs, ∀ f ∈ e.blens, n ≠ blenName f)
    (hv : σ a.name = some v) (hl : LensIn lens L) (hg : ∀ x ∈ L, x ∈ Lg) : LengthEq X Lg a σ := by
  intro e he hb
  obtain ⟨hin, hne⟩ := ha e he hb
  simp only [evBlen, he] at h
  let Lf : String → Option Nat := fun f =>
    match lens f with
    | some (.int i) => some i.val.toNat
    | _ => none
  refine ⟨Lf, v, fun f n hfn => ?_, hv, ?_⟩
  · simp only [Lf] at hfn
    cases hlf : lens f with
    | none => rw [hlf] at hfn; cases hfn
    | some w =>
      obtain ⟨k, rfl, hk⟩ := hl f w hlf
      rw [hlf] at hfn
      simp only [Int.toNat_natCast, Option.some.injEq] at hfn
      subst hfn
      exact hg _ hk
  · refine evalE_unblen (lk := ⟨overlay env (e.blens.map fun f => (blenName f, lens f)), X.input⟩)
      (lk' := ⟨σ, X.input⟩) (L := Lf) e
      (fun n hn w hw => ?_) (fun f hf w hw => ?_) (fun _ _ h => h) v h
    · simp only at hw
      rw [overlay_other env lens n e.blens (hne n hn)] at hw
      exact hs n (hin e (by simp) n hn) w hw
    · simp only at hw
      rw [overlay_blen env lens e.blens f hf] at hw
      obtain ⟨k, rfl, _⟩ := hl f w hw
      exact ⟨k, by simp [Lf, hw], rfl⟩

/-- A waiting field. -/
structure WaitOk (S N : String → Prop) (σ0 : Env) (fs : Fields) (d : Def) : Prop where
  attr : In S (FAttr.exprs d.attr)
  ty : In S (LTy.exprs d.ty)
  auto : ∀ e, d.attr.auto = some e → e.blens ≠ [] → In S [e] ∧ ∀ n ∈ e.refs, ∀ f ∈ e.blens, n ≠ blenName f
  fresh : d.attr.name ∉ fs.names
  out : ¬ N d.attr.name
  unset : σ0 d.attr.name = none

/-- The bytes of a waiting field and what follows it. -/
def Before (X : Ext) (w : Option Def) (σ : Env) (pre : Bytes) : Prop :=
  match w with
  | none => pre = []
  | some d => ∃ v b, σ d.attr.name = some v ∧ encField X σ d.attr d.ty v = .ok b ∧ pre = b ++ d.data

/-- The result of encoding items: after the bytes `bs0`. -/
def Ordered (X : Ext) (fs : Fields) (N : String → Prop) (w : Option Def) (σ0 : Env) (L0 : List (String × Nat))
    (env' lens' : Env) (bs0 total : Bytes) : Prop :=
  ∃ σ Lf wb pre, Sub All σ0 σ ∧
    (∀ n, n ∉ blenAutos fs → (∀ d, w = some d → n ≠ d.attr.name) → σ n = σ0 n) ∧
    wire X fs σ = .ok (Lf, wb) ∧ total = pre ++ (bs0 ++ wb) ∧ Before X w σ pre ∧
    Rel (fun n => N n ∧ n ∉ plainNames fs) env' σ ∧ LensIn lens' (L0 ++ Lf) ∧
    ∀ Lg, (∀ x ∈ L0 ++ Lf, x ∈ Lg) → Calculated X Lg fs σ ∧ ∀ d, w = some d → LengthEq X Lg d.attr σ

def OrderFor (X : Ext) (vis : FAttr → LTy → Bool) (fs : Fields) : Prop :=
  ∀ (c : Bool) (p : Plan) (env lens : Env) (w : Option Def) (S N : String → Prop) (σ0 : Env)
    (L0 : List (String × Nat)) (env' lens' : Env) (bs : Bytes),
    encItems X c fs p env lens w.toList = .ok ((env', lens'), bs) →
    oneWaiting fs p (w.map fun d => FAttr.blens d.attr) = true →
    Scoped vis fs S → fs.names.Nodup → (∀ n ∈ fs.names, ¬ S n) → (∀ n, S n → ¬ N n) →
    (∀ n ∈ fs.names, N n → n ∈ nested fs) →
    (c = true → ∀ n ∈ nested fs, N n) → (c = false → ∀ n, ¬ N n) →
    (∀ d, w = some d → WaitOk S N σ0 fs d) →
    (∀ n ∈ blenAutos fs, σ0 n = none) → Rel N env σ0 → LensIn lens L0 →
    Ordered X fs N w σ0 L0 env' lens' [] bs

theorem step {X : Ext} {vis} {rest : Fields} (ih : OrderFor X vis rest) {c : Bool} {p : Plan} {env lens : Env}
    {w : Option Def} {S N : String → Prop} {σ0 : Env} {L0 : List (String × Nat)} {bs0 : Bytes}
    {env2 : Env} {ds2 : List Def} {b2 : Bytes} {env' lens' : Env} {b3 : Bytes}
    (hfl : encFlush X p lens (put w.toList bs0).1 env = .ok (env2, ds2, b2))
    (hrest : encItems X c rest p env2 lens ds2 = .ok ((env', lens'), b3))
    (how : oneWaiting rest p ((w.map fun d => FAttr.blens d.attr).filter fun x => !p.known x) = true)
    (hsc : Scoped vis rest S) (hnd : rest.names.Nodup) (hS : ∀ n ∈ rest.names, ¬ S n) (hSN : ∀ n, S n → ¬ N n)
    (hN : ∀ n ∈ rest.names, N n → n ∈ nested rest) (hc1 : c = true → ∀ n ∈ nested rest, N n)
    (hc2 : c = false → ∀ n, ¬ N n) (hw : ∀ d, w = some d → WaitOk S N σ0 rest d)
    (hu : ∀ n ∈ blenAutos rest, σ0 n = none) (hrel : Rel N env σ0) (hlen : LensIn lens L0) :
    Ordered X rest N w σ0 L0 env' lens' bs0 ((put w.toList bs0).2 ++ (b2 ++ b3)) := by
  cases w with
  | none =>
    cases hfl
    obtain ⟨σ, Lf, wb, pre, h1, h2, h3, h4, h5, h6, h7, h8⟩ :=
      ih c p env lens none S N σ0 L0 env' lens' b3 hrest how hsc hnd hS hSN hN hc1 hc2 (fun _ h => nomatch h) hu hrel hlen
    simp only [Before] at h5
    subst h5
    exact ⟨σ, Lf, wb, [], h1, h2, h3, by simp [put, h4], rfl, h6, h7, h8⟩
  | some d =>
    have hwd := hw d rfl
    simp only [Option.toList, put, encFlush, ok_bind] at hfl
    by_cases hk : p.known (FAttr.blens d.attr) = true
    · rw [if_pos hk] at hfl
      obtain ⟨v, hv, hfl⟩ := ok_of_bind hfl
      obtain ⟨b, hb, hfl⟩ := ok_of_bind hfl
      cases hfl
      have hs1 : Sub All σ0 (upd σ0 d.attr.name (some v)) := Sub.upd_none hwd.unset _
      have hrel1 := hrel.upd hwd.out v
      simp only [Option.map_some, Option.filter, hk, Bool.not_true, Bool.false_eq_true, if_false] at how
      obtain ⟨σ, Lf, wb, pre, h1, h2, h3, h4, h5, h6, h7, h8⟩ :=
        ih c p _ lens none S N (upd σ0 d.attr.name (some v)) L0 env' lens' b3 hrest how hsc hnd hS hSN hN hc1 hc2
          (fun _ h => nomatch h)
          (fun n hn => by
            rw [upd_ne _ _ (by rintro rfl; exact hwd.fresh (blenAutos_sub hn))]; exact hu n hn) hrel1 hlen
      simp only [Before] at h5
      subst h5
      have hsub : Sub S (upd env d.attr.name (some v)) σ := (hrel1.mono h1).sub hSN
      have hσd : σ d.attr.name = some v := h1 _ trivial v (by simp)
      refine ⟨σ, Lf, wb, b ++ d.data, hs1.trans h1, fun n hn hd => ?_, h3, by simp [put, h4],
        ⟨v, b, hσd, encField_on hsub hwd.attr hwd.ty v b hb, rfl⟩, h6, h7, fun Lg hLg => ⟨(h8 Lg hLg).1, fun d' hd' => ?_⟩⟩
      · rw [h2 n hn (fun _ h => nomatch h), upd_ne _ _ (hd d rfl)]
      · cases hd'
        exact lengthEq_of hv ((hrel.mono (hs1.trans h1)).sub hSN) hwd.auto hσd hlen
          (fun x hx => hLg x (by simp [hx]))
    · rw [if_neg hk] at hfl
      cases hfl
      have hk' : p.known (FAttr.blens d.attr) = false := by simpa using hk
      simp only [Option.map_some, Option.filter, hk', Bool.not_false, if_true] at how
      obtain ⟨σ, Lf, wb, pre, h1, h2, h3, h4, h5, h6, h7, h8⟩ :=
        ih c p env lens (some { d with data := d.data ++ bs0 }) S N σ0 L0 env' lens' b3 hrest how hsc hnd hS hSN hN hc1 hc2
          (fun d' hd' => by cases hd'; exact ⟨hwd.attr, hwd.ty, hwd.auto, hwd.fresh, hwd.out, hwd.unset⟩) hu hrel hlen
      obtain ⟨v, b, h51, h52, rfl⟩ := h5
      refine ⟨σ, Lf, wb, b ++ d.data, h1, fun n hn hd => h2 n hn (fun d' hd' => by cases hd'; exact hd d rfl), h3,
        by simp [put, h4], ⟨v, b, h51, h52, rfl⟩, h6, h7, fun Lg hLg => ⟨(h8 Lg hLg).1, fun d' hd' => ?_⟩⟩
      cases hd'
      have := (h8 Lg hLg).2 { d with data := d.data ++ bs0 } rfl
      exact this

theorem encXforms_swap {α β} {X : Ext} {σ : Env} {x : α} {y : β} {bs : Bytes} : ∀ {xs : List XformUse} {r},
    encXforms X σ xs (.ok (x, bs)) = .ok r → encXforms X σ xs (.ok (y, bs)) = .ok (y, r.2)
  | [], r, h => by cases h; rfl
  | u :: xs, r, h => by
    unfold encXforms at h ⊢
    cases hc : u.cond with
    | none =>
      rw [hc] at h
      obtain ⟨vs, h1, h⟩ := ok_of_bind h
      obtain ⟨q, hq, h⟩ := ok_of_bind h
      obtain ⟨o, h2, h⟩ := ok_of_bind h
      cases h
      simp only [h1, ok_bind, encXforms_swap (y := y) hq, h2]
    | some e =>
      rw [hc] at h
      obtain ⟨c, h1, h⟩ := ok_of_bind h
      obtain ⟨b, h2, h⟩ := ok_of_bind h
      simp only [h1, h2, ok_bind]
      cases b with
      | false => exact encXforms_swap h
      | true =>
        obtain ⟨vs, h1, h⟩ := ok_of_bind h
        obtain ⟨q, hq, h⟩ := ok_of_bind h
        obtain ⟨o, h2, h⟩ := ok_of_bind h
        cases h
        simp only [h1, ok_bind, encXforms_swap (y := y) hq, h2, if_true]

/-- The content of a container. -/
theorem content_order {X : Ext} {vis} {a : FAttr} {items : Fields} (ih : OrderFor X vis items)
    {c : Bool} {p : Plan} {env lens : Env} {S N : String → Prop} {σ0 : Env} {L0 : List (String × Nat)}
    {env1 env2 lens2 : Env} {content : Bytes}
    (hent : enter (a.cond.isSome || c) items env = .ok env1)
    (hit : encItems X (a.cond.isSome || c) items p env1 lens [] = .ok ((env2, lens2), content))
    (how : oneWaiting items p none = true) (hsc : Scoped vis items S) (hnd : items.names.Nodup)
    (hS : ∀ n ∈ items.names, ¬ S n) (hSN : ∀ n, S n → ¬ N n)
    (hN : ∀ n ∈ items.names, N n → a.cond = none ∧ n ∈ plainNames items)
    (hc1 : c = true → a.cond = none → ∀ n ∈ plainNames items, N n) (hc2 : c = false → ∀ n, ¬ N n)
    (hu : ∀ n ∈ blenAutos items, σ0 n = none) (hrel : Rel N env σ0) (hlen : LensIn lens L0) :
    ∃ σ1 Lf, Sub All σ0 σ1 ∧ (∀ n, n ∉ blenAutos items → σ1 n = σ0 n) ∧
      wire X items (inside a items σ1) = .ok (Lf, content) ∧ LensIn lens2 (L0 ++ Lf) ∧
      (∀ Lg, (∀ x ∈ L0 ++ Lf, x ∈ Lg) → Calculated X Lg items (inside a items σ1)) ∧
      (a.cond = none → Rel (fun n => N n ∧ n ∉ plainNames items) env2 σ1) := by
  have hnn := null_nodup hnd
  cases hcd : a.cond with
  | none =>
    simp only [hcd, Option.isSome_none, Bool.false_or] at hent hit
    have hN1 : Rel (fun n => N n ∧ n ∉ nullNames items) env1 σ0 := by
      cases c with
      | false =>
        cases hent
        exact hrel.congr fun n => ⟨fun h => absurd h (hc2 rfl n), fun h => h.1⟩
      | true =>
        simp only [enter, if_true] at hent
        obtain ⟨h1, h2⟩ := encNulls_ok hnn hent
        refine ⟨fun n hn v hv => ?_, fun n hn w hw => ?_⟩
        · by_cases hm : n ∈ nullNames items
          · obtain ⟨w, hw1, hw2⟩ := h1 n hm
            rw [hw2] at hv; cases hv
            exact hrel.2 n (hc1 rfl hcd n ((mem_plain n items).2 (.inl hm))) _ hw1
          · rw [h2 n hm] at hv
            exact hrel.1 n (fun hN' => hn ⟨hN', hm⟩) v hv
        · rw [h2 n hn.2] at hw
          exact hrel.2 n hn.1 w hw
    obtain ⟨σ, Lf, wb, pre, h1, h2, h3, h4, h5, h6, h7, h8⟩ :=
      ih c p env1 lens none S (fun n => N n ∧ n ∉ nullNames items) σ0 L0 env2 lens2 content hit how hsc hnd hS
        (fun n hn h => hSN n hn h.1)
        (fun n hn h => ((mem_plain n items).1 (hN n hn h.1).2).resolve_left h.2)
        (fun hc n hn => ⟨hc1 hc hcd n ((mem_plain n items).2 (.inr hn)), fun hm => null_not_nested hnd hm hn⟩)
        (fun hc n h => hc2 hc n h.1) (fun _ h => nomatch h) hu hN1 hlen
    simp only [Before] at h5
    subst h5
    simp only [List.nil_append] at h4
    subst h4
    refine ⟨σ, Lf, h1, fun n hn => h2 n hn (fun _ h => nomatch h), by simpa [inside, hcd] using h3, h7,
      fun Lg hLg => by simpa [inside, hcd] using (h8 Lg hLg).1, fun _ => h6.congr fun n => ?_⟩
    constructor
    · rintro ⟨⟨h1, _⟩, h2⟩; exact ⟨h1, h2⟩
    · rintro ⟨h1, h2⟩; exact ⟨⟨h1, fun hm => h2 ((mem_plain n items).2 (.inl hm))⟩, h2⟩
  | some e =>
    simp only [hcd, Option.isSome_some, Bool.true_or, enter, if_true] at hent hit
    obtain ⟨h1, h2⟩ := encNulls_ok hnn hent
    have hNi : ∀ n ∈ items.names, ¬ N n := fun n hn h => by have := (hN n hn h).1; rw [hcd] at this; cases this
    have hN1 : Rel (fun n => N n ∨ n ∈ nested items) env1 (unwrap (plainNames items) σ0) := by
      refine ⟨fun n hn v hv => ?_, fun n hn w hw => ?_⟩
      · simp only [not_or] at hn
        by_cases hm : n ∈ nullNames items
        · obtain ⟨w, hw1, hw2⟩ := h1 n hm
          rw [hw2] at hv; cases hv
          simp only [unwrap, if_pos ((mem_plain n items).2 (.inl hm)), hrel.1 n hn.1 _ hw1]
        · rw [h2 n hm] at hv
          have hp : n ∉ plainNames items := fun h => ((mem_plain n items).1 h).elim hm hn.2
          simp only [unwrap, if_neg hp]
          exact hrel.1 n hn.1 v hv
      · rcases hn with hn | hn
        · have hni : n ∉ items.names := fun h => hNi n h hn
          rw [h2 n (fun h => hni (null_sub h))] at hw
          simp only [unwrap, if_neg (fun h => hni (plain_sub h))]
          exact hrel.2 n hn w hw
        · rw [h2 n (fun h => null_not_nested hnd h hn)] at hw
          simp only [unwrap, if_pos ((mem_plain n items).2 (.inr hn)),
            hrel.1 n (hNi n (nested_sub hn)) _ hw]
    obtain ⟨σ, Lf, wb, pre, k1, k2, k3, k4, k5, k6, k7, k8⟩ :=
      ih true p env1 lens none S (fun n => N n ∨ n ∈ nested items) (unwrap (plainNames items) σ0) L0 env2 lens2
        content hit how hsc hnd hS
        (fun n hn h => h.elim (hSN n hn) fun h => hS n (nested_sub h) hn)
        (fun n hn h => h.elim (fun h => absurd h (hNi n hn)) id)
        (fun _ n hn => .inr hn) (fun h => nomatch h) (fun _ h => nomatch h)
        (fun n hn => by
          simp only [unwrap, if_neg (blen_not_plain hnd hn)]; exact hu n hn) hN1 hlen
    simp only [Before] at k5
    subst k5
    simp only [List.nil_append] at k4
    subst k4
    have hin : inside a items (fun n => if n ∈ blenAutos items then σ n else σ0 n) = σ := by
      funext n
      simp only [inside, hcd, Option.isSome_some, if_true, unwrap]
      by_cases hp : n ∈ plainNames items
      · have hb : n ∉ blenAutos items := fun h => blen_not_plain hnd h hp
        rw [k2 n hb (fun _ h => nomatch h)]
        simp only [if_pos hp, if_neg hb, unwrap]
      · by_cases hb : n ∈ blenAutos items
        · simp only [if_neg hp, if_pos hb]
        · rw [k2 n hb (fun _ h => nomatch h)]
          simp only [if_neg hp, if_neg hb, unwrap]
    refine ⟨fun n => if n ∈ blenAutos items then σ n else σ0 n, Lf, fun n _ v hv => ?_, fun n hn => if_neg hn,
      by rw [hin]; exact k3, k7, fun Lg hLg => by rw [hin]; exact (k8 Lg hLg).1, fun h => nomatch h⟩
    have : n ∉ blenAutos items := fun h => by rw [hu n h] at hv; cases hv
    simp only [if_neg this]; exact hv

/-- The names that are plain after a container. -/
def leftOver (a : FAttr) (items : Fields) : List String := if a.cond.isSome then [] else plainNames items

/-- A container: its bytes, and what is known after it. -/
theorem cont_order {X : Ext} {vis} {a : FAttr} {len : Option Expr} {items : Fields} (ih : OrderFor X vis items)
    {c : Bool} {p : Plan} {env lens : Env} {S N : String → Prop} {σ0 : Env} {L0 : List (String × Nat)}
    {env2 lens2 : Env} {bs0 : Bytes} {es ls : List String}
    (hg : guarded X env a.cond (erase es env, erase ls lens) (encXforms X env a.xfs do
        checkCapacity X env a.name len p
        let env1 ← enter (a.cond.isSome || c) items env
        let ((env2, lens2), bs) ← encItems X (a.cond.isSome || c) items p env1 lens []
        let p2 := planItems items p
        let lens3 := if len.isSome && decide (a.name ∈ p2.pending)
          then upd lens2 a.name (some (.int ⟨.u64, bs.length⟩)) else lens2
        .ok ((env2, lens3), bs)) = .ok ((env2, lens2), bs0))
    (how : oneWaiting items p none = true) (hsc : Scoped vis items S) (hnd : items.names.Nodup)
    (ha : In S (FAttr.exprs a))
    (hS : ∀ n ∈ items.names, ¬ S n) (hSN : ∀ n, S n → ¬ N n)
    (hN : ∀ n ∈ items.names, N n → a.cond = none ∧ n ∈ plainNames items)
    (hc1 : c = true → a.cond = none → ∀ n ∈ plainNames items, N n) (hc2 : c = false → ∀ n, ¬ N n)
    (hu : ∀ n ∈ blenAutos items, σ0 n = none) (hrel : Rel N env σ0) (hlen : LensIn lens L0) :
    ∃ σ1 L1, Sub All σ0 σ1 ∧ (∀ n, n ∉ blenAutos items → σ1 n = σ0 n) ∧
      whenHolds X σ1 a.cond (encXforms X σ1 a.xfs do
        let (l, b) ← wire X items (inside a items σ1)
        .ok ((a.name, b.length) :: l, b)) = .ok (L1, bs0) ∧
      LensIn lens2 (L0 ++ L1) ∧
      (∀ Lg, (∀ x ∈ L0 ++ L1, x ∈ Lg) → (∀ e, a.cond = some e → ev X σ1 e = .ok (.bool true)) →
        Calculated X Lg items (inside a items σ1)) ∧
      Rel (fun n => N n ∧ n ∉ leftOver a items) env2 σ1 := by
  have hxs : In S (a.xfs.flatMap XformUse.exprs) :=
    fun e he => ha e (by simp only [FAttr.exprs, List.mem_append]; exact .inr he)
  -- the body
  have hbody : ∀ {env2' lens2' : Env}, encXforms X env a.xfs (do
        checkCapacity X env a.name len p
        let env1 ← enter (a.cond.isSome || c) items env
        let ((env2, lens2), bs) ← encItems X (a.cond.isSome || c) items p env1 lens []
        let p2 := planItems items p
        let lens3 := if len.isSome && decide (a.name ∈ p2.pending)
          then upd lens2 a.name (some (.int ⟨.u64, bs.length⟩)) else lens2
        .ok ((env2, lens3), bs)) = .ok ((env2', lens2'), bs0) →
      ∃ σ1 L1, Sub All σ0 σ1 ∧ (∀ n, n ∉ blenAutos items → σ1 n = σ0 n) ∧
        encXforms X σ1 a.xfs (do
          let (l, b) ← wire X items (inside a items σ1)
          .ok ((a.name, b.length) :: l, b)) = .ok (L1, bs0) ∧
        LensIn lens2' (L0 ++ L1) ∧
        (∀ Lg, (∀ x ∈ L0 ++ L1, x ∈ Lg) → Calculated X Lg items (inside a items σ1)) ∧
        (a.cond = none → Rel (fun n => N n ∧ n ∉ plainNames items) env2' σ1) := by
    intro env2' lens2' h
    obtain ⟨content, hk⟩ := encXforms_inner h
    rw [hk] at h
    obtain ⟨_, _, hk⟩ := ok_of_bind hk
    obtain ⟨env1, hent, hk⟩ := ok_of_bind hk
    obtain ⟨⟨⟨e2, l2⟩, ct⟩, hit, hk⟩ := ok_of_bind hk
    simp only [Except.ok.injEq, Prod.mk.injEq] at hk
    obtain ⟨⟨rfl, hl3⟩, rfl⟩ := hk
    obtain ⟨σ1, Lf, k1, k2, k3, k4, k5, k6⟩ :=
      content_order (a := a) ih hent hit how hsc hnd hS hSN hN hc1 hc2 hu hrel hlen
    have hsub : Sub S env σ1 := (hrel.mono k1).sub hSN
    have hx := encXforms_on (X := X) hsub (OkLe.refl _) a.xfs hxs _ h
    have hx' := encXforms_swap (y := (a.name, ct.length) :: Lf) hx
    refine ⟨σ1, (a.name, ct.length) :: Lf, k1, k2, by rw [k3]; exact hx', ?_, fun Lg hLg => k5 Lg fun x hx => hLg x ?_, k6⟩
    · have hbig : LensIn l2 (L0 ++ (a.name, ct.length) :: Lf) := k4.mono fun x hx => by
        simp only [List.mem_append, List.mem_cons] at hx ⊢
        exact hx.elim .inl fun h => .inr (.inr h)
      rw [← hl3]
      split
      · intro f v hv
        by_cases hf : f = a.name
        · subst hf
          simp only [upd_same, Option.some.injEq] at hv
          exact ⟨ct.length, hv.symm, by simp⟩
        · rw [upd_ne _ _ hf] at hv
          exact hbig f v hv
      · exact hbig
    · simp only [List.mem_append, List.mem_cons] at hx ⊢
      exact hx.elim .inl fun h => .inr (.inr h)
  cases hcd : a.cond with
  | none =>
    simp only [hcd, guarded] at hg
    obtain ⟨σ1, L1, k1, k2, k3, k4, k5, k6⟩ := hbody (by simpa only [hcd] using hg)
    refine ⟨σ1, L1, k1, k2, by simpa only [whenHolds] using k3, k4, fun Lg hLg _ => k5 Lg hLg, ?_⟩
    simpa [leftOver, hcd] using k6 hcd
  | some e =>
    simp only [hcd, guarded] at hg
    obtain ⟨v, hv, hg1⟩ := ok_of_bind hg
    obtain ⟨b, hb, hg2⟩ := ok_of_bind hg1
    have hvb := toBool_ok hb
    clear hg1 hb
    subst hvb
    have he : Sub All (erase es env) env := by
      intro n _ v hv
      unfold erase at hv
      split at hv
      · cases hv
      · exact hv
    have hlE : LensIn (erase ls lens) L0 := by
      intro f v hv
      unfold erase at hv
      split at hv
      · cases hv
      · exact hlen f v hv
    have hR : Rel (fun n => N n ∧ n ∉ leftOver a items) (erase es env) σ0 := by
      refine Rel.congr (N := N) ⟨fun n hn v hv => hrel.1 n hn v (he n trivial v hv),
        fun n hn v hv => hrel.2 n hn v (he n trivial _ hv)⟩ fun n => ?_
      simp [leftOver, hcd]
    have hein : ∀ n ∈ e.refs, S n := ha e (by simp [FAttr.exprs, hcd])
    cases b with
    | true =>
      obtain ⟨⟨⟨e2, l2⟩, b0⟩, hbd, hg⟩ := ok_of_bind hg2
      cases hg
      obtain ⟨σ1, L1, k1, k2, k3, k4, k5, k6⟩ := hbody (by simpa only [hcd] using hbd)
      have hc := ev_on (X := X) ((hrel.mono k1).sub hSN) hein _ hv
      refine ⟨σ1, L1, k1, k2, ?_, hlE.mono fun x hx => by simp [hx], fun Lg hLg _ => k5 Lg hLg, hR.mono k1⟩
      simp only [whenHolds, hc, ok_bind, Val.toBool, if_true]
      exact k3
    | false =>
      cases hg2
      have hc := ev_on (X := X) (hrel.sub hSN) hein _ hv
      refine ⟨σ0, [], fun _ _ _ h => h, fun _ _ => rfl, ?_, hlE.mono fun x hx => by simp [hx], fun Lg _ ht => ?_, hR⟩
      · simp [whenHolds, hc, ok_bind, Val.toBool]
      · have := ht e rfl
        rw [hc] at this
        cases this

theorem Before.mono {X : Ext} {w : Option Def} {σ σ' : Env} {pre : Bytes} (h : Sub All σ σ') (hb : Before X w σ pre) :
    Before X w σ' pre := by
  cases w with
  | none => exact hb
  | some d =>
    obtain ⟨v, b, h1, h2, h3⟩ := hb
    exact ⟨v, b, h _ trivial v h1, encField_on h (In.all _) (In.all _) v b h2, h3⟩

/-- Encoding the items of a container writes them in declaration order. -/
theorem items_order {X : Ext} {vis} : ∀ fs, OrderFor X vis fs
  | .nil => by
    intro c p env lens w S N σ0 L0 env' lens' bs h how hsc hnd hS hSN hN hc1 hc2 hw hu hrel hlen
    cases w with
    | some d => simp [oneWaiting] at how
    | none =>
      simp only [encItems, Except.ok.injEq, Prod.mk.injEq] at h
      obtain ⟨⟨rfl, rfl⟩, rfl⟩ := h
      exact ⟨σ0, [], [], [], fun _ _ _ h => h, fun _ _ _ => rfl, rfl, rfl, rfl,
        hrel.congr fun n => by simp [plainNames], by simpa using hlen, fun _ _ => ⟨trivial, fun _ h => nomatch h⟩⟩
  | .pad nm e rest => by
    intro c p env lens w S N σ0 L0 env' lens' bs h how hsc hnd hS hSN hN hc1 hc2 hw hu hrel hlen
    unfold encItems at h
    obtain ⟨v, hv, h⟩ := ok_of_bind h
    obtain ⟨pb, hpb, h⟩ := ok_of_bind h
    obtain ⟨⟨env2, ds2, b2⟩, hfl, h⟩ := ok_of_bind h
    obtain ⟨⟨⟨e', l'⟩, b3⟩, hr, h⟩ := ok_of_bind h
    simp only [Except.ok.injEq, Prod.mk.injEq] at h
    obtain ⟨⟨rfl, rfl⟩, rfl⟩ := h
    obtain ⟨σ, Lf, wb, pre, k1, k2, k3, k4, k5, k6, k7, k8⟩ :=
      step (items_order rest) hfl hr how hsc.2 hnd hS hSN hN hc1 hc2
        (fun d hd => ⟨(hw d hd).attr, (hw d hd).ty, (hw d hd).auto, (hw d hd).fresh, (hw d hd).out, (hw d hd).unset⟩)
        hu hrel hlen
    have hev := ev_on (X := X) ((hrel.mono k1).sub hSN) (hsc.1 e (by simp)) v hv
    refine ⟨σ, Lf, pb ++ wb, pre, k1, k2, ?_, by rw [k4]; simp, k5, k6, k7, k8⟩
    unfold wire
    simp only [hev, hpb, k3, ok_bind]
  | .leaf a ty rest => by
    intro c p env lens w S N σ0 L0 env' lens' bs h how hsc hnd hS hSN hN hc1 hc2 hw hu hrel hlen
    obtain ⟨hsa, hst, hsb, hsr⟩ := hsc
    rw [names_leaf, List.nodup_cons] at hnd
    have hnm : ∀ n ∈ rest.names, n ∈ (Fields.leaf a ty rest).names := fun n hn => by rw [names_leaf]; simp [hn]
    have ham : a.name ∈ (Fields.leaf a ty rest).names := by rw [names_leaf]; simp
    have haN : ¬ N a.name := fun h => hnd.1 (nested_sub (hN _ ham h))
    have hS' : ∀ n ∈ rest.names, ¬ (S n ∨ (vis a ty = true ∧ n = a.name)) := by
      rintro n hn (h | ⟨_, rfl⟩)
      · exact hS n (hnm n hn) h
      · exact hnd.1 hn
    have hSN' : ∀ n, (S n ∨ (vis a ty = true ∧ n = a.name)) → ¬ N n := by
      rintro n (h | ⟨_, rfl⟩)
      · exact hSN n h
      · exact haN
    have hN' : ∀ n ∈ rest.names, N n → n ∈ nested rest := fun n hn h => hN n (hnm n hn) h
    have hur : ∀ n ∈ blenAutos rest, σ0 n = none := fun n hn => hu n (by simp [blenAutos, hn])
    have hInW : ∀ {es}, In S es → In (fun n => S n ∨ (vis a ty = true ∧ n = a.name)) es :=
      fun h e he n hn => .inl (h e he n hn)
    have hwf : ∀ d, w = some d → d.attr.name ≠ a.name := fun d hd h => (hw d hd).fresh (h ▸ ham)
    unfold encItems at h
    simp only [oneWaiting] at how
    by_cases hk : ((FAttr.blens a).isEmpty || p.known (FAttr.blens a)) = true
    · rw [if_pos hk] at h how
      obtain ⟨env1, henv1, h⟩ := ok_of_bind h
      obtain ⟨v, hv, h⟩ := ok_of_bind h
      obtain ⟨fb, hfb, h⟩ := ok_of_bind h
      obtain ⟨⟨env2, ds2, b2⟩, hfl, h⟩ := ok_of_bind h
      obtain ⟨⟨⟨e', l'⟩, b3⟩, hr, h⟩ := ok_of_bind h
      simp only [Except.ok.injEq, Prod.mk.injEq] at h
      obtain ⟨⟨rfl, rfl⟩, rfl⟩ := h
      rw [optRes_ok] at hv
      -- what is known at the field
      obtain ⟨σ1, j1, j2, j3, j4⟩ : ∃ σ1, Sub All σ0 σ1 ∧ Rel N env1 σ1 ∧
          (∀ n, n ∉ blenAutos (.leaf a ty rest) → σ1 n = σ0 n) ∧ (∀ n, n ≠ a.name → σ1 n = σ0 n) ∧
          (FAttr.blens a ≠ [] → ∀ σ Lg, Sub All σ1 σ → (∀ x ∈ L0, x ∈ Lg) → LengthEq X Lg a σ) := by
        unfold withBlen at henv1
        by_cases hbl : (FAttr.blens a).isEmpty = true
        · rw [if_pos hbl] at henv1
          cases henv1
          exact ⟨σ0, fun _ _ _ h => h, hrel, fun _ _ => rfl, fun _ _ => rfl, fun h => absurd (by simpa using hbl) h⟩
        · rw [if_neg hbl] at henv1
          obtain ⟨v', hv', henv1⟩ := ok_of_bind henv1
          cases henv1
          have hau : σ0 a.name = none := hu a.name (by simp [blenAutos, hbl])
          refine ⟨upd σ0 a.name (some v'), Sub.upd_none hau _, hrel.upd haN v', fun n hn => ?_,
            fun n hn => upd_ne _ _ hn, fun _ σ Lg hσ hLg => ?_⟩
          · rw [upd_ne]
            rintro rfl
            exact hn (by simp [blenAutos, hbl])
          · exact lengthEq_of hv' ((hrel.mono (Sub.trans (Sub.upd_none hau _) hσ)).sub hSN) hsb
              (hσ _ trivial v' (by simp)) hlen hLg
      obtain ⟨j4, j5⟩ := j4
      obtain ⟨σ, Lf, wb, pre, k1, k2, k3, k4, k5, k6, k7, k8⟩ :=
        step (items_order rest) hfl hr how hsr hnd.2 hS' hSN' hN' hc1 hc2
          (fun d hd => ⟨hInW (hw d hd).attr, hInW (hw d hd).ty,
            fun e he hb => ⟨hInW ((hw d hd).auto e he hb).1, ((hw d hd).auto e he hb).2⟩,
            fun hm => (hw d hd).fresh (hnm _ hm), (hw d hd).out,
            by rw [j4 _ (hwf d hd)]; exact (hw d hd).unset⟩)
          (fun n hn => by
            rw [j4 n (fun h => hnd.1 (h ▸ blenAutos_sub hn))]; exact hur n hn) j2 hlen
      have hfb' := encField_on (X := X) (((j2.mono k1)).sub hSN) hsa hst v fb hfb
      have hσa : σ a.name = some v := (j2.mono k1).1 _ haN v hv
      refine ⟨σ, Lf, fb ++ wb, pre, j1.trans k1, fun n hn hd => ?_, ?_, by rw [k4]; simp, k5, ?_, k7,
        fun Lg hLg => ⟨⟨?_, (k8 Lg hLg).1⟩, (k8 Lg hLg).2⟩⟩
      · rw [k2 n (fun h => hn (by simp [blenAutos, h])) hd, j3 n hn]
      · unfold wire
        simp only [hσa, optRes, hfb', k3, ok_bind]
      · refine k6.congr fun n => ?_
        simp only [plainNames, List.mem_append, not_or]
        constructor
        · rintro ⟨h1, h2⟩
          refine ⟨h1, fun h => ?_, h2⟩
          split at h
          · cases h
          · simp only [List.mem_singleton] at h; subst h; exact haN h1
        · rintro ⟨h1, _, h2⟩; exact ⟨h1, h2⟩
      · intro e he hb
        refine j5 ?_ σ Lg k1 (fun x hx => hLg x (by simp [hx])) e he hb
        simpa [FAttr.blens, he] using hb
    · rw [if_neg hk] at h how
      simp only [Bool.and_eq_true] at how
      cases w with
      | some d => simp at how
      | none =>
        have hbl : (FAttr.blens a).isEmpty = false := by
          simp only [Bool.or_eq_true, not_or] at hk; simpa using hk.1
        have hau : σ0 a.name = none := hu a.name (by simp [blenAutos, hbl])
        obtain ⟨σ, Lf, wb, pre, k1, k2, k3, k4, k5, k6, k7, k8⟩ :=
          items_order rest c (p.await a) env lens (some ⟨a, ty, []⟩) _ N σ0 L0 env' lens' bs h
            (by simpa using how.2) hsr hnd.2 hS' hSN' hN' hc1 hc2
            (fun d hd => by
              cases hd
              exact ⟨hInW hsa, hInW hst, fun e he hb => ⟨hInW (hsb e he hb).1, (hsb e he hb).2⟩, hnd.1, haN, hau⟩)
            hur hrel hlen
        obtain ⟨v, b, m1, m2, rfl⟩ := k5
        refine ⟨σ, Lf, b ++ wb, [], k1, fun n hn _ => ?_, ?_, by rw [k4]; simp, rfl, ?_, k7,
          fun Lg hLg => ⟨⟨(k8 Lg hLg).2 _ rfl, (k8 Lg hLg).1⟩, fun _ h => nomatch h⟩⟩
        · simp only [blenAutos, hbl, List.mem_append, not_or] at hn
          refine k2 n hn.2 fun d hd => ?_
          cases hd
          simpa using hn.1
        · unfold wire
          simp only at m1 m2
          simp only [m1, optRes, m2, k3, ok_bind]
        · refine k6.congr fun n => ?_
          simp only [plainNames, List.mem_append, not_or]
          constructor
          · rintro ⟨h1, h2⟩
            refine ⟨h1, fun h => ?_, h2⟩
            split at h
            · cases h
            · simp only [List.mem_singleton] at h; subst h; exact haN h1
          · rintro ⟨h1, _, h2⟩; exact ⟨h1, h2⟩
  | .cont a len items rest => by
    intro c p env lens w S N σ0 L0 env' lens' bs h how hsc hnd hS hSN hN hc1 hc2 hw hu hrel hlen
    obtain ⟨hsa, hsl, hsi, hsr⟩ := hsc
    have hmemL : ∀ n ∈ items.names, n ∈ (Fields.cont a len items rest).names := fun n hn => by rw [names_cont]; simp [hn]
    have hmemR : ∀ n ∈ rest.names, n ∈ (Fields.cont a len items rest).names := fun n hn => by rw [names_cont]; simp [hn]
    rw [names_cont, List.nodup_append] at hnd
    obtain ⟨hndi, hndr, hdis⟩ := hnd
    simp only [oneWaiting, Bool.and_eq_true] at how
    unfold encItems at h
    obtain ⟨⟨⟨env2, lens2⟩, bs0⟩, hg, h⟩ := ok_of_bind h
    obtain ⟨⟨env3, ds3, b3⟩, hfl, h⟩ := ok_of_bind h
    obtain ⟨⟨⟨e', l'⟩, b4⟩, hr, h⟩ := ok_of_bind h
    simp only [Except.ok.injEq, Prod.mk.injEq] at h
    obtain ⟨⟨rfl, rfl⟩, rfl⟩ := h
    have hNi : ∀ n ∈ items.names, N n → a.cond = none ∧ n ∈ plainNames items := by
      intro n hn h
      have := hN n (hmemL n hn) h
      simp only [nested, List.mem_append] at this
      rcases this with h | h
      · cases hcd : a.cond with
        | some e => simp [hcd] at h
        | none => simp only [hcd, Option.isSome_none, Bool.false_eq_true, if_false] at h; exact ⟨rfl, h⟩
      · exact absurd rfl (hdis n hn n (nested_sub h))
    obtain ⟨σ1, L1, j1, j2, j3, j4, j5, j6⟩ :=
      cont_order (items_order items) hg how.1 hsi hndi hsa (fun n hn => hS n (hmemL n hn)) hSN hNi
        (fun hc hcd n hn => hc1 hc n (by simp [nested, hcd, hn])) hc2
        (fun n hn => hu n (by simp [blenAutos, hn])) hrel hlen
    have hlo : ∀ n ∈ leftOver a items, n ∈ items.names := by
      intro n hn
      unfold leftOver at hn
      split at hn
      · cases hn
      · exact plain_sub hn
    have hInW : ∀ {es}, In S es → In (fun n => S n ∨ (a.cond = none ∧ n ∈ visible vis items)) es :=
      fun h e he n hn => .inl (h e he n hn)
    have hwi : ∀ d, w = some d → d.attr.name ∉ items.names := fun d hd h => (hw d hd).fresh (hmemL _ h)
    obtain ⟨σ, Lf, wb, pre, k1, k2, k3, k4, k5, k6, k7, k8⟩ :=
      step (N := fun n => N n ∧ n ∉ leftOver a items) (items_order rest) hfl hr how.2 hsr hndr
        (by
          rintro n hn (h | ⟨_, h⟩)
          · exact hS n (hmemR n hn) h
          · exact hdis n (visible_sub h) n hn rfl)
        (by
          rintro n (h | ⟨hcd, h⟩) ⟨h1, h2⟩
          · exact hSN n h h1
          · exact h2 (by simpa [leftOver, hcd] using (hNi n (visible_sub h) h1).2))
        (fun n hn h => by
          have := hN n (hmemR n hn) h.1
          simp only [nested, List.mem_append] at this
          rcases this with h' | h'
          · exact absurd (show n ∈ leftOver a items from h') h.2
          · exact h')
        (fun hc n hn => ⟨hc1 hc n (by simp [nested, hn]), fun h => hdis n (hlo n h) n (nested_sub hn) rfl⟩)
        (fun hc n h => hc2 hc n h.1)
        (fun d hd => ⟨hInW (hw d hd).attr, hInW (hw d hd).ty,
            fun e he hb => ⟨hInW ((hw d hd).auto e he hb).1, ((hw d hd).auto e he hb).2⟩,
            fun hm => (hw d hd).fresh (hmemR _ hm), fun h => (hw d hd).out h.1,
            by rw [j2 _ (fun h => hwi d hd (blenAutos_sub h))]; exact (hw d hd).unset⟩)
        (fun n hn => by
          rw [j2 n (fun h => hdis n (blenAutos_sub h) n (blenAutos_sub hn) rfl)]
          exact hu n (by simp [blenAutos, hn])) j6 j4
    have hwire1 : wire X items (inside a items σ1) = wire X items (inside a items σ1) := rfl
    refine ⟨σ, L1 ++ Lf, bs0 ++ wb, pre, j1.trans k1, fun n hn hd => ?_, ?_, by rw [k4]; simp, k5, ?_,
      by simpa using k7, fun Lg hLg => ⟨⟨fun hcond => ?_, (k8 Lg (by simpa using hLg)).1⟩, (k8 Lg (by simpa using hLg)).2⟩⟩
    · simp only [blenAutos, List.mem_append, not_or] at hn
      rw [k2 n hn.2 hd, j2 n hn.1]
    · unfold wire
      have := whenHolds_mono k1 a.cond (encXforms_on k1
        ((wire_mono (X := X) items (inside_mono (a := a) k1)).bind fun x => OkLe.refl
          (.ok ((a.name, x.2.length) :: x.1, x.2))) a.xfs (In.all _)) _ j3
      simp only [this, k3, ok_bind]
    · refine k6.congr fun n => ?_
      simp only [plainNames, leftOver, List.mem_append, not_or, and_assoc]
    · have hc1' : ∀ e, a.cond = some e → ev X σ1 e = .ok (.bool true) := by
        intro e he
        rw [he] at j3
        obtain ⟨v, hv, _⟩ := ok_of_bind j3
        have := ev_on (X := X) k1 (fun _ _ => trivial) v hv
        rw [hcond e he] at this
        cases this; exact hv
      have hcal := j5 Lg (fun x hx => hLg x (by
        simp only [List.mem_append] at hx ⊢
        exact hx.elim .inl fun h => .inr (.inl h))) hc1'
      have hin : ∃ r, wire X items (inside a items σ1) = .ok r := by
        cases hcd : a.cond with
        | none =>
          rw [hcd] at j3
          obtain ⟨_, hk⟩ := encXforms_inner j3
          obtain ⟨r, hr, _⟩ := ok_of_bind hk
          exact ⟨r, hr⟩
        | some e =>
          rw [hcd] at j3
          simp only [whenHolds, hc1' e hcd, ok_bind, Val.toBool, if_true] at j3
          obtain ⟨_, hk⟩ := encXforms_inner j3
          obtain ⟨r, hr, _⟩ := ok_of_bind hk
          exact ⟨r, hr⟩
      obtain ⟨r, hr⟩ := hin
      exact hcal.mono items (inside_mono k1) hr

end Verif.Enc
