import Verif.Order
/-!
# Rust names

The expressions of a specification end up in functions that also have variables of the generator's own: `r_0`,
`r_1`, .. for registers (`compiler/mod.rs` 274-279), and the variables of the statement templates
(`compiler/decoder.rs`). A parameter is emitted under its own name (`compiler/expr.rs` 369-374), so what it means is
decided by Rust's scoping, not by the generator. `Dec.execN`, `Enc.execN` run the instruction lists like `Dec.exec`,
`Enc.exec`, but look up the parameters the way Rust does.
-/
namespace Verif

/-- The variables an emitted expression mentions besides registers (`compiler/expr.rs` 363-374): parameters and
constants. The values behind enum variants, flags and constants are not emitted. -/
def Expr.vars : Expr → List String
  | .binary _ l r => l.vars ++ r.vars
  | .unary _ e => e.vars
  | .cast _ e _ => e.vars
  | .index a i => a.vars ++ i.vars
  | .constRef n _ => [n]
  | .inputRef n => [n]
  | .ternary c t f => c.vars ++ t.vars ++ f.vars
  | .len _ e => e.vars
  | .sum e => e.vars
  | .bits e => e.vars
  | .pad p b => p.vars ++ b.vars
  | .member e _ _ => e.vars
  | _ => []

/-- `format_ident!("r_{}", register)` (`compiler/mod.rs` 274-279). -/
def regName (k : Nat) : String := "r_" ++ toString k

/-- The register a variable name stands for. -/
def regOf (n : String) : Option Nat :=
  match n.toList with
  | _ :: _ :: ds =>
    let k := Nat.ofDigitChars 10 ds 0
    if regName k = n then some k else none
  | _ => none

theorem regOf_iff (n : String) (k : Nat) : regOf n = some k ↔ n = regName k := by
  constructor
  · intro h
    unfold regOf at h
    split at h
    · dsimp only at h
      split at h
      · rename_i hk; cases h; exact hk.symm
      · cases h
    · cases h
  · rintro rfl
    have hl : (regName k).toList = 'r' :: '_' :: Nat.toDigits 10 k := by
      simp [regName, String.toList_append, Nat.repr]
    unfold regOf
    rw [hl]
    simp only [Nat.ofDigitChars_ten_toDigits, if_true]

/-- Only the variables decide what an expression of the generated code gives. -/
theorem runE_vars {oc : Bool} {lk lk' : Look} (hf : lk.field = lk'.field) : ∀ (e : Expr),
    (∀ n ∈ e.vars, lk.input n = lk'.input n) → evalE true oc lk e = evalE true oc lk' e
  | .binary op l r, h => by
    have hl := runE_vars (oc := oc) hf l fun n hn => h n (by simp [Expr.vars, hn])
    have hr := runE_vars (oc := oc) hf r fun n hn => h n (by simp [Expr.vars, hn])
    cases op <;> simp only [evalE, hl, hr]
  | .unary op (.cast src e ty), h => by
    have he := runE_vars (oc := oc) hf e fun n hn => h n (by simpa [Expr.vars] using hn)
    simp only [evalE, he]
  | .unary op e, h => by
    have he := runE_vars (oc := oc) hf e fun n hn => h n (by simpa [Expr.vars] using hn)
    cases e with
    | cast src e' ty =>
      have he' := runE_vars (oc := oc) hf e' fun n hn => h n (by simpa [Expr.vars] using hn)
      simp only [evalE, he']
    | _ => simp only [evalE] at he ⊢ <;> rw [he]
  | .cast src e ty, h => by
    have he := runE_vars (oc := oc) hf e fun n hn => h n (by simpa [Expr.vars] using hn)
    simp only [evalE, he]
  | .index a i, h => by simp only [evalE, if_true]
  | .enumAccess _ _ _, _ => by simp only [evalE]
  | .int _, _ => by simp only [evalE]
  | .constRef n v, h => by simp only [evalE, if_true, h n (by simp [Expr.vars])]
  | .inputRef n, h => by simp only [evalE, h n (by simp [Expr.vars])]
  | .fieldRef n, _ => by simp only [evalE, hf]
  | .str _, _ => by simp only [evalE]
  | .ternary c t f, h => by
    have h1 := runE_vars (oc := oc) hf c fun n hn => h n (by simp [Expr.vars, hn])
    have h2 := runE_vars (oc := oc) hf t fun n hn => h n (by simp [Expr.vars, hn])
    have h3 := runE_vars (oc := oc) hf f fun n hn => h n (by simp [Expr.vars, hn])
    simp only [evalE, h1, h2, h3]
  | .bool _, _ => by simp only [evalE]
  | .len fixed e, h => by
    have he := runE_vars (oc := oc) hf e fun n hn => h n (by simpa [Expr.vars] using hn)
    simp only [evalE, he]
  | .blen _, _ => by simp only [evalE]
  | .sum e, h => by
    have he := runE_vars (oc := oc) hf e fun n hn => h n (by simpa [Expr.vars] using hn)
    simp only [evalE, he]
  | .bits e, h => by
    have he := runE_vars (oc := oc) hf e fun n hn => h n (by simpa [Expr.vars] using hn)
    simp only [evalE, he]
  | .pad p b, h => by
    have h1 := runE_vars (oc := oc) hf p fun n hn => h n (by simp [Expr.vars, hn])
    have h2 := runE_vars (oc := oc) hf b fun n hn => h n (by simp [Expr.vars, hn])
    simp only [evalE, h1, h2]
  | .member e _ v, h => by
    have he := runE_vars (oc := oc) hf e fun n hn => h n (by simpa [Expr.vars] using hn)
    simp only [evalE, he]

/-- Variables of the generated function other than registers with values, by name. `some none` is a variable whose
value is not one of the model: a reader, a writer, or a vector that was moved away. -/
abbrev Locals := String → Option (Option Val)

/-- What a name means in an emitted expression: the innermost variable of that name, the parameter last. -/
def scope (L : Locals) (regs : Nat → Option Val) (input : String → Option Val) : String → Option Val := fun n =>
  match L n with
  | some o => o
  | none =>
    match (regOf n).bind regs with
    | some v => some v
    | none => input n

/-- The variables of the statement templates that are in scope where expressions are evaluated
(`compiler/decoder.rs` 386-424 `buf`, `r`, `r_len`; 174-217 `r_xform`; 500-507 `big_scratch`). The other templates
keep their variables in blocks without expressions. -/
def templateVars : List String := ["buf", "r", "r_len", "r_xform", "big_scratch"]

/-- A name that no variable of the generator has. -/
def clean (n : String) : Bool := (regOf n).isNone && !templateVars.contains n

theorem clean_iff (n : String) :
    clean n = true ↔ (∀ k : Nat, n ≠ "r_" ++ toString k) ∧ n ∉ ["buf", "r", "r_len", "r_xform", "big_scratch"] := by
  unfold clean templateVars
  rw [Bool.and_eq_true]
  refine and_congr ?_ (by simp)
  rw [Option.isNone_iff_eq_none]
  constructor
  · intro h k hk
    rw [(regOf_iff n k).mpr hk] at h; cases h
  · intro h
    cases hr : regOf n with
    | none => rfl
    | some k => exact absurd ((regOf_iff n k).mp hr) (h k)

/-- Variables of the generator only. -/
def Locals.Ok (L : Locals) : Prop := ∀ n, clean n = true → L n = none

theorem scope_clean {L : Locals} (hL : L.Ok) {regs : Nat → Option Val} {input : String → Option Val} {n : String}
    (hn : clean n = true) : scope L regs input n = input n := by
  have hr : regOf n = none := by
    simp only [clean, Bool.and_eq_true, Option.isNone_iff_eq_none] at hn; exact hn.1
  simp only [scope, hL n hn, hr, Option.bind_none]

theorem Locals.Ok.upd {L : Locals} (h : L.Ok) {x : String} (hx : clean x = false) (o : Option (Option Val)) :
    Locals.Ok (Verif.upd L x o) := by
  intro n hn
  have : n ≠ x := by rintro rfl; rw [hn] at hx; cases hx
  rw [upd_ne _ _ this]; exact h n hn

theorem clean_regName (k : Nat) : clean (regName k) = false := by
  simp [clean, (regOf_iff (regName k) k).mpr rfl]

theorem clean_template {n : String} (h : n ∈ templateVars) : clean n = false := by
  simp [clean, h]

/-- No local variables yet. -/
def Locals.none : Locals := fun _ => .none

theorem Locals.none_ok : Locals.none.Ok := fun _ _ => rfl

namespace Dec

/-- The variables a statement without blocks declares, apart from those that are registers with values
(`compiler/decoder.rs` 155-173, 500-507). -/
def opLocals (L : Locals) (s : State) : Op → Locals
  | .constrict _ new _ => upd L (regName new) (some none)
  | .wrap _ new _ _ => upd L (regName new) (some none)
  | .skip src len =>
    upd L "big_scratch" (some (do
      let v ← s.regs len
      let k ← (asUsize v).toOption
      let w ← s.strm src
      some (Val.bytes ((s.vis w).take k))))
  | _ => L

/-- The variables in scope in the body of a loop (`compiler/decoder.rs` 373-424): `buf` is what the reader shows
(`t` is the state when the iteration begins), `r` has been moved away, `r_len` is the length of what was left
(`s` is the state when the loop begins). -/
def loopLocals (L : Locals) (src : Target) (len term : Option Nat) (s t : State) : Locals :=
  match len, term with
  | some _, _ => L
  | none, some _ => upd L "buf" (some ((t.strm src).map fun w => Val.bytes (t.vis w)))
  | none, none =>
    upd (upd L "r" (some none)) "r_len" (some ((s.strm src).map fun w => .int ⟨.u64, (s.vis w).length⟩))

/-- `exec` with Rust's scoping. -/
def execN (X : Ext) : Prog → Locals → State → Out
  | .nil, _, s => .next s
  | .op i rest, L, s =>
    match execOp { X with input := scope L s.regs X.input } s i with
    | .next s' => execN X rest (opLocals L s i) s'
    | o => o
  | .loop src len term out inner rest, L, s =>
    match execLoop (fun t => execN X inner (loopLocals L src len term s t) t) src len term out s with
    | .next s' => execN X rest L s'
    | o => o
  | .cond regs c inner rest, L, s =>
    match s.regs c with
    | some (.bool true) =>
      match execN X inner L s with
      | .next s' => execN X rest L { (s.leave s') with regs := somes s.regs s'.regs regs }
      | o => o
    | some (.bool false) => execN X rest L { s with regs := nones s.regs regs }
    | _ => .fault .ill
  | .condPred c inner rest, L, s =>
    match s.regs c with
    | some (.bool true) =>
      match execN X inner L s with
      | .next s' => execN X rest L (s.leave s')
      | o => o
    | some (.bool false) => execN X rest L s
    | _ => .fault .ill
  | .condWrap c prelude src new xf args rest, L, s =>
    match s.regs c with
    | some (.bool true) =>
      match execN X prelude (upd L "r_xform" (some none)) s with
      | .next s' =>
        match (s'.args args).bind (fun vs => (s.leave s').wrapStream X src new xf vs) with
        | .ok s'' => execN X rest (upd (upd L "r_xform" (some none)) (regName new) (some none)) s''
        | .error f => .fault f
      | o => o
    | some (.bool false) =>
      execN X rest (upd (upd L "r_xform" (some none)) (regName new) (some none))
        { s with strm := upd s.strm (.stream new) (s.strm src) }
    | _ => .fault .ill

/-- `Name::decode_sync(reader, args..)` with Rust's scoping. -/
def runProgN (X : Ext) (p : Prog) (bs : Bytes) : Res (Val × Bytes) :=
  match execN X p .none (initState bs) with
  | .ret v s => .ok (v, s.mem 0)
  | .next _ => .error .ill
  | .fault f => .error f

/-- `decode_sync` of a declaration (`compiler/mod.rs` 204-256). A function with two parameters of one name, `reader`
among them, is rejected by rustc. -/
def runDeclN (X : Ext) (d : Decl) (bs : Bytes) : Res (Val × Bytes) :=
  if ("reader" :: d.params).Nodup then runProgN X (genDecl d) bs else .error .ill

/-- `Name::decode_sync(reader, args)` of the code generated for a schema, with Rust's scoping. -/
def runDecodeN (sch : Schema) (L : Lib) := callDecl sch L runDeclN

/-- The expressions evaluated by an instruction list. -/
def Prog.evals : Prog → List Expr
  | .nil => []
  | .op (.eval _ e _) rest => e :: rest.evals
  | .op _ rest => rest.evals
  | .loop _ _ _ _ inner rest => inner.evals ++ rest.evals
  | .cond _ _ inner rest => inner.evals ++ rest.evals
  | .condPred _ inner rest => inner.evals ++ rest.evals
  | .condWrap _ prelude _ _ _ _ rest => prelude.evals ++ rest.evals

theorem opLocals_ok {L : Locals} (hL : L.Ok) (s : State) (i : Op) : (opLocals L s i).Ok := by
  cases i <;> first
    | exact hL
    | exact hL.upd (clean_regName _) _
    | exact hL.upd (clean_template (by simp [templateVars])) _

theorem loopLocals_ok {L : Locals} (hL : L.Ok) (src : Target) (len term : Option Nat) (s t : State) :
    (loopLocals L src len term s t).Ok := by
  unfold loopLocals
  split
  · exact hL
  · exact hL.upd (clean_template (by simp [templateVars])) _
  · exact (hL.upd (clean_template (by simp [templateVars])) _).upd (clean_template (by simp [templateVars])) _

theorem execOp_scope {X : Ext} {L : Locals} (hL : L.Ok) (s : State) (i : Op)
    (h : ∀ r e m, i = .eval r e m → ∀ n ∈ e.vars, clean n = true) :
    execOp { X with input := scope L s.regs X.input } s i = execOp X s i := by
  cases i with
  | eval r e m =>
    have he := runE_vars (oc := X.oc) (lk := ⟨fun n => (m n).bind s.regs, scope L s.regs X.input⟩)
      (lk' := ⟨fun n => (m n).bind s.regs, X.input⟩) rfl e fun n hn => scope_clean hL (h r e m rfl n hn)
    simp only [execOp, he]
  | _ => rfl

theorem execN_eq {X : Ext} : ∀ (p : Prog) (L : Locals) (s : State), L.Ok →
    (∀ e ∈ p.evals, ∀ n ∈ e.vars, clean n = true) → execN X p L s = exec X p s
  | .nil, L, s, _, _ => rfl
  | .op i rest, L, s, hL, h => by
    have h1 : ∀ r e m, i = .eval r e m → ∀ n ∈ e.vars, clean n = true := by
      rintro r e m rfl
      exact h e (by simp [Prog.evals])
    have h2 : ∀ e ∈ rest.evals, ∀ n ∈ e.vars, clean n = true := by
      intro e he
      refine h e ?_
      cases i <;> simp [Prog.evals, he]
    simp only [execN, exec, execOp_scope hL s i h1]
    cases execOp X s i with
    | next s' => exact execN_eq rest _ s' (opLocals_ok hL s i) h2
    | ret v s' => rfl
    | fault f => rfl
  | .loop src len term out inner rest, L, s, hL, h => by
    have h1 : (fun t => execN X inner (loopLocals L src len term s t) t) = exec X inner := by
      funext t
      exact execN_eq inner _ t (loopLocals_ok hL _ _ _ _ _) fun e he => h e (by simp [Prog.evals, he])
    simp only [execN, exec, h1]
    cases execLoop (exec X inner) src len term out s with
    | next s' => exact execN_eq rest _ s' hL fun e he => h e (by simp [Prog.evals, he])
    | ret v s' => rfl
    | fault f => rfl
  | .cond regs c inner rest, L, s, hL, h => by
    have h1 := fun s => execN_eq (X := X) inner L s hL fun e he => h e (by simp [Prog.evals, he])
    have h2 := fun s => execN_eq (X := X) rest L s hL fun e he => h e (by simp [Prog.evals, he])
    simp only [execN, exec, h1, h2]
    rfl
  | .condPred c inner rest, L, s, hL, h => by
    have h1 := fun s => execN_eq (X := X) inner L s hL fun e he => h e (by simp [Prog.evals, he])
    have h2 := fun s => execN_eq (X := X) rest L s hL fun e he => h e (by simp [Prog.evals, he])
    simp only [execN, exec, h1, h2]
    rfl
  | .condWrap c prelude src new xf args rest, L, s, hL, h => by
    have hx : clean "r_xform" = false := clean_template (by simp [templateVars])
    have h1 := fun s => execN_eq (X := X) prelude _ s (hL.upd hx (some none)) fun e he => h e (by simp [Prog.evals, he])
    have h2 := fun s => execN_eq (X := X) rest _ s ((hL.upd hx (some none)).upd (clean_regName new) (some none))
      fun e he => h e (by simp [Prog.evals, he])
    simp only [execN, exec, h1, h2]
    rfl

theorem runProgN_eq {X : Ext} {p : Prog} (h : ∀ e ∈ p.evals, ∀ n ∈ e.vars, clean n = true) (bs : Bytes) :
    runProgN X p bs = runProg X p bs := by
  simp only [runProgN, runProg, execN_eq p .none _ Locals.none_ok h]
  rfl

/-! ### Which expressions are evaluated -/

theorem evals_append : ∀ (p q : Prog), (p ++ q).evals = p.evals ++ q.evals
  | .nil, q => rfl
  | .op i rest, q => by
    have h := evals_append rest q
    show (Prog.op i (rest ++ q)).evals = _
    cases i <;> simp [Prog.evals, h]
  | .loop a b c d i rest, q => by
    have h := evals_append rest q
    show (Prog.loop a b c d i (rest ++ q)).evals = _
    simp [Prog.evals, h]
  | .cond a b i rest, q => by
    have h := evals_append rest q
    show (Prog.cond a b i (rest ++ q)).evals = _
    simp [Prog.evals, h]
  | .condPred a i rest, q => by
    have h := evals_append rest q
    show (Prog.condPred a i (rest ++ q)).evals = _
    simp [Prog.evals, h]
  | .condWrap a i b c d f rest, q => by
    have h := evals_append rest q
    show (Prog.condWrap a i b c d f (rest ++ q)).evals = _
    simp [Prog.evals, h]

theorem genArgs_evals (m : RegMap) : ∀ (es : List Expr) (c : Nat), (genArgs m c es).2.1.evals = es
  | [], _ => rfl
  | e :: es, c => by simp only [genArgs, Prog.evals, genArgs_evals m es]

theorem genLeaf_evals (m : RegMap) (src : Target) : ∀ (ty : LTy) (c : Nat),
    ∀ e ∈ (genLeaf m src ty c).2.1.evals, e ∈ Enc.LTy.exprs ty
  | .prim p, c, e, he => by simp [genLeaf, Prog.one, Prog.evals] at he
  | .ref target foreign res args, c, e, he => by
    simp only [genLeaf] at he
    split at he <;> simpa [evals_append, genArgs_evals, Prog.one, Prog.evals, Enc.LTy.exprs] using he
  | .array elem len, c, e, he => by
    have ih := fun c => genLeaf_evals m src elem c e
    cases len with
    | term t =>
      simp only [genLeaf, Prog.evals, evals_append, Prog.one, List.append_nil, List.mem_cons] at he
      simp only [Enc.LTy.exprs, List.mem_append, List.mem_singleton]
      exact he.imp id (ih _)
    | fixed t =>
      simp only [Enc.LTy.exprs, List.mem_append, List.mem_singleton]
      simp only [genLeaf] at he
      split at he
      · exact .inl (by simpa [Prog.one, Prog.evals] using he)
      · exact .inl (by simpa [Prog.one, Prog.evals] using he)
      · simp only [Prog.evals, evals_append, Prog.one, List.append_nil, List.mem_cons] at he
        exact he.imp id (ih _)
    | unbounded =>
      simp only [Enc.LTy.exprs, List.nil_append]
      simp only [genLeaf] at he
      split at he
      · simp [Prog.one, Prog.evals] at he
      · simp [Prog.one, Prog.evals] at he
      · simp only [Prog.evals, evals_append, Prog.one, List.append_nil] at he
        exact ih _ he

theorem genXforms_evals (m : RegMap) : ∀ (xs : List XformUse) (src : Target) (c : Nat),
    ∀ e ∈ (genXforms m src c xs).2.1.evals, e ∈ xs.flatMap Enc.XformUse.exprs
  | [], src, c, e, he => by simp [genXforms, Prog.evals] at he
  | x :: xs, src, c, e, he => by
    have ih := fun src c => genXforms_evals m xs src c e
    simp only [List.flatMap_cons, List.mem_append, Enc.XformUse.exprs]
    simp only [genXforms] at he
    split at he
    · rename_i t ht
      simp only [Prog.evals, genArgs_evals, List.mem_cons, List.mem_append] at he
      rw [ht]
      rcases he with rfl | he | he
      · simp
      · exact .inl (.inr he)
      · exact .inr (ih _ _ he)
    · simp only [evals_append, Prog.evals, genArgs_evals, List.mem_append] at he
      exact he.imp .inr (ih _ _)

theorem genXforms_evals_rev (m : RegMap) (xs : List XformUse) (src : Target) (c : Nat) :
    ∀ e ∈ (genXforms m src c xs.reverse).2.1.evals, e ∈ xs.flatMap Enc.XformUse.exprs := by
  intro e he
  have := genXforms_evals m _ _ _ e he
  simpa using this

theorem genCond_evals (m : RegMap) (cond : Option Expr) (c : Nat) : (genCond m cond c).2.1.evals = cond.toList := by
  cases cond <;> rfl

theorem wrapCond_evals (cr : Option Nat) (rs : List Nat) (p : Prog) : (wrapCond cr rs p).evals = p.evals := by
  cases cr <;> simp [wrapCond, Prog.evals]

theorem genConstrict_evals (m : RegMap) (src : Target) (len : Option Expr) (c : Nat) :
    (genConstrict m src len c).2.1.evals = len.toList := by
  cases len <;> rfl

end Dec

/-- All expressions of the items of a container. -/
def Fields.exprs : Fields → List Expr
  | .nil => []
  | .pad _ e rest => e :: rest.exprs
  | .leaf a ty rest => Enc.FAttr.exprs a ++ Enc.LTy.exprs ty ++ a.auto.toList ++ rest.exprs
  | .cont a len items rest => Enc.FAttr.exprs a ++ len.toList ++ items.exprs ++ rest.exprs

def Arm.exprs (arm : Arm) : List Expr :=
  Enc.FAttr.exprs arm.attr ++
    match arm.body with
    | .leaf ty => Enc.LTy.exprs ty
    | .cont len items => len.toList ++ items.exprs

/-- All expressions of a declaration. -/
def Decl.exprs (d : Decl) : List Expr :=
  d.xfs.flatMap Enc.XformUse.exprs ++
    match d.body with
    | .leaf cond ty => cond.toList ++ Enc.LTy.exprs ty
    | .repr _ => []
    | .struct len items => len.toList ++ items.exprs
    | .tagged len arms => len.toList ++ arms.flatMap Arm.exprs

/-- The parameters and constants the expressions of a declaration mention. -/
def Decl.vars (d : Decl) : List String := d.exprs.flatMap Expr.vars

namespace Dec

theorem genItems_evals : ∀ (fs : Fields) (m : RegMap) (c : Nat) (src : Target),
    ∀ e ∈ (genItems src fs m c).2.2.1.evals, e ∈ fs.exprs
  | .nil, m, c, src, e, he => by simp [genItems, Prog.evals] at he
  | .pad n x rest, m, c, src, e, he => by
    have ih := fun m c => genItems_evals rest m c src e
    simp only [genItems, Prog.evals, List.mem_cons] at he
    simp only [Fields.exprs, List.mem_cons]
    exact he.imp id (ih _ _)
  | .leaf a ty rest, m, c, src, e, he => by
    have ih := fun m c => genItems_evals rest m c src e
    simp only [genItems, evals_append, wrapCond_evals, genCond_evals, List.mem_append] at he
    simp only [Fields.exprs, Enc.FAttr.exprs, List.mem_append]
    rcases he with (he | he | he) | he
    · exact .inl (.inl (.inl (.inl he)))
    · exact .inl (.inl (.inl (.inr (genXforms_evals_rev _ _ _ _ e he))))
    · exact .inl (.inl (.inr (genLeaf_evals _ _ _ _ e he)))
    · exact .inr (ih _ _ he)
  | .cont a len items rest, m, c, src, e, he => by
    have ih := fun m c => genItems_evals rest m c src e
    have ih' := fun m c src => genItems_evals items m c src e
    simp only [genItems, evals_append, wrapCond_evals, genCond_evals, genConstrict_evals, List.mem_append] at he
    simp only [Fields.exprs, Enc.FAttr.exprs, List.mem_append]
    rcases he with (he | (he | he) | he) | he
    · exact .inl (.inl (.inl (.inl he)))
    · exact .inl (.inl (.inl (.inr (genXforms_evals_rev _ _ _ _ e he))))
    · exact .inl (.inl (.inr he))
    · exact .inl (.inr (ih' _ _ _ he))
    · exact .inr (ih _ _ he)

theorem genArm_evals (n : String) (src : Target) (arm : Arm) (m : RegMap) (c : Nat) :
    ∀ e ∈ (genArm n src arm m c).2.2.1.evals,
      e ∈ (match arm.body with | .leaf ty => Enc.LTy.exprs ty | .cont len items => len.toList ++ items.exprs) := by
  intro e he
  obtain ⟨a, body⟩ := arm
  cases body with
  | leaf ty => exact genLeaf_evals _ _ _ _ e he
  | cont len items =>
    simp only [genArm, evals_append, genConstrict_evals, List.mem_append] at he
    simp only [List.mem_append]
    exact he.imp id (genItems_evals _ _ _ _ e)

theorem genArms_evals (n : String) (src : Target) : ∀ (arms : List Arm) (m : RegMap) (c : Nat),
    ∀ e ∈ (genArms n src arms m c).2.1.evals, e ∈ arms.flatMap Arm.exprs
  | [], m, c, e, he => by simp [genArms, Prog.one, Prog.evals] at he
  | arm :: arms, m, c, e, he => by
    have ih := fun m c => genArms_evals n src arms m c e
    simp only [List.flatMap_cons, List.mem_append, Arm.exprs, Enc.FAttr.exprs]
    simp only [genArms] at he
    split at he
    · simp only [evals_append, genCond_evals, Prog.evals, Prog.one, List.append_nil, List.mem_append] at he
      rcases he with he | (he | he) | he
      · exact .inl (.inl (.inl he))
      · exact .inl (.inl (.inr (genXforms_evals_rev _ _ _ _ e he)))
      · exact .inl (.inr (genArm_evals _ _ _ _ _ e he))
      · exact .inr (ih _ _ he)
    · simp only [evals_append, genCond_evals, Prog.evals, Prog.one, List.append_nil, List.mem_append] at he
      rcases he with he | he | he
      · exact .inl (.inl (.inl he))
      · exact .inl (.inl (.inr (genXforms_evals_rev _ _ _ _ e he)))
      · exact .inl (.inr (genArm_evals _ _ _ _ _ e he))

/-- The decoder evaluates only expressions of the declaration. -/
theorem genDecl_evals (d : Decl) : ∀ e ∈ (genDecl d).evals, e ∈ d.exprs := by
  intro e he
  obtain ⟨n, ps, xfs, body⟩ := d
  cases body with
  | leaf cond ty =>
    simp only [genDecl, evals_append, wrapCond_evals, genCond_evals, Prog.evals, Prog.one, List.append_nil,
      List.mem_append] at he
    simp only [Decl.exprs, List.mem_append]
    rcases he with he | he | he
    · exact .inr (.inl he)
    · exact .inl (genXforms_evals_rev _ _ _ _ e he)
    · exact .inr (.inr (genLeaf_evals _ _ _ _ e he))
  | repr t =>
    simp only [genDecl, evals_append, Prog.evals, Prog.one, List.append_nil] at he
    simp only [Decl.exprs, List.append_nil]
    exact genXforms_evals_rev _ _ _ _ e he
  | struct len items =>
    simp only [genDecl, evals_append, genConstrict_evals, Prog.evals, Prog.one, List.append_nil, List.mem_append] at he
    simp only [Decl.exprs, List.mem_append]
    rcases he with (he | he) | he
    · exact .inl (genXforms_evals_rev _ _ _ _ e he)
    · exact .inr (.inl he)
    · exact .inr (.inr (genItems_evals _ _ _ _ e he))
  | tagged len arms =>
    simp only [genDecl, evals_append, genConstrict_evals, List.mem_append] at he
    simp only [Decl.exprs, List.mem_append]
    rcases he with ((he | he) | he) | he
    · exact .inl (genXforms_evals_rev _ _ _ _ e he)
    · exact .inr (.inl he)
    · exact .inr (.inr (genArms_evals _ _ _ _ _ e he))
    · split at he <;> simp [Prog.one, Prog.evals] at he

theorem runDeclN_eq {X : Ext} {d : Decl} (hp : ("reader" :: d.params).Nodup)
    (hv : ∀ n ∈ d.vars, clean n = true) (bs : Bytes) : runDeclN X d bs = runProg X (genDecl d) bs := by
  simp only [runDeclN, hp, if_true]
  refine runProgN_eq (fun e he n hn => hv n ?_) bs
  exact List.mem_flatMap.mpr ⟨e, genDecl_evals d e he, hn⟩

end Dec
namespace Enc

/-- The variables a statement without blocks declares, apart from those that are registers with values
(`compiler/encoder.rs` 78-89, 154-163). The contents of buffers are left out. -/
def opLocals (L : Locals) : Op → Locals
  | .allocBuf b _ => upd L (regName b) (some none)
  | .allocDyn b => upd L (regName b) (some none)
  | .wrap _ new _ _ => upd L (regName new) (some none)
  | _ => L

/-- The variables a conditional transform declares (`compiler/encoder.rs` 345-353). -/
def wrapLocals (L : Locals) (new owned : Nat) : Locals :=
  upd (upd L (regName owned) (some none)) (regName new) (some none)

/-- `exec` with Rust's scoping. -/
def execN (X : Ext) : Refs → Prog → Locals → State → Out
  | _, .nil, _, s => .next s
  | refs, .op i rest, L, s =>
    match i with
    | .brk => .brk s
    | .setRef n r => execN X (upd refs n (some r)) rest L s
    | i =>
      match execOp { X with input := scope L s.regs X.input } refs s i with
      | .ok s' => execN X refs rest (opLocals L i) s'
      | .error f => .fault f
  | refs, .loop idx len inner rest, L, s =>
    match (s.reg len).bind rangeCount with
    | .ok n =>
      match loopN (execN X refs inner L) idx 0 n s with
      | .next s' => execN X (refsAfter inner refs) rest L s'
      | o => o
    | .error f => .fault f
  | refs, .cond c inner rest, L, s =>
    match s.regs c with
    | some (.bool true) =>
      match execN X refs inner L s with
      | .next s' => execN X (refsAfter inner refs) rest L (s.leave s')
      | o => o
    | some (.bool false) => execN X (refsAfter inner refs) rest L s
    | _ => .fault .ill
  | refs, .condWrap c prelude u new owned xf args rest, L, s =>
    match s.regs c with
    | some (.bool true) =>
      match execN X refs prelude (upd L (regName owned) (some none)) s with
      | .next s' =>
        match s'.args args with
        | .ok vs =>
          let s1 := (s.leave s').open u owned xf vs
          execN X (refsAfter prelude refs) rest (wrapLocals L new owned) (s1.alias (.stream owned) new)
        | .error f => .fault f
      | o => o
    | some (.bool false) =>
      execN X (refsAfter prelude refs) rest (wrapLocals L new owned) ((s.noStream owned).alias u new)
    | _ => .fault .ill
  | refs, .block inner rest, L, s =>
    match execN X refs inner L s with
    | .next s' => execN X (refsAfter inner refs) rest L (s.leave s')
    | .brk s' => execN X (refsAfter inner refs) rest L (s.leave s')
    | o => o

/-- `value.encode_sync(writer, args..)` with Rust's scoping. -/
def runProgN (X : Ext) (p : Prog) (v : Val) : Res Bytes :=
  match execN X (fun _ => none) p .none (initState v) with
  | .next s => optRes (s.mem .direct)
  | .brk _ => .error .ill
  | .fault f => .error f

/-- `encode_sync` of a declaration (`compiler/mod.rs` 204-261). A function with two parameters of one name, `writer`
among them, is rejected by rustc. -/
def runDeclN (X : Ext) (d : Decl) (v : Val) : Res Bytes :=
  if ("writer" :: d.params).Nodup then
    if (genDecl d).1.ok ∧ typeName v = some d.name then runProgN X (genDecl d).2 v else .error .ill
  else .error .ill

/-- `value.encode_sync(writer, args)` of the code generated for a schema, with Rust's scoping. -/
def runEncodeN (sch : Schema) (L : Lib) := callDecl sch L runDeclN

/-- The expressions evaluated by an instruction list. -/
def Prog.evals : Prog → List Expr
  | .nil => []
  | .op (.eval _ e) rest => e :: rest.evals
  | .op (.evalBlen _ e _) rest => e :: rest.evals
  | .op _ rest => rest.evals
  | .loop _ _ inner rest => inner.evals ++ rest.evals
  | .cond _ inner rest => inner.evals ++ rest.evals
  | .condWrap _ prelude _ _ _ _ _ rest => prelude.evals ++ rest.evals
  | .block inner rest => inner.evals ++ rest.evals

theorem opLocals_ok {L : Locals} (hL : L.Ok) (i : Op) : (opLocals L i).Ok := by
  cases i <;> first
    | exact hL
    | exact hL.upd (clean_regName _) _

theorem wrapLocals_ok {L : Locals} (hL : L.Ok) (new owned : Nat) : (wrapLocals L new owned).Ok :=
  (hL.upd (clean_regName _) _).upd (clean_regName _) _

theorem execOp_scope {X : Ext} {L : Locals} (hL : L.Ok) (refs : Refs) (s : State) (i : Op)
    (h : ∀ e ∈ (Prog.one i).evals, ∀ n ∈ e.vars, clean n = true) :
    execOp { X with input := scope L s.regs X.input } refs s i = execOp X refs s i := by
  cases i with
  | eval r e =>
    have he := runE_vars (oc := X.oc) (lk := ⟨fun n => (refs n).bind s.regs, scope L s.regs X.input⟩)
      (lk' := ⟨fun n => (refs n).bind s.regs, X.input⟩) rfl e
      fun n hn => scope_clean hL (h e (by simp [Prog.one, Prog.evals]) n hn)
    simp only [execOp, he]
  | evalBlen r e bl =>
    have he := runE_vars (oc := X.oc) (lk := ⟨fun n => (overlay refs bl n).bind s.regs, scope L s.regs X.input⟩)
      (lk' := ⟨fun n => (overlay refs bl n).bind s.regs, X.input⟩) rfl e
      fun n hn => scope_clean hL (h e (by simp [Prog.one, Prog.evals]) n hn)
    simp only [execOp, he]
  | endStream r => rfl
  | _ => rfl

theorem evals_op (i : Op) (rest : Prog) : (Prog.op i rest).evals = (Prog.one i).evals ++ rest.evals := by
  cases i <;> rfl

theorem execN_eq {X : Ext} : ∀ (p : Prog) (refs : Refs) (L : Locals) (s : State), L.Ok →
    (∀ e ∈ p.evals, ∀ n ∈ e.vars, clean n = true) → execN X refs p L s = exec X refs p s
  | .nil, refs, L, s, _, _ => rfl
  | .op i rest, refs, L, s, hL, h => by
    rw [evals_op] at h
    have h1 := execOp_scope (X := X) hL refs s i fun e he => h e (by simp [he])
    have ih := fun refs L s hL => execN_eq (X := X) rest refs L s hL fun e he => h e (by simp [he])
    have hL' := opLocals_ok hL i
    cases i with
    | brk => rfl
    | setRef n r => simp only [execN, exec]; exact ih _ _ _ hL
    | _ =>
      simp only [execN, exec, h1]
      generalize execOp X refs s _ = o
      cases o with
      | ok s' => exact ih _ _ _ hL'
      | error f => rfl
  | .loop idx len inner rest, refs, L, s, hL, h => by
    have h1 : execN X refs inner L = exec X refs inner := by
      funext t
      exact execN_eq inner _ _ t hL fun e he => h e (by simp [Prog.evals, he])
    have h2 := fun refs s => execN_eq (X := X) rest refs L s hL fun e he => h e (by simp [Prog.evals, he])
    simp only [execN, exec, h1, h2]
    rfl
  | .cond c inner rest, refs, L, s, hL, h => by
    have h1 := fun s => execN_eq (X := X) inner refs L s hL fun e he => h e (by simp [Prog.evals, he])
    have h2 := fun refs s => execN_eq (X := X) rest refs L s hL fun e he => h e (by simp [Prog.evals, he])
    simp only [execN, exec, h1, h2]
    rfl
  | .condWrap c prelude u new owned xf args rest, refs, L, s, hL, h => by
    have h1 := fun s => execN_eq (X := X) prelude refs _ s (hL.upd (clean_regName owned) (some none))
      fun e he => h e (by simp [Prog.evals, he])
    have h2 := fun refs s => execN_eq (X := X) rest refs _ s (wrapLocals_ok hL new owned)
      fun e he => h e (by simp [Prog.evals, he])
    simp only [execN, exec, h1, h2]
    rfl
  | .block inner rest, refs, L, s, hL, h => by
    have h1 := fun s => execN_eq (X := X) inner refs L s hL fun e he => h e (by simp [Prog.evals, he])
    have h2 := fun refs s => execN_eq (X := X) rest refs L s hL fun e he => h e (by simp [Prog.evals, he])
    simp only [execN, exec, h1, h2]
    rfl

theorem runProgN_eq {X : Ext} {p : Prog} (h : ∀ e ∈ p.evals, ∀ n ∈ e.vars, clean n = true) (v : Val) :
    runProgN X p v = runProg X p v := by
  simp only [runProgN, runProg, execN_eq p _ .none _ Locals.none_ok h]
  rfl

/-! ### Which expressions are evaluated -/

theorem evals_append : ∀ (p q : Prog), (p ++ q).evals = p.evals ++ q.evals
  | .nil, q => rfl
  | .op i rest, q => by
    have h := evals_append rest q
    show (Prog.op i (rest ++ q)).evals = _
    rw [evals_op, evals_op, h, List.append_assoc]
  | .loop a b i rest, q => by
    have h := evals_append rest q
    show (Prog.loop a b i (rest ++ q)).evals = _
    simp [Prog.evals, h]
  | .cond a i rest, q => by
    have h := evals_append rest q
    show (Prog.cond a i (rest ++ q)).evals = _
    simp [Prog.evals, h]
  | .condWrap a i b c d f g rest, q => by
    have h := evals_append rest q
    show (Prog.condWrap a i b c d f g (rest ++ q)).evals = _
    simp [Prog.evals, h]
  | .block i rest, q => by
    have h := evals_append rest q
    show (Prog.block i (rest ++ q)).evals = _
    simp [Prog.evals, h]

theorem unblen_vars : ∀ (e : Expr), e.unblen.vars = e.vars
  | .binary _ l r => by simp only [Expr.unblen, Expr.vars, unblen_vars l, unblen_vars r]
  | .unary _ e => by simp only [Expr.unblen, Expr.vars, unblen_vars e]
  | .cast _ e _ => by simp only [Expr.unblen, Expr.vars, unblen_vars e]
  | .index a i => by simp only [Expr.unblen, Expr.vars, unblen_vars a, unblen_vars i]
  | .enumAccess _ _ _ => rfl
  | .int _ => rfl
  | .constRef _ _ => rfl
  | .inputRef _ => rfl
  | .fieldRef _ => rfl
  | .str _ => rfl
  | .ternary c t f => by simp only [Expr.unblen, Expr.vars, unblen_vars c, unblen_vars t, unblen_vars f]
  | .bool _ => rfl
  | .len _ e => by simp only [Expr.unblen, Expr.vars, unblen_vars e]
  | .blen _ => rfl
  | .sum e => by simp only [Expr.unblen, Expr.vars, unblen_vars e]
  | .bits e => by simp only [Expr.unblen, Expr.vars, unblen_vars e]
  | .pad p b => by simp only [Expr.unblen, Expr.vars, unblen_vars p, unblen_vars b]
  | .member e _ _ => by simp only [Expr.unblen, Expr.vars, unblen_vars e]

/-- All variables of the expressions evaluated are in `V`. -/
def Prog.Within (V : String → Prop) (p : Prog) : Prop := ∀ e ∈ p.evals, ∀ n ∈ e.vars, V n

section
variable {V : String → Prop}

/-- The same for expressions. -/
def Mentions (V : String → Prop) (es : List Expr) : Prop := ∀ e ∈ es, ∀ n ∈ e.vars, V n

theorem Mentions.left {a b : List Expr} (h : Mentions V (a ++ b)) : Mentions V a := fun e he => h e (by simp [he])
theorem Mentions.right {a b : List Expr} (h : Mentions V (a ++ b)) : Mentions V b := fun e he => h e (by simp [he])

theorem within_nil : Prog.nil.Within V := by intro e he; cases he

theorem within_append {p q : Prog} (hp : p.Within V) (hq : q.Within V) : (p ++ q).Within V := by
  intro e he
  rw [evals_append, List.mem_append] at he
  exact he.elim (hp e) (hq e)

theorem within_op {i : Op} {p : Prog} (hi : (Prog.one i).Within V) (hp : p.Within V) : (Prog.op i p).Within V := by
  intro e he
  rw [evals_op, List.mem_append] at he
  exact he.elim (hi e) (hp e)

theorem within_eval {r : Nat} {e : Expr} (h : ∀ n ∈ e.vars, V n) : (Prog.one (.eval r e)).Within V := by
  intro e' he
  simp only [Prog.one, Prog.evals, List.mem_singleton] at he
  subst he; exact h

theorem within_quiet {i : Op} (h : (Prog.one i).evals = []) : (Prog.one i).Within V := by
  intro e he; rw [h] at he; cases he

theorem within_loop {a b : Nat} {p q : Prog} (hp : p.Within V) (hq : q.Within V) : (Prog.loop a b p q).Within V := by
  intro e he
  simp only [Prog.evals, List.mem_append] at he
  exact he.elim (hp e) (hq e)

theorem within_cond {a : Nat} {p q : Prog} (hp : p.Within V) (hq : q.Within V) : (Prog.cond a p q).Within V := by
  intro e he
  simp only [Prog.evals, List.mem_append] at he
  exact he.elim (hp e) (hq e)

theorem within_condWrap {a : Nat} {u : Target} {n o : Nat} {x : String} {as : List Nat} {p q : Prog}
    (hp : p.Within V) (hq : q.Within V) : (Prog.condWrap a p u n o x as q).Within V := by
  intro e he
  simp only [Prog.evals, List.mem_append] at he
  exact he.elim (hp e) (hq e)

theorem within_block {p q : Prog} (hp : p.Within V) (hq : q.Within V) : (Prog.block p q).Within V := by
  intro e he
  simp only [Prog.evals, List.mem_append] at he
  exact he.elim (hp e) (hq e)

theorem genArgs_within : ∀ (es : List Expr) (c : Nat), Mentions V es → (genArgs c es).2.1.Within V
  | [], _, _ => within_nil
  | e :: es, c, h => within_op (within_eval (h e (by simp))) (genArgs_within es _ fun e he => h e (by simp [he]))

theorem genLeaf_within (t : Target) : ∀ (ty : LTy) (src c : Nat), Mentions V (LTy.exprs ty) →
    (genLeaf t ty src c).2.Within V
  | .prim p, src, c, _ => within_quiet rfl
  | .ref target foreign res args, src, c, h => by
    have ha := genArgs_within args c h
    simp only [genLeaf]
    split
    · exact within_append ha (within_quiet rfl)
    · exact within_append ha (within_quiet rfl)
  | .array elem len, src, c, h => by
    have ih := fun src c => genLeaf_within t elem src c h.right
    cases len with
    | term e =>
      have he : ∀ n ∈ e.vars, V n := h.left e (by simp)
      exact within_op (within_eval he) (within_op (within_quiet rfl) (within_loop (within_op (within_quiet rfl) (ih _ _))
        (within_quiet rfl)))
    | fixed e =>
      have he : ∀ n ∈ e.vars, V n := h.left e (by simp)
      simp only [genLeaf]
      split
      · exact within_op (within_eval he) (within_quiet rfl)
      · exact within_op (within_eval he) (within_quiet rfl)
      · exact within_op (within_eval he) (within_loop (within_op (within_quiet rfl) (ih _ _)) within_nil)
    | unbounded =>
      simp only [genLeaf]
      split
      · exact within_quiet rfl
      · exact within_quiet rfl
      · exact within_op (within_quiet rfl) (within_loop (within_op (within_quiet rfl) (ih _ _)) within_nil)

theorem genXforms_within : ∀ (xs : List XformUse) (t : Target) (c : Nat), Mentions V (xs.flatMap XformUse.exprs) →
    (genXforms t c xs).2.1.Within V ∧ (genXforms t c xs).2.2.2.Within V
  | [], t, c, _ => ⟨within_nil, within_nil⟩
  | x :: xs, t, c, h => by
    rw [List.flatMap_cons] at h
    have hx := h.left
    have ih := fun t c => genXforms_within xs t c h.right
    have ha : Mentions V x.args := hx.right
    simp only [genXforms]
    split
    · rename_i e he
      have h1 : ∀ n ∈ e.vars, V n := hx.left e (by simp [he])
      exact ⟨within_op (within_eval h1) (within_condWrap (genArgs_within _ _ ha) (ih _ _).1),
        within_append (ih _ _).2 (within_op (within_quiet rfl) (within_quiet rfl))⟩
    · exact ⟨within_append (genArgs_within _ _ ha) (within_op (within_quiet rfl) (ih _ _).1),
        within_append (ih _ _).2 (within_quiet rfl)⟩

theorem genCond_within (cond : Option Expr) (c : Nat) (h : Mentions V cond.toList) : (genCond cond c).2.1.Within V := by
  cases cond with
  | none => exact within_nil
  | some e => exact within_eval (h e (by simp))

theorem wrapCond_within (cr : Option Nat) {p : Prog} (h : p.Within V) : (wrapCond cr p).Within V := by
  cases cr with
  | none => exact h
  | some r => exact within_cond h within_nil

theorem genField_within (t : Target) (src : Nat) (a : FAttr) (ty : LTy) (c : Nat)
    (ha : Mentions V (FAttr.exprs a)) (ht : Mentions V (LTy.exprs ty)) : (genField t src a ty c).2.Within V := by
  have h1 := genCond_within a.cond c ha.left
  have h2 := fun t c => genXforms_within a.xfs t c ha.right
  simp only [genField]
  split
  · exact within_append h1 (wrapCond_within _ (within_append (within_append (h2 _ _).1
      (within_op (within_quiet rfl) (genLeaf_within _ _ _ _ ht))) (h2 _ _).2))
  · exact within_append h1 (wrapCond_within _ (within_append (within_append (h2 _ _).1
      (genLeaf_within _ _ _ _ ht)) (h2 _ _).2))

theorem genBlen_within (resolved : String → Option Nat) (a : FAttr) (c : Nat) (h : Mentions V a.auto.toList) :
    (genBlen resolved a c).Within V := by
  unfold genBlen
  split
  · rename_i e he
    refine within_op ?_ (within_quiet rfl)
    intro e' h'
    simp only [Prog.one, Prog.evals, List.mem_singleton] at h'
    subst h'
    rw [unblen_vars]
    exact h e (by simp [he])
  · exact within_nil

/-- The expressions of the fields that wait. -/
def Waiting (V : String → Prop) (ds : List Deferred) : Prop :=
  ∀ d ∈ ds, Mentions V (FAttr.exprs d.attr) ∧ Mentions V (LTy.exprs d.ty) ∧ Mentions V d.attr.auto.toList

theorem genFlush_within (t : Target) (resolved : String → Option Nat) : ∀ (ds : List Deferred) (c : Nat),
    Waiting V ds → (genFlush t resolved ds c).2.1.Within V ∧ Waiting V (genFlush t resolved ds c).2.2
  | [], c, h => ⟨within_nil, h⟩
  | d :: ds, c, h => by
    have ih := genFlush_within t resolved ds c fun d hd => h d (by simp [hd])
    obtain ⟨h1, h2, h3⟩ := h d (by simp)
    simp only [genFlush]
    split
    · exact ⟨within_append (within_append (within_append ih.1 (genBlen_within _ _ _ h3)) (genField_within _ _ _ _ _ h1 h2))
        (within_quiet rfl), ih.2⟩
    · refine ⟨ih.1, ?_⟩
      intro x hx
      rcases List.mem_cons.mp hx with rfl | hx
      · exact ⟨h1, h2, h3⟩
      · exact ih.2 x hx

theorem genNullchecks_within : ∀ (fs : Fields) (c : Nat), (genNullchecks fs c).2.Within V
  | .nil, _ => within_nil
  | .pad _ _ rest, c => genNullchecks_within rest c
  | .cont _ _ _ rest, c => genNullchecks_within rest c
  | .leaf a _ rest, c => by
    simp only [genNullchecks]
    split
    · exact genNullchecks_within rest c
    · exact within_op (within_quiet rfl) (within_op (within_quiet rfl) (within_op (within_quiet rfl)
        (genNullchecks_within rest _)))

theorem genOpen_within (t : Target) (n : String) (len : Option Expr) (g : GState) (h : Mentions V len.toList) :
    (genOpen t n len g).2.1.Within V := by
  unfold genOpen
  split
  · rename_i e
    split
    · exact within_quiet rfl
    · exact within_op (within_eval (h e (by simp))) (within_quiet rfl)
  · exact within_nil

theorem genClose_within (t : Target) (n : String) (len : Option Expr) (bt : Target) (g : GState) :
    (genClose t n len bt g).2.Within V := by
  unfold genClose
  split
  · split
    · exact within_op (within_quiet rfl) (within_quiet rfl)
    · exact within_quiet rfl
  · exact within_nil

theorem genItems_within : ∀ (fs : Fields) (cond : Bool) (t : Target) (g : GState) (autos : List Deferred),
    Mentions V fs.exprs → Waiting V autos → (genItems cond t fs g autos).2.Within V
  | .nil, cond, t, g, autos, _, _ => within_nil
  | .pad n e rest, cond, t, g, autos, h, hw => by
    have hf := fun c => genFlush_within t g.resolved autos c hw
    have ih := fun g as hw => genItems_within rest cond t g as (fun e he => h e (by simp [Fields.exprs, he])) hw
    simp only [genItems]
    exact within_append (within_append (within_op (within_eval (h e (by simp [Fields.exprs]))) (within_quiet rfl))
      (hf _).1) (ih _ _ (hf _).2)
  | .leaf a ty rest, cond, t, g, autos, h, hw => by
    have hf := fun c => genFlush_within t g.resolved autos c hw
    have ih := fun g as hw => genItems_within rest cond t g as h.right hw
    have ha : Mentions V (FAttr.exprs a) := h.left.left.left
    have ht : Mentions V (LTy.exprs ty) := h.left.left.right
    have hx : Mentions V a.auto.toList := h.left.right
    simp only [genItems]
    split
    · refine within_append (within_append (within_append ?_ (within_op (within_quiet rfl)
        (genField_within _ _ _ _ _ ha ht))) (hf _).1) (ih _ _ (hf _).2)
      split
      · exact within_nil
      · exact genBlen_within _ _ _ hx
    · refine within_op (within_quiet rfl) (ih _ _ ?_)
      intro d hd
      rcases List.mem_append.mp hd with hd | hd
      · exact hw d hd
      · rw [List.mem_singleton] at hd
        subst hd
        exact ⟨ha, ht, hx⟩
  | .cont a len items rest, cond, t, g, autos, h, hw => by
    have hf := fun r c => genFlush_within t r autos c hw
    have ih := fun g as hw => genItems_within rest cond t g as h.right hw
    have ih' := fun c t g => genItems_within items c t g [] h.left.right (by intro d hd; cases hd)
    have ha : Mentions V (FAttr.exprs a) := h.left.left.left
    have hlen : Mentions V len.toList := h.left.left.right
    have hx := fun t c => genXforms_within a.xfs t c ha.right
    simp only [genItems]
    refine within_append (within_append (within_append (genCond_within _ _ ha.left) (wrapCond_within _ ?_)) (hf _ _).1)
      (ih _ _ (hf _ _).2)
    refine within_append (within_append (within_append (within_append (within_append (hx _ _).1
      (genOpen_within _ _ _ _ hlen)) ?_) (ih' _ _ _)) (genClose_within _ _ _ _ _)) (hx _ _).2
    split
    · exact genNullchecks_within _ _
    · exact within_nil

theorem genRefs_within (src : Nat) : ∀ (as : List FAttr) (c : Nat), (genRefs src as c).2.Within V
  | [], _ => within_nil
  | a :: as, c => by
    simp only [genRefs]
    split
    · exact genRefs_within src as c
    · exact within_op (within_quiet rfl) (within_op (within_quiet rfl) (genRefs_within src as _))

theorem genCalculated_within : ∀ (as : List FAttr) (c : Nat), (∀ a ∈ as, Mentions V a.auto.toList) →
    (genCalculated as c).2.Within V
  | [], _, _ => within_nil
  | a :: as, c, h => by
    have ih := fun c => genCalculated_within as c fun a ha => h a (by simp [ha])
    simp only [genCalculated]
    split
    · rename_i e he
      split
      · exact within_op (within_eval (h a (by simp) e (by simp [he]))) (within_op (within_quiet rfl) (ih _))
      · exact ih _
    · exact ih _

theorem leaves_autos : ∀ (fs : Fields), Mentions V fs.exprs → ∀ a ∈ fs.leaves, Mentions V a.auto.toList
  | .nil, _, a, ha => by cases ha
  | .pad _ _ rest, h, a, ha => leaves_autos rest (fun e he => h e (by simp [Fields.exprs, he])) a ha
  | .leaf b ty rest, h, a, ha => by
    rcases List.mem_cons.mp ha with rfl | ha
    · exact h.left.right
    · exact leaves_autos rest h.right a ha
  | .cont b len items rest, h, a, ha => by
    rcases List.mem_append.mp ha with ha | ha
    · exact leaves_autos items h.left.right a ha
    · exact leaves_autos rest h.right a ha

theorem setRefs_within : ∀ (rs : List (String × Nat)), (setRefs rs).Within V
  | [] => within_nil
  | (n, r) :: rs => within_op (within_quiet rfl) (setRefs_within rs)

theorem genArm_within (en : String) (t : Target) (arm : Arm) (g : GState) (h : Mentions V arm.exprs) :
    (genArm en t arm g).2.Within V := by
  obtain ⟨a, body⟩ := arm
  have hc := fun c => genCond_within a.cond c h.left.left
  have hx := fun t c => genXforms_within a.xfs t c h.left.right
  cases body with
  | leaf ty =>
    exact within_append (hc _) (wrapCond_within _ (within_op (within_quiet rfl)
      (within_append (within_append (within_append (hx _ _).1 (genLeaf_within _ _ _ _ h.right)) (hx _ _).2)
        (within_quiet rfl))))
  | cont len items =>
    have hi : Mentions V items.exprs := Mentions.right (a := len.toList) h.right
    exact within_append (hc _) (wrapCond_within _ (within_op (within_quiet rfl)
      (within_append (within_append (within_append (setRefs_within _) (genCalculated_within _ _ (leaves_autos _ hi)))
        (genItems_within _ _ _ _ _ hi (by intro d hd; cases hd))) (within_quiet rfl))))

theorem genArms_within (en : String) (t : Target) : ∀ (arms : List Arm) (g : GState),
    Mentions V (arms.flatMap Arm.exprs) → (genArms en t arms g).2.Within V
  | [], _, _ => within_nil
  | arm :: arms, g, h => by
    rw [List.flatMap_cons] at h
    exact within_append (genArm_within en t arm g h.left) (genArms_within en t arms _ h.right)

/-- The encoder evaluates only expressions of the declaration. -/
theorem genDecl_within (d : Decl) (h : Mentions V d.exprs) : (genDecl d).2.Within V := by
  obtain ⟨n, ps, xfs, body⟩ := d
  have hx := fun t c => genXforms_within xfs t c h.left
  cases body with
  | leaf cond ty =>
    refine within_op (within_quiet rfl) (genField_within _ _ _ _ _ ?_ (Mentions.right (a := cond.toList) h.right))
    intro e he
    rcases List.mem_append.mp he with he | he
    · exact Mentions.left (b := LTy.exprs ty) h.right e he
    · exact h.left e he
  | repr t => exact within_append (within_append (hx _ _).1 (within_quiet rfl)) (hx _ _).2
  | struct len items =>
    have hl : Mentions V len.toList := Mentions.left (b := items.exprs) h.right
    have hi : Mentions V items.exprs := Mentions.right (a := len.toList) h.right
    exact within_append (within_append (within_append (within_append (within_append (within_append (hx _ _).1
      (genOpen_within _ _ _ _ hl)) (genRefs_within _ _ _)) (genCalculated_within _ _ (leaves_autos _ hi)))
      (genItems_within _ _ _ _ _ hi (by intro d hd; cases hd))) (genClose_within _ _ _ _ _)) (hx _ _).2
  | tagged len arms =>
    have hl : Mentions V len.toList := Mentions.left (b := arms.flatMap Arm.exprs) h.right
    have hi : Mentions V (arms.flatMap Arm.exprs) := Mentions.right (a := len.toList) h.right
    exact within_append (within_append (within_append (within_append (hx _ _).1 (genOpen_within _ _ _ _ hl))
      (within_block (genArms_within _ _ _ _ hi) within_nil)) (genClose_within _ _ _ _ _)) (hx _ _).2

end

theorem runDeclN_eq {X : Ext} {d : Decl} (hp : ("writer" :: d.params).Nodup)
    (hv : ∀ n ∈ d.vars, clean n = true) (v : Val) : runDeclN X d v = runDecl X d v := by
  have h : (genDecl d).2.Within fun n => clean n = true :=
    genDecl_within d fun e he n hn => hv n (List.mem_flatMap.mpr ⟨e, he, hn⟩)
  simp only [runDeclN, hp, if_true, runDecl, runProgN_eq h]

end Enc
end Verif
