import Verif.ConstInt
/-!
# Expressions of the semantic graph

The expression tree that `semantics` produces (`/repo/protospec-build/src/asg/expression/mod.rs`),
with types lowered to what the two evaluators look at:

* `eval_const_expression` (`compiler/expr.rs` 168-251), run by protospec itself;
* the Rust expression emitted by `emit_expression` (`compiler/expr.rs` 253-420), run by the
  generated code.

Simplifications: spans are dropped; a `Cast` keeps only the kind of its target (integer kind or
"anything else"); calls to the builtin functions of `prelude/mod.rs` are constructors, foreign
functions supplied by a user-written resolver are not modelled; there are no float values because
the language has no float literals (`ConstValue::F32`/`F64` are never built).
-/

namespace Verif

/-- `ast/expression/binary.rs` 3-26. -/
inductive BinOp
  | lt | gt | lte | gte | eq | ne | or | and
  | bitOr | bitAnd | bitXor | shr | shl | shrSigned
  | add | sub | mul | div | mod | elvis
  deriving DecidableEq, Repr

/-- `ast/expression/unary.rs`. -/
inductive UnOp
  | negate | not | bitNot
  deriving DecidableEq, Repr

/-- Target of a cast: an integer kind, or another type (`cast_to` then fails). -/
inductive CastTy
  | scalar (k : Scalar)
  | other
  deriving DecidableEq, Repr

/-- What the argument of a cast is (`compiler/expr.rs` 315-331): an enum goes through `to_repr`,
a bitfield through `.0`, anything else is cast directly. -/
inductive CastSrc
  | plain | enum_ | bitfield
  deriving DecidableEq, Repr

/-- `asg/expression/mod.rs` 37-53. -/
inductive Expr
  | binary (op : BinOp) (l r : Expr)
  | unary (op : UnOp) (e : Expr)
  | cast (src : CastSrc) (e : Expr) (ty : CastTy)
  | index (a i : Expr)
  | enumAccess (enum variant : String) (value : Expr)
  | int (v : CInt)
  | constRef (name : String) (value : Expr)
  | inputRef (name : String)
  | fieldRef (name : String)
  | str (content : List UInt8)
  | ternary (c t f : Expr)
  | bool (b : Bool)
  /-- `len(e)`; `fixed` is the byte size when the argument's type has one (`prelude/len.rs` 6-35). -/
  | len (fixed : Option Nat) (e : Expr)
  /-- `blen(f)`: only meaningful while generating encoders (`prelude/blen.rs`). -/
  | blen (field : String)
  /-- `sum(e)` (`prelude/sum.rs`). -/
  | sum (e : Expr)
  /-- `bits(e)` (`prelude/bits.rs`). -/
  | bits (e : Expr)
  /-- `pad(p, base)` (`prelude/pad.rs`). -/
  | pad (p base : Expr)
  /-- `e.flag`: the named flag of a bitfield, with its constant (`asg/expression/member.rs`). -/
  | member (e : Expr) (flag : String) (value : Expr)
  deriving DecidableEq, Repr

/-! ## Constant evaluation -/

/-- `compiler/expr.rs` 10-17 (without the float constructors, see above). -/
inductive CVal
  | int (i : CInt)
  | bool (b : Bool)
  | str (s : List UInt8)
  deriving DecidableEq, Repr

namespace CVal

/-- `compiler/expr.rs` 153-158. -/
def toBool : CVal → CRes Bool
  | .bool b => .ok b
  | _ => .error .mismatch

/-- `compiler/expr.rs` 160-165. -/
def toInt : CVal → CRes CInt
  | .int i => .ok i
  | _ => .error .mismatch

/-- `compiler/expr.rs` 19-28 (`partial_cmp`). -/
def cmp : CVal → CVal → Option Ordering
  | .int a, .int b => a.cmp b
  | _, _ => none

/-- `compiler/expr.rs` 141-151 (`cast_to`). -/
def castTo (v : CVal) (t : CastTy) : CRes CVal :=
  match v, t with
  | .int i, .scalar k => .ok (.int (i.castTo k))
  | _, _ => .error .mismatch

end CVal

/-- The operator table of `eval_const_expression` (`compiler/expr.rs` 174-197); `left`/`right` are
already evaluated. -/
def constBin (oc : Bool) (op : BinOp) (left right : CVal) : CRes CVal :=
  match op with
  | .lt => .ok (.bool (left.cmp right == some .lt))
  | .gt => .ok (.bool (left.cmp right == some .gt))
  | .lte => .ok (.bool (left.cmp right == some .lt || left.cmp right == some .eq))
  | .gte => .ok (.bool (left.cmp right == some .gt || left.cmp right == some .eq))
  | .eq => .ok (.bool (decide (left = right)))
  | .ne => .ok (.bool (decide (left ≠ right)))
  | .or => do
    let l ← left.toBool
    if l then .ok (.bool true) else do let r ← right.toBool; .ok (.bool r)
  | .and => do
    let l ← left.toBool
    if l then do let r ← right.toBool; .ok (.bool r) else .ok (.bool false)
  | .bitOr => do let l ← left.toInt; let r ← right.toInt; let v ← l.bor r; .ok (.int v)
  | .bitAnd => do let l ← left.toInt; let r ← right.toInt; let v ← l.band r; .ok (.int v)
  | .bitXor => do let l ← left.toInt; let r ← right.toInt; let v ← l.bxor r; .ok (.int v)
  | .shr | .shrSigned => do
    let l ← left.toInt; let r ← right.toInt; let v ← l.shr oc r; .ok (.int v)
  | .shl => do let l ← left.toInt; let r ← right.toInt; let v ← l.shl oc r; .ok (.int v)
  | .add => do let l ← left.toInt; let r ← right.toInt; let v ← l.add oc r; .ok (.int v)
  | .sub => do let l ← left.toInt; let r ← right.toInt; let v ← l.sub oc r; .ok (.int v)
  | .mul => do let l ← left.toInt; let r ← right.toInt; let v ← l.mul oc r; .ok (.int v)
  | .div => do let l ← left.toInt; let r ← right.toInt; let v ← l.div r; .ok (.int v)
  | .mod => do let l ← left.toInt; let r ← right.toInt; let v ← l.rem r; .ok (.int v)
  | .elvis => .error .panic

/-- `compiler/expr.rs` 168-251 (`eval_const_expression`). Note that both operands of `&&`/`||` and
both branches of a ternary are evaluated. -/
def constEval (oc : Bool) : Expr → CRes CVal
  | .binary op l r => do
    let left ← constEval oc l
    let right ← constEval oc r
    constBin oc op left right
  | .member e _ value => do
    let target ← constEval oc e
    let member ← constEval oc value
    match target, member with
    | .int t, .int m => do
      let x ← t.band m
      let z ← m.sub oc m
      .ok (.bool (decide (x ≠ z)))
    | _, _ => .error .panic
  | .unary op e => do
    let inner ← constEval oc e
    match op with
    | .negate => do let i ← inner.toInt; let v ← i.neg oc; .ok (.int v)
    | .not => do let b ← inner.toBool; .ok (.bool (!b))
    | .bitNot => do let i ← inner.toInt; let v ← i.not; .ok (.int v)
  | .cast _ e ty => do
    let inner ← constEval oc e
    inner.castTo ty
  | .index _ _ => .error .panic
  | .enumAccess _ _ value => constEval oc value
  | .int v => .ok (.int v)
  | .constRef _ value => constEval oc value
  | .inputRef _ => .error .panic
  | .fieldRef _ => .error .panic
  | .str s => .ok (.str s)
  | .ternary c t f => do
    let cv ← constEval oc c
    let tv ← constEval oc t
    let fv ← constEval oc f
    match cv with
    | .bool true => .ok tv
    | .bool false => .ok fv
    | _ => .error .mismatch
  | .bool b => .ok (.bool b)
  | .len _ _ | .blen _ | .sum _ | .bits _ | .pad _ _ => .error .panic

end Verif
