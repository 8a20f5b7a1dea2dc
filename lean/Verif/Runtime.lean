import Verif.Expr
import Verif.Prelude
import Verif.Repr
/-!
# Values and expressions of the generated code

The values the generated Rust code handles, the ways it can stop, and the meaning of the Rust
expressions that `emit_expression` (`compiler/expr.rs` 253-420) writes into it.
-/
namespace Verif

/-- How a run of generated code can fail to produce a result.
`err` is an `Err` returned to the caller; `panic` a Rust panic; `miscount` the panic of an encoder that is given
an array with another number of elements than its count says (told apart from the others so that theorems can); `diverge` an endless loop;
`ill` means the emitted Rust is rejected by rustc, or uses something outside the model
(floating-point arithmetic, user-written foreign functions). -/
inductive Fault
  | err (msg : String)
  | panic
  | miscount
  | diverge
  | ill
  deriving DecidableEq, Repr

abbrev Res := Except Fault

theorem ok_bind {ε α β} (a : α) (f : α → Except ε β) : (Except.ok a >>= f) = f a := rfl
theorem err_bind {ε α β} (e : ε) (f : α → Except ε β) : (Except.error e >>= f) = Except.error e := rfl

/-- Values of the generated types (`compiler/mod.rs` 308-469). Floats are kept as bit patterns;
references and clones are not distinguished from the value. -/
inductive Val
  | int (i : CInt)
  | bool (b : Bool)
  | flt (double : Bool) (pat : Nat)
  | str (s : String)
  | arr (vs : List Val)
  | opt (v : Option Val)
  /-- a value of a generated enum, with the number its `to_repr` gives -/
  | enm (name : String) (v : EnumVal) (repr : CInt)
  | bits (name : String) (v : CInt)
  | struct (name : String) (fields : List (String × Val))
  /-- `pub struct Name(pub T)` -/
  | newtype (name : String) (v : Val)
  /-- tagged enum variant with one unnamed field -/
  | variant (name disc : String) (v : Val)
  /-- tagged enum variant with named fields -/
  | variantS (name disc : String) (fields : List (String × Val))

/-- A byte string as the generated code handles it (`Vec<u8>` or `&[u8]`). -/
def Val.bytes (bs : List UInt8) : Val := .arr (bs.map fun b => .int ⟨.u8, b.toNat⟩)

/-- One element of a `Vec<u8>`. -/
def Val.byteOf : Val → Option UInt8
  | .int ⟨.u8, n⟩ => some (UInt8.ofNat n.toNat)
  | _ => none

/-- Reads a `Vec<u8>` back. -/
def Val.toBytes : Val → Option (List UInt8)
  | .arr vs => vs.mapM Val.byteOf
  | _ => none

/-- Operations on integers of one kind fail on mixed kinds, which rustc rejects. -/
def liftC {α} : CRes α → Res α
  | .ok a => .ok a
  | .error .mismatch => .error .ill
  | .error .panic => .error .panic

def Val.toInt : Val → Res CInt
  | .int i => .ok i
  | _ => .error .ill

/-- The arguments of `bits` and `pad` are declared `u64` (`prelude/bits.rs` 8-12, `prelude/pad.rs` 7-17),
and semantic analysis inserts casts: another kind does not get past it. -/
def Val.toU64 : Val → Res CInt
  | .int ⟨.u64, n⟩ => .ok ⟨.u64, n⟩
  | _ => .error .ill

def Val.toBool : Val → Res Bool
  | .bool b => .ok b
  | _ => .error .ill

/-- Rust shifts accept a right operand of another integer type. -/
def rtShift (oc : Bool) (left : Bool) (a b : CInt) : Res CInt := do
  let s ← liftC (CInt.shiftAmount oc a.kind b.val)
  if left then .ok ⟨a.kind, a.kind.wrap (a.val * 2 ^ s)⟩ else .ok ⟨a.kind, a.val / 2 ^ s⟩

/-- `==` of the emitted code, for the types that have it in the model. -/
def rtEq : Val → Val → Res Bool
  | .int a, .int b => if a.kind = b.kind then .ok (decide (a.val = b.val)) else .error .ill
  | .bool a, .bool b => .ok (a == b)
  | .enm n a _, .enm m b _ => if n = m then .ok (decide (a = b)) else .error .ill
  | .bits n a, .bits m b => if n = m then .ok (decide (a.val = b.val)) else .error .ill
  | .str a, .str b => .ok (a == b)
  | _, _ => .error .ill

/-- `<` and friends on integers of one kind. -/
def rtCmp (a b : Val) : Res Ordering := do
  let x ← a.toInt
  let y ← b.toInt
  if x.kind = y.kind then .ok (compare x.val y.val) else .error .ill

/-- The strict binary operators on evaluated operands (`compiler/expr.rs` 266-292). -/
def rtBin (oc : Bool) (op : BinOp) (l r : Val) : Res Val :=
  let arith (f : CInt → CInt → CRes CInt) : Res Val := do
    let a ← l.toInt; let b ← r.toInt; let v ← liftC (f a b); .ok (.int v)
  match op with
  | .lt => do let o ← rtCmp l r; .ok (.bool (o == .lt))
  | .gt => do let o ← rtCmp l r; .ok (.bool (o == .gt))
  | .lte => do let o ← rtCmp l r; .ok (.bool (o != .gt))
  | .gte => do let o ← rtCmp l r; .ok (.bool (o != .lt))
  | .eq => do let b ← rtEq l r; .ok (.bool b)
  | .ne => do let b ← rtEq l r; .ok (.bool (!b))
  | .bitOr => arith CInt.bor
  | .bitAnd => arith CInt.band
  | .bitXor => arith CInt.bxor
  | .shr | .shrSigned => do let a ← l.toInt; let b ← r.toInt; let v ← rtShift oc false a b; .ok (.int v)
  | .shl => do let a ← l.toInt; let b ← r.toInt; let v ← rtShift oc true a b; .ok (.int v)
  | .add => arith (CInt.add oc)
  | .sub => arith (CInt.sub oc)
  | .mul => arith (CInt.mul oc)
  | .div => arith CInt.div
  | .mod => arith CInt.rem
  | .or | .and | .elvis => .error .ill

/-- Unary operators (`compiler/expr.rs` 301-311); `!` on a `bool` is logical, on an integer bitwise. -/
def rtUn (oc : Bool) (op : UnOp) (v : Val) : Res Val :=
  match op, v with
  | .negate, .int i => if i.kind.signed then do let r ← liftC (i.neg oc); .ok (.int r) else .error .ill
  | .not, .bool b => .ok (.bool (!b))
  | .bitNot, .int i => do let r ← liftC i.not; .ok (.int r)
  | _, _ => .error .ill

/-- The operand of a cast: `.to_repr()` for enums, `.0` for bitfields (`compiler/expr.rs` 315-331). -/
def rtCastSrc (src : CastSrc) (v : Val) : Res CInt :=
  match src, v with
  | .plain, .int i => .ok i
  | .enum_, .enm _ _ r => .ok r
  | .bitfield, .bits _ i => .ok i
  | _, _ => .error .ill

/-- `x as T` on integers. Casts to other types are outside the model. -/
def rtCastTo (i : CInt) : CastTy → Res Val
  | .scalar k => .ok (.int (i.castTo k))
  | .other => .error .ill

/-- `.len()` of a `Vec` or a `String` (`prelude/len.rs` 27-31). -/
def rtLen : Val → Res Nat
  | .arr vs => .ok vs.length
  | .str s => .ok (strBytes s).length
  | _ => .error .ill

/-- `len(e)` (`prelude/len.rs`): a compile-time constant for fixed-size types. -/
def lenFn (fixed : Option Nat) (v : Res Val) : Res Val :=
  match fixed with
  | some n => .ok (.int ⟨.u64, n⟩)
  | none => do let x ← v; let n ← rtLen x; .ok (.int ⟨.u64, n⟩)

/-- The values of the integers of an array. -/
def intsOf (vs : List Val) : Res (List Int) := vs.mapM fun v => v.toInt.map CInt.val

/-- What an expression can look up: fields by name, arguments of the enclosing type by name. -/
structure Look where
  field : String → Option Val
  input : String → Option Val

def optRes {α} : Option α → Res α
  | some a => .ok a
  | none => .error .ill

/-- The value of an expression.

`rust = true`: the Rust expression that `emit_expression` writes, as rustc reads it
(`compiler/expr.rs` 253-420). The points where that differs from the tree it was written from:
* `(#op #inner)` (308-310) puts no parentheses around `inner`; when `inner` is a cast, whose emission
  `(x) as T` (326-330) has none either, Rust reads `(#op (x)) as T`;
* a constant is emitted as its bare name (363-368), which the generated module never defines, so it
  can only be found among the arguments;
* `>>>` (281) is not a Rust operator;
* `(array)[index]` (337-339) is only accepted by rustc for `usize`, which no expression has.

`rust = false`: what the expression means. -/
def evalE (rust oc : Bool) (lk : Look) : Expr → Res Val
  | .binary op l r =>
    match op with
    | .or => do
      let a ← evalE rust oc lk l
      let x ← a.toBool
      if x then .ok (.bool true) else do let b ← evalE rust oc lk r; let y ← b.toBool; .ok (.bool y)
    | .and => do
      let a ← evalE rust oc lk l
      let x ← a.toBool
      if x then do let b ← evalE rust oc lk r; let y ← b.toBool; .ok (.bool y) else .ok (.bool false)
    | .elvis => do
      let a ← evalE rust oc lk l
      let b ← evalE rust oc lk r
      match a with
      | .opt (some v) => .ok v
      | .opt none => .ok b
      | _ => .error .ill
    | op =>
      if rust ∧ op = .shrSigned then .error .ill
      else do
        let a ← evalE rust oc lk l
        let b ← evalE rust oc lk r
        rtBin oc op a b
  | .unary op (.cast src e ty) => do
    let v ← evalE rust oc lk e
    let i ← rtCastSrc src v
    if rust then do
      let w ← rtUn oc op (.int i)
      let j ← w.toInt
      rtCastTo j ty
    else do
      let w ← rtCastTo i ty
      rtUn oc op w
  | .unary op e => do
    let v ← evalE rust oc lk e
    rtUn oc op v
  | .cast src e ty => do
    let v ← evalE rust oc lk e
    let i ← rtCastSrc src v
    rtCastTo i ty
  | .index a i =>
    if rust then .error .ill
    else do
      let av ← evalE rust oc lk a
      let iv ← evalE rust oc lk i
      let n ← iv.toInt
      match av with
      | .arr vs => if n.val < 0 then .error .panic else
          match vs[n.val.toNat]? with
          | some v => .ok v
          | none => .error .panic
      | _ => .error .ill
  | .enumAccess en va value =>
    match constEval oc value with
    | .ok (.int r) => .ok (.enm en (.unit va) r)
    | _ => .error .ill
  | .int v => .ok (.int v)
  | .constRef n value => if rust then optRes (lk.input n) else evalE rust oc lk value
  | .inputRef n => optRes (lk.input n)
  | .fieldRef n => optRes (lk.field n)
  | .str s => .ok (Val.bytes s)
  | .ternary c t f => do
    let cv ← evalE rust oc lk c
    let b ← cv.toBool
    if b then evalE rust oc lk t else evalE rust oc lk f
  | .bool b => .ok (.bool b)
  | .len fixed e => lenFn fixed (evalE rust oc lk e)
  | .blen _ => .error .ill
  | .sum e => do
    let v ← evalE rust oc lk e
    match v with
    | .arr vs => do let xs ← intsOf vs; let s ← liftC (sumFn oc xs); .ok (.int ⟨.u64, s⟩)
    | _ => .error .ill
  | .bits e => do
    let v ← evalE rust oc lk e
    let i ← v.toU64
    .ok (.int ⟨.u8, bitsFn i.val⟩)
  | .pad p b => do
    let bv ← evalE rust oc lk b
    let pv ← evalE rust oc lk p
    let bi ← bv.toU64
    let pi ← pv.toU64
    let n ← liftC (padFn pi.val.toNat bi.val.toNat)
    .ok (.int ⟨.u64, n⟩)
  | .member e _ value => do
    let v ← evalE rust oc lk e
    match v, constEval oc value with
    | .bits _ x, .ok (.int f) => do
      let y ← liftC (x.band f)
      .ok (.bool (y.val != 0))
    | _, _ => .error .ill

/-- The generated code's value of an expression. -/
abbrev runE := evalE true

end Verif
