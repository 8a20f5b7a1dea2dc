import Verif.Scalar
/-!
# Typed constant integers

Models `/repo/protospec-build/src/asg/expression/const_int.rs`.  The ten-constructor Rust enum
`ConstInt` is a pair of a kind and a mathematical value; the macros that repeat one operation for
each constructor become one definition guarded by "same kind".

`oc` is rustc's `overflow-checks` setting of the build that runs protospec: with `oc = true`
(every debug build) an overflowing operation panics, with `oc = false` it wraps.
-/

namespace Verif

/-- `asg/expression/const_int.rs` 3-15. -/
structure CInt where
  kind : Scalar
  val : Int
  deriving DecidableEq, Repr

/-- The value fits its kind: true of every Rust `ConstInt` by construction. -/
def CInt.Ok (a : CInt) : Prop := a.kind.InRange a.val

instance (a : CInt) : Decidable a.Ok := by unfold CInt.Ok; infer_instance

/-- How a constant operation can fail: `mismatch` is Rust's `None`, `panic` is a Rust panic. -/
inductive CFault
  | mismatch
  | panic
  deriving DecidableEq, Repr

abbrev CRes := Except CFault

namespace CInt

/-- Result of a Rust `+ - *` whose exact result is `n`: panics or wraps when it does not fit. -/
def arith (oc : Bool) (k : Scalar) (n : Int) : CRes CInt :=
  if k.InRange n then .ok ⟨k, n⟩ else if oc then .error .panic else .ok ⟨k, k.wrap n⟩

/-- const_int.rs 133-139. -/
def add (oc : Bool) (a b : CInt) : CRes CInt :=
  if a.kind = b.kind then arith oc a.kind (a.val + b.val) else .error .mismatch

/-- const_int.rs 141-147. -/
def sub (oc : Bool) (a b : CInt) : CRes CInt :=
  if a.kind = b.kind then arith oc a.kind (a.val - b.val) else .error .mismatch

/-- const_int.rs 149-155. -/
def mul (oc : Bool) (a b : CInt) : CRes CInt :=
  if a.kind = b.kind then arith oc a.kind (a.val * b.val) else .error .mismatch

/-- const_int.rs 157-163.  Rust division truncates; `x / 0` and `MIN / -1` panic in every build. -/
def div (a b : CInt) : CRes CInt :=
  if a.kind = b.kind then
    if b.val = 0 then .error .panic
    else if a.kind.InRange (a.val.tdiv b.val) then .ok ⟨a.kind, a.val.tdiv b.val⟩
    else .error .panic
  else .error .mismatch

/-- const_int.rs 165-171.  `x % 0` and `MIN % -1` panic in every build. -/
def rem (a b : CInt) : CRes CInt :=
  if a.kind = b.kind then
    if b.val = 0 then .error .panic
    else if a.kind.InRange (a.val.tdiv b.val) then .ok ⟨a.kind, a.val.tmod b.val⟩
    else .error .panic
  else .error .mismatch

/-- Rust shift amount: an amount outside `0..bits` panics, or is masked without overflow checks. -/
def shiftAmount (oc : Bool) (k : Scalar) (n : Int) : CRes Nat :=
  if 0 ≤ n ∧ n < k.bits then .ok n.toNat
  else if oc then .error .panic else .ok (n % (k.bits : Int)).toNat

/-- const_int.rs 125-131: bits shifted out are lost without a panic. -/
def shl (oc : Bool) (a b : CInt) : CRes CInt :=
  if a.kind = b.kind then do
    let s ← shiftAmount oc a.kind b.val
    .ok ⟨a.kind, a.kind.wrap (a.val * 2 ^ s)⟩
  else .error .mismatch

/-- const_int.rs 117-123: arithmetic for signed kinds, logical for unsigned ones; both are floor
division by a power of two on the mathematical value. -/
def shr (oc : Bool) (a b : CInt) : CRes CInt :=
  if a.kind = b.kind then do
    let s ← shiftAmount oc a.kind b.val
    .ok ⟨a.kind, a.val / 2 ^ s⟩
  else .error .mismatch

/-- Bitwise operation on the two's complement bit patterns. -/
def bitop (f : Nat → Nat → Nat) (a b : CInt) : CRes CInt :=
  if a.kind = b.kind then .ok ⟨a.kind, a.kind.ofPat (f (a.kind.toPat a.val) (a.kind.toPat b.val))⟩
  else .error .mismatch

/-- const_int.rs 93-99. -/
def bor := bitop Nat.lor
/-- const_int.rs 101-107. -/
def band := bitop Nat.land
/-- const_int.rs 109-115. -/
def bxor := bitop Nat.xor

/-- const_int.rs 173-180: negating an unsigned kind panics; `-MIN` overflows. -/
def neg (oc : Bool) (a : CInt) : CRes CInt :=
  if a.kind.signed then arith oc a.kind (-a.val) else .error .panic

/-- const_int.rs 182-188: bitwise complement. -/
def not (a : CInt) : CRes CInt := .ok ⟨a.kind, a.kind.wrap (-a.val - 1)⟩

/-- const_int.rs 87-91 (`partial_cmp`): `none` for different kinds. -/
def cmp (a b : CInt) : Option Ordering :=
  if a.kind = b.kind then some (compare a.val b.val) else none

/-- const_int.rs 191-208: Rust `as`. -/
def castTo (a : CInt) (k : Scalar) : CInt := ⟨k, k.wrap a.val⟩

end CInt

/-- Value of one digit in a radix (Rust `char::to_digit`). -/
def digitVal (radix : Nat) (c : Char) : Option Nat :=
  let n :=
    if '0' ≤ c ∧ c ≤ '9' then some (c.toNat - '0'.toNat)
    else if 'a' ≤ c ∧ c ≤ 'z' then some (c.toNat - 'a'.toNat + 10)
    else if 'A' ≤ c ∧ c ≤ 'Z' then some (c.toNat - 'A'.toNat + 10)
    else none
  n.bind fun d => if d < radix then some d else none

/-- Digits most significant first, added to an accumulator. -/
def digitsVal (radix : Nat) : Nat → List Char → Option Nat
  | acc, [] => some acc
  | acc, c :: cs => (digitVal radix c).bind fun d => digitsVal radix (acc * radix + d) cs

/-- Rust `T::from_str_radix`: optional sign (`-` only means something for signed types; for
unsigned ones `-` is an invalid digit), at least one digit, result in range. -/
def fromStrRadix (k : Scalar) (radix : Nat) (s : List Char) : Option Int :=
  let value : Option Int :=
    match s with
    | [] => none
    | ['+'] | ['-'] => none
    | '+' :: ds => (digitsVal radix 0 ds).map Int.ofNat
    | '-' :: ds =>
      if k.signed then (digitsVal radix 0 ds).map (fun n => -(n : Int)) else none
    | ds => (digitsVal radix 0 ds).map Int.ofNat
  value.bind fun n => if k.InRange n then some n else none

/-- const_int.rs 210-308 (`ConstInt::parse`): a `0x` prefix selects radix 16.
`none` is `AsgError::InvalidInt`. -/
def CInt.parse (k : Scalar) (s : List Char) : Option CInt :=
  match s with
  | '0' :: 'x' :: ds => (fromStrRadix k 16 ds).map (CInt.mk k)
  | ds => (fromStrRadix k 10 ds).map (CInt.mk k)

end Verif
