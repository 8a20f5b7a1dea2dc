import Verif.Sem.Program
/-!
# The builtin resolver

An `Env` for the concrete cases in `Props/Sem.lean`: `PreludeImportResolver`
(`/repo/protospec-build/src/prelude/resolver.rs`) over a resolver that knows the given modules.
Derived equality of types is taken to be equality of tags: types written at different places differ
(their spans do).
-/
namespace Verif.Sem
open Verif

/-- The scalar of a variable-length integer (`prelude/resolver.rs` 26-30). -/
def varKind : String → Option Scalar
  | "v8" => some .i8
  | "v16" => some .i16
  | "v32" => some .i32
  | "v64" => some .i64
  | "v128" => some .i128
  | _ => none

/-- `Type::Scalar(k).assignable_from(t)`. -/
def scalarFrom (k : Scalar) (h : Heap) (t : AType) : R Bool :=
  (resolve h t).bind fun t => match t with
    | .scalar s => .ok (s == k.toE)
    | .foreign f => .ok (varKind f == some k)
    | _ => .ok false

/-- The element kind of a string type (`prelude/utf8.rs`, `prelude/utf16.rs`). -/
def textKind : String → Scalar
  | "utf16" => .u16
  | _ => .u8

/-- `assignable_from` of the prelude's types (`prelude/var.rs` 31-33, `prelude/utf8.rs` 6-13,
`prelude/utf16.rs` 6-13). -/
def preludeFrom (name : String) (h : Heap) (t : AType) : R Bool :=
  match varKind name, t with
  | some k, t => scalarFrom k h t
  | none, .array _ el _ _ => scalarFrom (textKind name) h el
  | none, _ => .ok false

/-- `assignable_to` of the prelude's types (`prelude/var.rs` 58-60, `prelude/utf8.rs` 15-17). For types that are not references: expected types are made by
`Into<PartialType>` (`semantics/partial_type.rs` 86-94), which follows them, as `Type::assignable_from` does. -/
def preludeTo (name : String) (h : Heap) (t : AType) : R Bool :=
  match varKind name, t with
  | some k, .scalar s => .ok (s == k.toE)
  | some k, .foreign f => .ok (varKind f == some k)
  | some _, _ => .ok false
  | none, t => preludeFrom name h t

/-- `assignable_to_partial` of the prelude's types (`prelude/var.rs` 46-56, `ffi/type_.rs` 47-58). -/
def preludeToPartial (name : String) (h : Heap) (P : PType) : R Bool :=
  match P with
  | .type t => preludeTo name h t
  | .any => .ok true
  | .scalar (.some k) => match varKind name with
    | some _ => preludeFrom name h (.scalar k.toE)
    | none => preludeTo name h (.scalar k.toE)
  | .scalar (.defaults k) => match varKind name with
    | some _ => .ok true
    | none => preludeTo name h (.scalar k.toE)
  | .scalar .none => .ok (varKind name).isSome
  | .array _ => .ok false

/-- The tag of a type that has one. -/
def AType.tag? : AType → Option Nat
  | .container t .. => some t
  | .enum t .. => some t
  | .bitfield t .. => some t
  | .array t .. => some t
  | _ => none

def u64Arg (name : String) : FfiArg := ⟨name, some (.scalar Scalar.u64.toE), false⟩
def anyArg (name : String) : FfiArg := ⟨name, none, false⟩

/-- The builtin functions (`prelude/{len,blen,pad,bits,sum}.rs`). -/
def builtin : String → Option FnSig
  | "len" => some ⟨[anyArg "list"], .scalar Scalar.u64.toE⟩
  | "blen" => some ⟨[anyArg "target"], .scalar Scalar.u64.toE⟩
  | "pad" => some ⟨[u64Arg "pad", u64Arg "base"], .scalar Scalar.u64.toE⟩
  | "bits" => some ⟨[u64Arg "input"], .scalar Scalar.u8.toE⟩
  | "sum" => some ⟨[anyArg "input"], .scalar Scalar.u64.toE⟩
  | _ => none

/-- The prelude's types and their arguments (`prelude/utf8.rs` 85-92, `prelude/utf16.rs` 66-73). -/
def builtinType : String → Option (List AArg)
  | "utf8" => some [⟨"length", .scalar Scalar.u64.toE, some (.int ⟨.u64, 2 ^ 64 - 1⟩ .u64)⟩]
  | "utf16" => some [⟨"length", .scalar Scalar.u64.toE, none⟩]
  | n => (varKind n).map fun _ => []

/-- `prelude/resolver.rs` over a resolver with the given modules. -/
def preludeEnv (modules : List (String × Ast.Program)) : Env where
  same _ a b := .ok (a.tag? == b.tag?)
  ftFrom := preludeFrom
  ftTo := preludeTo
  ftToPartial := preludeToPartial
  normalize src := .ok (ofAscii src)
  load name := .ok ((IMap.get modules name).map some)
  ffiType name := .ok (builtinType name)
  ffiTransform name := .ok (if name = "gzip" ∨ name = "base64" then some [] else none)
  ffiFunction name := .ok (builtin name)
  prelude := ["len", "blen"].filterMap fun n => (builtin n).map fun f => (n, f)

end Verif.Sem
