import Verif.Sizes
import Verif.Derives
/-!
# Which derived traits rustc can generate

Every declared type carries a `#[derive(..)]` (`compiler/mod.rs` 50-88), made of the lists of the options and of traits that the
kind of the type needs anyway; `Default` of an enum is written out as an `impl`. This file says what rustc asks of such a module for the nine traits
that the standard library derives. Other derive macros (`Serialize`, ..) are not modelled: their names may be in the lists, nothing is asked of them.
-/
namespace Verif

/-- The traits of the standard library that can be derived. -/
inductive Tr
  | debug | clone | copy | partialEq | eq | hash | partialOrd | ord | default
  deriving DecidableEq, Repr

/-- The name in the options. -/
def Tr.name : Tr → Text
  | .debug => ascii "Debug"
  | .clone => ascii "Clone"
  | .copy => ascii "Copy"
  | .partialEq => ascii "PartialEq"
  | .eq => ascii "Eq"
  | .hash => ascii "Hash"
  | .partialOrd => ascii "PartialOrd"
  | .ord => ascii "Ord"
  | .default => ascii "Default"

/-- The traits a trait has as supertraits (`core`): `trait Copy: Clone`, `trait Eq: PartialEq`, `trait PartialOrd: PartialEq`,
`trait Ord: Eq + PartialOrd`. -/
def Tr.supers : Tr → List Tr
  | .copy => [.clone]
  | .eq => [.partialEq]
  | .partialOrd => [.partialEq]
  | .ord => [.eq, .partialOrd]
  | _ => []

/-- `struct_derives` and `enum_derives` of `Options` (`lib.rs` 43-51) and `CompileOptions` (`compiler/mod.rs` 19-26). -/
structure DeriveOpts where
  structs : List Text
  enums : List Text
  deriving DecidableEq, Repr

/-- `impl Default for Options` (`lib.rs` 53-77). -/
def DeriveOpts.ofOptions : DeriveOpts :=
  let l := [ascii "Eq", ascii "PartialEq", ascii "Debug", ascii "Clone", ascii "Default"]
  ⟨l, l⟩

/-- `impl Default for CompileOptions` (`compiler/mod.rs` 28-48). -/
def DeriveOpts.ofCompileOptions : DeriveOpts :=
  let l := [ascii "PartialEq", ascii "Debug", ascii "Clone", ascii "Default"]
  ⟨l, l⟩

/-- The `#[derive(..)]` of a declared type (`compiler/mod.rs` 167, 382, 459, 530, 649). -/
def derivesOf (O : DeriveOpts) (d : Decl) : List Text :=
  match d.body with
  | .leaf _ _ => structDerives O.structs []
  | .repr (.enum _ _) => enumDerives O.enums [ascii "Clone", ascii "Copy"]
  | .repr (.bitfield _ _) => structDerives O.structs [ascii "Clone", ascii "Copy", ascii "Default"]
  | .struct _ _ => structDerives O.structs []
  | .tagged _ _ => enumDerives O.enums []

/-- The type is a Rust `enum`. -/
def Body.isRustEnum : Body → Bool
  | .repr (.enum _ _) => true
  | .tagged _ _ => true
  | _ => false

/-- There is an `impl Default` next to the type (`compiler/mod.rs` 408, 534). -/
def writesDefault (O : DeriveOpts) (d : Decl) : Bool := d.body.isRustEnum && decide (ascii "Default" ∈ O.enums)

/-- The module says that a declared type has a trait: it derives it or implements it. -/
def declares (O : DeriveOpts) (d : Decl) (T : Tr) : Bool :=
  decide (T.name ∈ derivesOf O d) || (decide (T = .default) && writesDefault O d)

/-- A Rust type has a trait, given what the module declares (`dec`) and what foreign types have (`X`): the `impl`s of `core` and `alloc`. Floats are
not `Eq`, `Ord` or `Hash`; `String` and `Vec` are not `Copy`; a `Vec` or an `Option` has a `Default` whatever is in it. -/
def hasTrait (dec : Decl → Tr → Bool) (X : String → Tr → Bool) (sch : Schema) (T : Tr) : RTy → Bool
  | .int _ => true
  | .bool => true
  | .flt _ => decide (T ≠ .eq) && decide (T ≠ .ord) && decide (T ≠ .hash)
  | .str => decide (T ≠ .copy)
  | .vec t => decide (T = .default) || (decide (T ≠ .copy) && hasTrait dec X sch T t)
  | .opt t => decide (T = .default) || hasTrait dec X sch T t
  | .named n => match sch.find n with
    | some d => dec d T
    | none => X n T

/-- The types written in the first alternative of a tagged enum; `none` if there is no alternative. -/
def firstTypes (F : Sig) (arms : List Arm) : Option (List RTy) :=
  match arms with
  | [] => none
  | a :: _ => some (match a.body with
    | .leaf ty => [ty.rust F]
    | .cont _ items => (rustFields F false items).map (·.2))

/-- rustc accepts the written `impl Default` of an enum, and the generator does not panic where it looks for the first alternative
(`compiler/mod.rs` 408-449: `Self::first(Default::default())` or `Self::first { a: Default::default(), .. }`; 534-546: `Self::first`, which is
a function, not a value, if the first item is the one that holds the number). -/
def defaultImplOk (dec : Decl → Tr → Bool) (F : Sig) (X : String → Tr → Bool) (sch : Schema) (d : Decl) : Bool :=
  match d.body with
  | .tagged _ arms => match firstTypes F arms with
    | none => false
    | some ts => ts.all (hasTrait dec X sch .default)
  | .repr (.enum _ e) => match e.items with
    | (_, some _) :: _ => true
    | _ => false
  | _ => true

/-- rustc accepts the derived implementation of a trait for a type: each type written in the declaration has the trait (the numbers in enums
and bitfields have all of them), and the type has the supertraits. -/
def deriveOk (dec : Decl → Tr → Bool) (F : Sig) (X : String → Tr → Bool) (sch : Schema) (d : Decl) (T : Tr) : Bool :=
  T.supers.all (dec d) && (declTypes F d).all (hasTrait dec X sch T)

/-- Bitfields compare themselves with `Self::ZERO` in their getters (`compiler/mod.rs` 630-638). -/
def gettersOk (dec : Decl → Tr → Bool) (d : Decl) : Bool :=
  match d.body with
  | .repr (.bitfield _ b) => b.flags.isEmpty || dec d .partialEq
  | _ => true

def Tr.all : List Tr := [.debug, .clone, .copy, .partialEq, .eq, .hash, .partialOrd, .ord, .default]

/-- rustc accepts the traits of the declared types of a module, given what it derives, what it declares, and for which types it writes `impl Default`. -/
def traitsBy (der dec : Decl → Tr → Bool) (imp : Decl → Bool) (F : Sig) (X : String → Tr → Bool) (sch : Schema) : Bool :=
  sch.all fun d =>
    Tr.all.all (fun T => !der d T || deriveOk dec F X sch d T) && (!imp d || defaultImplOk dec F X sch d) && gettersOk dec d

/-- rustc accepts the traits of the declared types of the module generated with these options. -/
def traitsOk (O : DeriveOpts) (F : Sig) (X : String → Tr → Bool) (sch : Schema) : Bool :=
  traitsBy (fun d T => decide (T.name ∈ derivesOf O d)) (declares O) (writesDefault O) F X sch

end Verif
