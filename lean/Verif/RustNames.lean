import Verif.Hygiene
import Verif.RustTypes
/-!
# The names in the generated module

All generated code stands in one Rust module, `_ps`. The names of a specification are emitted as they are
(`compiler/mod.rs` 15-17 `global_name`, 267-272 `emit_ident`), between names of the generator's own: the
items of the module's header, the variables of the statement templates, and whatever the templates take from
Rust's prelude and from other crates. This is the model of which names end up where (`rustModule`), and Rust's rules
for them (`NamesKept`).

Simplifications: parameter types are not part of a `Decl`, so the names in them are left out; derive macros have a name
space of their own; the text a foreign type or a transform inserts is a parameter (`Snippets`).
-/
namespace Verif

/-- Rust's name spaces for items, macros aside: types, traits, modules and crates; functions and constructors. -/
inductive NameSpace
  | type
  | value
  deriving DecidableEq, Repr

/-- `CompileOptions` (`compiler/mod.rs` 19-27) as far as names depend on it. -/
structure NameOpts where
  anyhow : Bool
  async : Bool
  deriving DecidableEq, Repr

/-- What a piece of emitted text does with a name. -/
inductive NameUse
  /-- It is a variable that is bound here. -/
  | binds (n : String)
  /-- It means what it means in Rust's prelude, or the crate of that name. -/
  | lib (ns : NameSpace) (n : String)
  /-- It is a type of the specification. -/
  | decl (n : String)
  deriving DecidableEq, Repr

/-- What the texts that foreign types and transforms insert do with names. -/
structure Snippets where
  uses : String → List NameUse

/-- `to_snake` of the crate `case`, and `str::to_uppercase` (`compiler/mod.rs` 612-614). -/
structure Cases where
  snake : String → String
  upper : String → String

/-! ## Emitted expressions -/

/-- `compiler/expr.rs` 250-440 (`emit_expression`), with `prelude/sum.rs` 28 (`|x| x as u64`). Parameters and registers
are looked at elsewhere (`Verif.Hygiene`). -/
def Expr.nameUses : Expr → List NameUse
  | .binary _ l r => l.nameUses ++ r.nameUses
  | .unary _ e => e.nameUses
  | .cast _ e _ => e.nameUses
  | .index a i => a.nameUses ++ i.nameUses
  | .enumAccess n _ _ => [.decl n]
  | .ternary c t f => c.nameUses ++ t.nameUses ++ f.nameUses
  | .len none e => e.nameUses
  | .len (some _) _ => []
  | .sum e => .binds "x" :: e.nameUses
  | .bits e => e.nameUses
  | .pad p b => p.nameUses ++ b.nameUses
  | .member e _ _ => e.nameUses
  | _ => []

/-- `let r_N = ..`. -/
def bindsReg (r : Nat) : NameUse := .binds (regName r)

/-! ## Emitted statements -/

namespace Dec

/-- `compiler/decoder.rs` 47-265, 360-372, 460-480: the instructions without blocks. -/
def Op.nameUses (S : Snippets) : Op → List NameUse
  | .eval r e _ => bindsReg r :: e.nameUses
  | .construct r (.struct n _) => [bindsReg r, .decl n]
  | .construct r (.taggedTuple _ _) => [bindsReg r]
  | .construct r (.taggedEnum n _ _) => [bindsReg r, .decl n]
  | .construct r (.taggedEnumStruct n _ _) => [bindsReg r, .decl n]
  | .constrict _ new _ => [bindsReg new]
  | .wrap _ new xf _ => bindsReg new :: S.uses xf
  | .foreign _ out n _ => bindsReg out :: S.uses n
  | .ref _ out n _ => [bindsReg out, .decl n]
  | .repr t out _ => [bindsReg out, .binds "scratch", .decl t.name]
  | .prim _ out _ => [bindsReg out, .binds "scratch"]
  | .primArray _ out _ len =>
    [bindsReg out, .binds "size", .binds "raw", .binds "x", .lib .type "Vec"] ++
      (if len.isSome then [.binds "t_count", .lib .type "usize"] else [])
  | .reprArray _ out t len =>
    [bindsReg out, .binds "size", .binds "raw", .binds "x", .lib .type "Vec", .decl t.name] ++
      (if len.isSome then [.binds "t_count", .lib .type "usize"] else [])
  | .skip _ _ => [.binds "big_scratch", .lib .type "usize"]
  | .loopOutput _ _ => []
  | .ret _ => [.lib .value "Ok"]
  | .error _ => [.lib .value "Err"]

/-- The statement before the body of a loop (`compiler/decoder.rs` 373-427). -/
def loopUses (len term : Option Nat) : List NameUse :=
  if len.isSome then [.lib .type "Vec", .lib .type "usize"]
  else if term.isSome then [.lib .type "Vec", .binds "buf"]
  else [.lib .type "Vec", .binds "r", .binds "r_len"]

/-- `compiler/decoder.rs` 15-492 (`prepare_decode`). -/
def Prog.nameUses (S : Snippets) (async : Bool) : Prog → List NameUse
  | .nil => []
  | .op i rest => i.nameUses S ++ rest.nameUses S async
  | .loop _ len term out inner rest =>
    bindsReg out :: loopUses len term ++ inner.nameUses S async ++ rest.nameUses S async
  | .cond regs _ inner rest =>
    regs.map bindsReg ++ [.lib .value "Some", .lib .value "None"] ++ inner.nameUses S async ++ rest.nameUses S async
  | .condPred _ inner rest => inner.nameUses S async ++ rest.nameUses S async
  | .condWrap _ prelude _ new xf _ rest =>
    [.binds "r_xform", bindsReg new] ++
      (if async then [.lib .type "Unpin", .lib .type "Send", .lib .type "Sync"] else []) ++ S.uses xf ++
      prelude.nameUses S async ++ rest.nameUses S async

end Dec

namespace Enc

/-- The body of the loop over an array of primitives (`compiler/encoder.rs` 246-283). -/
def loopVar : Prim → List NameUse
  | .scalar ⟨.u8, _⟩ => []
  | _ => [.binds "x"]

/-- `compiler/encoder.rs` 37-306, 360-441: the instructions without blocks. -/
def Op.nameUses (S : Snippets) : Op → List NameUse
  | .eval r e => bindsReg r :: e.nameUses
  | .evalBlen r e _ => bindsReg r :: e.nameUses
  | .getName r _ _ => [bindsReg r]
  | .getIndex r _ _ => [bindsReg r, .lib .type "usize"]
  | .getInner r _ => [bindsReg r]
  | .getRef r _ => [bindsReg r]
  | .setRef _ _ => []
  | .allocBuf buf _ => [bindsReg buf, .lib .type "Vec", .lib .type "usize"]
  | .allocDyn buf => [bindsReg buf, .lib .type "Vec"]
  | .wrap _ new xf _ => bindsReg new :: S.uses xf
  | .endStream _ => [.lib .value "drop"]
  | .emitBuf _ _ => []
  | .foreign _ _ n _ => S.uses n
  | .ref _ _ _ _ => []
  | .repr _ _ _ => []
  | .prim _ _ _ => []
  | .primArray _ _ p len =>
    loopVar p ++ (if len.isSome then [.binds "t_count", .lib .type "usize"] else [])
  | .reprArray _ _ _ len =>
    .binds "x" :: (if len.isSome then [.binds "t_count", .lib .type "usize"] else [])
  | .pad _ _ => [.lib .type "usize"]
  | .lenVal r _ => [bindsReg r]
  | .lenBuf r _ => [bindsReg r]
  | .drop _ => [.lib .value "drop"]
  | .nullCheck _ dst _ => [bindsReg dst, .lib .value "Some", .lib .value "Err"]
  | .unwrapEnum en _ _ dst _ => [bindsReg dst, .decl en, .lib .value "Err"]
  | .unwrapStruct en _ _ dst _ => dst.map (fun p => bindsReg p.2) ++ [.decl en, .lib .value "Err"]
  | .brk => []

/-- `compiler/encoder.rs` 23-449 (`prepare_encode`). -/
def Prog.nameUses (S : Snippets) (async : Bool) : Prog → List NameUse
  | .nil => []
  | .op i rest => i.nameUses S ++ rest.nameUses S async
  | .loop idx _ inner rest => bindsReg idx :: inner.nameUses S async ++ rest.nameUses S async
  | .cond _ inner rest => inner.nameUses S async ++ rest.nameUses S async
  | .condWrap _ prelude _ new owned xf _ rest =>
    [bindsReg new, bindsReg owned, .lib .value "None", .lib .value "Some"] ++
      (if async then [.lib .type "Send", .lib .type "Sync", .lib .type "Unpin"] else []) ++ S.uses xf ++
      prelude.nameUses S async ++ rest.nameUses S async
  | .block inner rest => inner.nameUses S async ++ rest.nameUses S async

end Enc

/-! ## The functions of a type -/

/-- A generated function: its parameters, the types that its generics and its own `use` hide, and what its text does
with names. -/
structure RustFn where
  params : List String
  hides : List String
  body : List NameUse

/-- `decode_sync`, `decode_async` (`compiler/mod.rs` 243-257; `compiler/decoder.rs` 24-34, 485-492). -/
def decodeFn (S : Snippets) (async : Bool) (d : Decl) : RustFn where
  params := "reader" :: d.params
  hides := "R" :: (if async then ["AsyncRead", "AsyncBufRead", "AsyncBufReadExt", "AsyncReadExt"] else ["Read"])
  body := (Dec.genDecl d).nameUses S async ++
    (if async then [.lib .type "tokio", .lib .type "Send", .lib .type "Sync", .lib .type "Unpin"] else [])

/-- `encode_sync`, `encode_async` (`compiler/mod.rs` 237-262; `compiler/encoder.rs` 25-35, 451-463). -/
def encodeFn (S : Snippets) (async : Bool) (d : Decl) : RustFn where
  params := "writer" :: d.params
  hides := "W" :: (if async then ["AsyncWrite", "AsyncWriteExt"] else ["Write"])
  body := bindsReg 0 :: .lib .value "Ok" :: (Enc.genDecl d).2.nameUses S async ++
    (if async then [.lib .type "tokio", .lib .type "Send", .lib .type "Sync", .lib .type "Unpin"]
     else [.lib .type "std"])

/-- `compiler/mod.rs` 191-265 (`prepare_impls`). Whether `async_recursion` is used depends on the cycle flags (C46); it
is taken to be used by every async function. -/
def declFns (o : NameOpts) (S : Snippets) (d : Decl) : List RustFn :=
  [decodeFn S false d, encodeFn S false d] ++
    (if o.async then
      [{ encodeFn S true d with body := .lib .type "async_recursion" :: (encodeFn S true d).body },
       { decodeFn S true d with body := .lib .type "async_recursion" :: (decodeFn S true d).body }]
     else [])

/-- The names of the functions that every type gets. -/
def coderNames (o : NameOpts) : List String :=
  ["decode_sync", "encode_sync"] ++ (if o.async then ["encode_async", "decode_async"] else [])

/-! ## Declared types -/

/-- The types in the text of a Rust type (`compiler/mod.rs` 308-331 `emit_type_ref`, 152-158 and 352-358 `Option`). -/
def RTy.nameUses : RTy → List NameUse
  | .str => [.lib .type "String"]
  | .vec t => .lib .type "Vec" :: t.nameUses
  | .opt t => .lib .type "Option" :: t.nameUses
  | .named n => [.decl n]
  | _ => []

/-- The types of the fields of a declaration. -/
def declTypeUses (F : Sig) (d : Decl) : List NameUse :=
  match d.body with
  | .leaf cond ty => ((ty.rust F).optional cond.isSome).nameUses
  | .repr _ => []
  | .struct _ items => (rustFields F false items).flatMap fun p => p.2.nameUses
  | .tagged _ arms => arms.flatMap fun a =>
    match a.body with
    | .leaf ty => (ty.rust F).nameUses
    | .cont _ items => (rustFields F false items).flatMap fun p => p.2.nameUses

/-- A tuple struct: its constructor is a name in the value name space (`compiler/mod.rs` 162-165, 672). -/
def Decl.isTuple (d : Decl) : Bool :=
  match d.body with
  | .leaf _ _ => true
  | .repr (.bitfield _ _) => true
  | _ => false

/-- What a declaration adds to the module. -/
def declItems (d : Decl) : List (NameSpace × String) :=
  (.type, d.name) :: (if d.isTuple then [(.value, d.name)] else [])

/-- The functions of an enum or bitfield besides encoders and decoders: what they bind and take from Rust
(`compiler/mod.rs` 494-600: `from_repr(repr)`, the arms `value => ..` and `x => Err(..)`; 672-731: `from_repr(repr)`,
`bitor(self, rhs)`, `impl core::ops::BitOr`). -/
def reprUses : ReprTy → List NameUse
  | .enum _ e => [.binds "repr", .binds "x", .lib .value "Ok", .lib .value "Err"] ++
      (if e.items.any (fun p => p.2.isNone) then [.binds "value"] else [])
  | .bitfield _ _ => [.binds "repr", .binds "rhs", .lib .value "Ok", .lib .value "Err", .lib .type "core"]

/-- The lists of names in which no name may stand twice: fields of a struct or variant; variants of an enum together with
the functions that generated code calls as `Enum::function`; functions and constants of a bitfield
(`compiler/mod.rs` 333-468, 471-600, 604-731). -/
def declLists (o : NameOpts) (C : Cases) (d : Decl) : List (List String) :=
  match d.body with
  | .leaf _ _ => []
  | .repr (.enum _ e) => [e.items.map (·.1) ++ ["from_repr"]]
  | .repr (.bitfield _ b) =>
    [b.flags.map (fun p => C.upper (C.snake p.1)) ++ ["ALL", "ZERO", "from_repr", "to_be_bytes", "to_le_bytes"] ++
      b.flags.map (fun p => C.snake p.1) ++ b.flags.map (fun p => "set_" ++ C.snake p.1) ++ coderNames o]
  | .struct _ items => [items.names]
  | .tagged _ arms =>
    (arms.map (·.attr.name) ++ ["decode_sync", "decode_async"]) ::
      arms.flatMap fun a => match a.body with
        | .leaf _ => []
        | .cont _ items => [items.names]

/-- The names of a declaration that are emitted as identifiers. The names of containers inside containers are not: their
fields are put into the struct around them. -/
def declIdents (C : Cases) (d : Decl) : List String :=
  d.name :: d.params ++ match d.body with
    | .leaf _ _ => []
    | .repr (.enum _ e) => e.items.map (·.1)
    | .repr (.bitfield _ b) => b.flags.map (fun p => C.upper (C.snake p.1)) ++ b.flags.map (fun p => C.snake p.1) ++
        b.flags.map (fun p => "set_" ++ C.snake p.1)
    | .struct _ items => items.names
    | .tagged _ arms => arms.flatMap fun a => a.attr.name :: match a.body with
        | .leaf _ => []
        | .cont _ items => items.names

/-! ## The module -/

/-- The items of the header (`compiler/mod.rs` 93-142). -/
def headerItems (o : NameOpts) : List (NameSpace × String) :=
  [(.type, "Read"), (.type, "BufRead"), (.type, "Cursor"), (.type, "slice"), (.type, "mem"), (.type, "TryInto"),
   (.type, "Result"), (.value, "encode_error"), (.value, "decode_error")] ++
  (if o.anyhow then []
   else [(.type, "Error"), (.type, "DecodeError"), (.value, "DecodeError"), (.type, "EncodeError"), (.value, "EncodeError")])

/-- What the header does with names (`compiler/mod.rs` 93-142). -/
def headerUses (o : NameOpts) : List NameUse :=
  [.binds "value", .lib .type "AsRef", .lib .type "str", .lib .type "std"] ++
  (if o.anyhow then [.lib .type "anyhow"]
   else [.binds "f", .lib .type "Box", .lib .type "Send", .lib .type "Sync", .lib .type "String"])

/-- A generated module, as far as names go. -/
structure RustModule where
  /-- items of the header -/
  header : List (NameSpace × String)
  /-- items of the specification -/
  declared : List (NameSpace × String)
  /-- tuple structs, whose names no variable may have -/
  tuples : List String
  /-- functions of the types -/
  fns : List RustFn
  /-- everything outside of these functions -/
  outside : List NameUse
  /-- lists without repetitions -/
  lists : List (List String)
  /-- names taken from the specification -/
  idents : List String

/-- `compiler/mod.rs` 91-184 (`compile_program`). -/
def rustModule (o : NameOpts) (F : Sig) (C : Cases) (S : Snippets) (sch : Schema) : RustModule where
  header := headerItems o
  declared := sch.flatMap declItems
  tuples := (if o.anyhow then [] else ["DecodeError", "EncodeError"]) ++ (sch.filter (·.isTuple)).map (·.name)
  fns := sch.flatMap (declFns o S)
  outside := headerUses o ++ sch.flatMap fun d =>
    declTypeUses F d ++ match d.body with
      | .repr t => reprUses t
      | _ => []
  lists := sch.flatMap (declLists o C)
  idents := sch.flatMap (declIdents C)

/-- The texts of the prelude: `prelude/utf8.rs` 27-79, `prelude/utf16.rs` 20-64, `prelude/var.rs` 60-108,
`prelude/gzip.rs`, `prelude/base64.rs`. Sync and async, encoder and decoder are taken together. -/
def preludeSnippets : Snippets where
  uses n :=
    if n = "utf8" ∨ n = "utf16" then
      [.binds "t_count", .binds "t", .binds "t_borrow", .binds "t_borrow2", .binds "len", .binds "ptr",
       .lib .type "Vec", .lib .type "String", .lib .type "usize"] ++ (if n = "utf16" then [.binds "utf16"] else [])
    else if n = "gzip" then [.lib .type "flate2", .lib .type "async_compression"]
    else if n = "base64" then [.lib .type "base64"]
    else if n ∈ ["v8", "v16", "v32", "v64", "v128"] then [.binds "i", .binds "buf", .binds "output", .binds "value"]
    else []

/-! ## Rust's rules -/

/-- The words that are no identifiers in Rust (The Rust Reference, Keywords: strict and reserved, edition 2021). -/
def rustKeywords : List String :=
  ["as", "break", "const", "continue", "crate", "else", "enum", "extern", "false", "fn", "for", "if", "impl", "in", "let",
   "loop", "match", "mod", "move", "mut", "pub", "ref", "return", "self", "Self", "static", "struct", "super", "trait",
   "true", "type", "unsafe", "use", "where", "while", "async", "await", "dyn",
   "abstract", "become", "box", "do", "final", "macro", "override", "priv", "typeof", "unsized", "virtual", "yield", "try"]

/-- Letters, digits and `_`, beginning with none of the digits. -/
def wordLike (n : String) : Bool :=
  match n.toList with
  | [] => false
  | c :: cs => (c.isAlpha || c == '_') && cs.all fun c => c.isAlphanum || c == '_'

/-- An identifier of ASCII characters (The Rust Reference, Identifiers). -/
def RustIdent (n : String) : Prop := wordLike n = true ∧ n ≠ "_" ∧ n ∉ rustKeywords

instance (n : String) : Decidable (RustIdent n) := by unfold RustIdent; infer_instance

/-- Rust's rules for names. -/
structure NamesKept (m : RustModule) : Prop where
  /-- identifiers are identifiers -/
  idents : ∀ n ∈ m.idents, RustIdent n
  /-- an item is declared once in its name space (E0428, E0255) -/
  items : (m.header ++ m.declared).Nodup
  /-- no item hides what the generated code takes from Rust's prelude or from a crate -/
  outside : ∀ ns n, .lib ns n ∈ m.outside → (ns, n) ∉ m.declared
  inside : ∀ f ∈ m.fns, ∀ ns n, .lib ns n ∈ f.body → (ns, n) ∉ m.declared
  /-- no variable has the name of a tuple struct (E0530) -/
  vars : ∀ n, .binds n ∈ m.outside → n ∉ m.tuples
  locals : ∀ f ∈ m.fns, ∀ n, .binds n ∈ f.body → n ∉ m.tuples
  args : ∀ f ∈ m.fns, ∀ n ∈ f.params, n ∉ m.tuples
  /-- no two parameters share a name (E0415) -/
  params : ∀ f ∈ m.fns, f.params.Nodup
  /-- fields, variants, functions and constants of a type have names of their own (E0124, E0428, E0592) -/
  lists : ∀ l ∈ m.lists, l.Nodup
  /-- a function that mentions a type has no generic and no import of that name -/
  seen : ∀ f ∈ m.fns, ∀ n, .decl n ∈ f.body → n ∉ f.hides
  /-- a type that is mentioned is declared (E0412, E0433) -/
  found : ∀ n, (.decl n ∈ m.outside ∨ ∃ f ∈ m.fns, .decl n ∈ f.body) → (.type, n) ∈ m.declared

/-- A use of a name keeps to the rules, outside of functions. -/
def useKept (m : RustModule) : NameUse → Bool
  | .binds n => decide (n ∉ m.tuples)
  | .lib ns n => decide ((ns, n) ∉ m.declared)
  | .decl n => decide ((.type, n) ∈ m.declared)

/-- A function keeps to the rules. -/
def fnKept (m : RustModule) (f : RustFn) : Bool :=
  f.body.all (useKept m) && f.params.all (fun n => decide (n ∉ m.tuples)) && decide f.params.Nodup &&
    f.hides.all fun n => decide (.decl n ∉ f.body)

/-- The rules, computed. -/
def namesKept (m : RustModule) : Bool :=
  m.idents.all (fun n => decide (RustIdent n)) && decide (m.header ++ m.declared).Nodup && m.outside.all (useKept m) &&
    m.fns.all (fnKept m) && m.lists.all fun l => decide l.Nodup

theorem namesKept_iff (m : RustModule) : namesKept m = true ↔ NamesKept m := by
  simp only [namesKept, fnKept, Bool.and_eq_true, List.all_eq_true, decide_eq_true_eq]
  constructor
  · rintro ⟨⟨⟨⟨h1, h2⟩, h3⟩, h4⟩, h5⟩
    refine ⟨h1, h2, ?_, ?_, ?_, ?_, ?_, ?_, h5, ?_, ?_⟩
    · intro ns n h; simpa [useKept] using h3 _ h
    · intro f hf ns n h; simpa [useKept] using (h4 f hf).1.1.1 _ h
    · intro n h; simpa [useKept] using h3 _ h
    · intro f hf n h; simpa [useKept] using (h4 f hf).1.1.1 _ h
    · intro f hf n h; exact (h4 f hf).1.1.2 n h
    · intro f hf; exact (h4 f hf).1.2
    · intro f hf n h hn; exact (h4 f hf).2 n hn h
    · rintro n (h | ⟨f, hf, h⟩)
      · simpa [useKept] using h3 _ h
      · simpa [useKept] using (h4 f hf).1.1.1 _ h
  · intro k
    refine ⟨⟨⟨⟨k.idents, k.items⟩, ?_⟩, ?_⟩, k.lists⟩
    · intro u hu
      cases u with
      | binds n => simpa [useKept] using k.vars n hu
      | lib ns n => simpa [useKept] using k.outside ns n hu
      | decl n => simpa [useKept] using k.found n (.inl hu)
    · intro f hf
      refine ⟨⟨⟨?_, k.args f hf⟩, k.params f hf⟩, fun n hn h => k.seen f hf n h hn⟩
      intro u hu
      cases u with
      | binds n => simpa [useKept] using k.locals f hf n hu
      | lib ns n => simpa [useKept] using k.inside f hf ns n hu
      | decl n => simpa [useKept] using k.found n (.inr ⟨f, hf, hu⟩)

instance (m : RustModule) : Decidable (NamesKept m) := decidable_of_iff _ (namesKept_iff m)

end Verif
