# A Lean 4 model of protospec

This file is generated by `tools/gen_design.py` from `tools/design_head.md`, `tools/design_tail.md` and `MANIFEST.json`.

## Trusted base
* **Lean 4.33.0's kernel.** No axioms are added. Every theorem named in `MANIFEST.json` depends on at most `propext`,
  `Classical.choice` and `Quot.sound` (checked with `#print axioms` for all of them; a few depend on less or on none).
  No compiled evaluation is used; concrete cases are `rfl`, `decide` or `decide +kernel` (kernel reduction).
* **The translation from Rust to Lean**, done by hand. Every definition of the model cites the file and lines it models and
  names its simplifications.
* **The specifications** a theorem compares the model with. They are separate definitions that do not mention the model's
  helpers: `DecodeSpec`, `EncodeSpec` + `Order.wire`, `TokenSpec`, `ParserSpec`, `PrintSpec`, `Sem/Spec`, the first part of
  `Sem/Elab`, `Sem/ElabProgram`, `Sem/Shape`, `Sem/Dups`, `Sem/Typed`, and the definitions marked "Spec:" in `Props/*`.
* **What protospec does not implement itself**, taken as follows:
  * `std::io`: a reader is the list of bytes it will still deliver, a writer appends to a list; readers and writers do not
    fail by themselves; `usize` has 64 bits.
  * Rust integer arithmetic and `as` as in the reference, with `overflow-checks` as a parameter (`oc`): both settings are covered.
  * rustc's reading of the emitted tokens: the emitted statements are given meaning by interpreters (`DecodeVM.exec`,
    `EncodeVM.exec`, `Runtime.evalE`). Emitted text that rustc rejects is the outcome `ill`. Borrow checking is not modelled.
  * foreign types and transforms (also gzip and base64) are parameters (`Ext`), with their own correctness as an explicit
    hypothesis where one is needed (round trip, locality).
  * `HashMap` iteration order is the order of a list with distinct keys; theorems hold for every such list.
  * an import resolver is a parameter (`Env`): any function from paths to modules, any set of foreign items.
  * derived equality of ASG types (which compares source spans) is the parameter `Env.same`.

## What is modelled
| Part of the code (protospec-build/src) | Lean modules (model) | Lean modules (lemmas) |
|---|---|---|
| ast/types/scalar.rs; byte conversion of integers | `Scalar` | `ScalarLemmas` |
| asg/expression/const_int.rs | `ConstInt` | `ConstLemmas` |
| asg/expression as the generators see it; compiler/expr.rs (eval_const_expression, emit_expression) | `Expr`, `Runtime` | `ExprLemmas` |
| prelude/* (var, utf8, utf16, pad, len, blen, sum, bits) | `Prelude`, `Expr`, `Wire` | |
| compiler/mod.rs: generate_enum, generate_bitfield; numbering of enum and bitfield items | `Repr` | |
| compiler/mod.rs: derive lists | `Derives` | |
| coder/decode/*, compiler/decoder.rs | `Schema`, `Wire`, `DecodeVM` | `DecodeRefine` |
| coder/encode/*, compiler/encoder.rs | `Schema`, `Wire`, `EncodeVM` | `EncodeRefine`, `EncodeItems`, `EncodeSim`, `EncodeDecl`, `Order`, `RoundTrip` |
| tokenizer.rs | `Tokenizer` | `TokenTables`, `TokenLemmas`, `TokenGobble` |
| ast/*, parser/* | `Ast`, `Parser` | `ParserLemmas`, `ParserSafe`, `ParserSound`, `ParserComplete` |
| asg/*, semantics/partial_type.rs | `Sem/Asg` | `Sem/Types` |
| semantics/convert/*, resolve.rs, scope.rs | `Sem/Convert` | `Sem/IMap`, `Sem/Lemmas`, `Sem/Sound`, `Sem/Passes`, `Sem/Elab`, `Sem/Dups`, `Sem/Shape`, `Sem/Placed`, `Sem/Typed` |
| semantics/convert/program/*, asg/program.rs, import.rs | `Sem/Program` | `Sem/ElabProgram` |
| prelude/resolver.rs | `Sem/PreludeEnv` | |
| what coder/* and compiler/* read of the graph (one model of the boundary between front end and back end) | `Sem/Lower` | `Sem/LowerShape` |
| tests/* (test of the model: it accepts and rejects what the project's 220 tests expect; `#guard`, no theorem rests on it) | | `Conformance` |
| (proof only) closed graphs; provenance of types; scoping; never dangling | | `Sem/Closed`, `Sem/History`, `Sem/Scoping`, `Sem/LowerFirm`, `Lexical` (spec), `Props/Closed`, `Props/Scope`, `Props/EndToEnd` |
| compiler/mod.rs 135-167, 308-469 (declared Rust types), compiler/expr.rs (type rules of what it emits) | `RustTypes`, `RustCheck` | `DecodeTyped`, `DecodeSafe`, `EncodeSafe`, `Props/RustTypes` |
| (proof only) where names and cells come from; what the text says | | `Says` (spec), `Sem/Origin`, `Sem/Grounded`, `Sem/Saying`, `Props/Says` |
| (proof only) decoders on hostile input | | `Bounds`, `Survive`, `Props/Survive` |
| (proof only) readers that deliver the input in pieces; where messages end | `Schedule` (coder/decode/array.rs on a reader with partial fill_buf) | `Delimited`, `Props/Schedule`, `Props/Delimited` |
| compiler/encoder.rs on writers that fail; prelude/gzip.rs, compiler/mod.rs 228-262 (async variants) | `Writer` | `Uses`, `Props/Writer`, `Props/Async` |
| compiler/expr.rs 19-21, compiler/decoder.rs, compiler/encoder.rs: names of variables, Rust's scopes | `Hygiene` | `Props/Hygiene` |
| (proof only) decoders are injective | | `Lossless`, `Props/Lossless` |
| (proof only) encoders after decoders | | `Forth`, `Props/Forth` |
| compiler/decoder.rs, coder/decode/array.rs on readers that fail; prelude/utf8.rs likewise | `Fail`, `Props/Fail` (utf8DecF) | `Fail`, `Props/Fail` |
| compiler/mod.rs 606-731: the functions of bitfield types | `Flags` | `Props/Flags` |
| compiler/mod.rs 135-167, 308-469: layout of generated types | `Sizes` | `Sizes`, `Props/Sizes` |
| compiler/decoder.rs, compiler/mod.rs 258: types of reader variables, instances of generic functions | `Readers`, `Instances` | `Readers`, `Instances`, `Props/Readers`, `Props/Instances` |
| compiler/encoder.rs, compiler/mod.rs 263: types and ownership of writer variables | `Sinks` | `Sinks`, `Props/Sinks` |
| compiler/mod.rs 50-88, 146-172, 408-449, 459-468, 530-560, 649, lib.rs 43-77: derives, `impl Default` | `Traits`, `Defaults` | `Props/Traits`, `Props/Defaults` |
| (analysis of encoders: `Encode*`) | `EncodeSurvive` | `Props/EncodeSurvive` |
| compiler/mod.rs 15-17, 91-184, 191-272, 308-731; templates of decoder.rs, encoder.rs, expr.rs, prelude/*: names | `RustNames` | `NameGen`, `Props/RustNames`, `Props/NamesClosed` |
| compiler/mod.rs 187-226: parameters with default values | `Defaulted` | `Called`, `DefaultedSays`, `Props/Defaulted`, `Props/DefaultedTrip` |
| lib.rs 76-114 (`compile_spec`), import.rs (`NullImportResolver`), prelude/resolver.rs | `CompileSpec` | `Props/CompileSpec` |
The properties are in `Props/*`.

## What is not modelled
* The text `compile_program` emits, rustfmt itself and the file system (parameters of `CompileSpec`), `result.rs` (printing of errors), `Display` of ASG/AST nodes.
* The text of the emitted items: struct and impl headers, visibility, `TokenStream` layout, emitted async variants (`compile_to_async`): they differ from the sync ones in `.await` and trait names.
* Default values of type parameters are modelled in `Defaulted` only (C78); all other properties are about specifications without them (`Schema.Decl` has none, and lowering refuses them).
* The insides of gzip (flate2), base64, f32/f64 arithmetic. Floats on the wire are bit patterns.
* User-written foreign functions (`ForeignFunction` of a custom resolver): the builtin functions only.
* Spans in the AST/ASG beyond what C30 says about token spans; the wording of errors.

## How each property is modelled and proved
`status` as in `MANIFEST.json`. A partial claim is stated in full, proved as far as it is true, and refuted by a theorem
with a concrete program where the code violates it.

| | property | status | how | note |
|---|---|---|---|---|
| C01 | Fixed-width scalars survive the wire | proved | two's complement byte lists; induction on the width. number_types starts at the names of the types in a specification and ends at the bytes (table of all number types, checked by the kernel, plus the general theorems) | number_types: from the names in a specification to the bytes, for all 18 number types |
| C02 | A generated encoder writes fields in declaration order | partial | generator + interpreter refine `encDecl` (simulation by induction on the type); `encDecl` = `wire` in declaration order (induction on the items) | proved for containers (declaration order, every nesting, with calculated fields) and struct arms without blen; missing: struct arms of tagged enums with blen fields, where the supplied value leaks (tagged_calculated_leaks) |
| C03 | A generated decoder reads fields in declaration order | proved | generator + interpreter refine `specDecode`; simulation by induction on the type | whole decoder generator + interpreter vs specification; hypothesis: no repeated field names (rustc rejects those) |
| C04 | decode after encode is the identity | proved | `Reads` predicate for every construct, induction on the schema depth, through C02 and C03 | fragment as in the statement (WfSchema, Fitting); outside it the code violates it: chained_transforms_do_not_round_trip, overlapping_lengths_out_of_order |
| C05 | Decoders read only what they need | proved | locality lemma by induction on the specification, through C03 | prefix fragment: no [..], [..e]; foreign types/transforms assumed local themselves |
| C06 | Conditional fields are present exactly when the condition holds | proved | corollaries of the refinements | decoding and encoding |
| C07 | Tagged enums pick the first matching arm | partial | corollaries of the refinements | violated by the encoder: with no matching arm it writes nothing and reports success |
| C08 | Calculated fields ignore the supplied value | partial | corollary of C02's order theorem | proved for containers (the wire value is the value of the expression); violated for struct arms of tagged enums |
| C09 | blen writes the byte length of its target | partial | corollary of C02's order theorem | proved for containers without transforms; violated for containers with transforms: the length is that of the untransformed content |
| C10 | Several blen fields pending at once keep declaration order | partial | concrete violation; order theorem for one waiting field | violated by the code: two overlapping length fields come out in the wrong order; order proved when at most one waits |
| C11 | A length-constrained container never reads past its length | proved | invariant of the window reader |  |
| C12 | A length-constrained container consumes exactly its length | partial | corollary of C03 and a concrete violation | violated by the code: the unused rest of container[len] is neither skipped nor filled; holds when the content uses the whole length |
| C13 | Fixed-length arrays hold exactly the declared number of elements | partial | induction on the element count | violated by the encoder for arrays of non-primitives (longer values are cut off) and by the decoder of release builds for counts whose byte size passes 2^64 (array_count_wraps) |
| C14 | Unbounded arrays consume everything or fail | partial | induction on the input length | violated by the code for primitive, enum and bitfield elements: an incomplete last element is dropped |
| C15 | Terminated arrays round trip and stop at the terminator | partial | induction on the elements; divergence by fuel monotonicity | round trip proved; violated by the code: endless loop and accepted missing terminator |
| C16 | Transforms compose so that decoding inverts encoding | partial | corollaries of the refinements | single transforms round trip; violated by the code for chains of two: both sides use the same order |
| C17 | Enum wire values convert back and forth | proved | decision tables over arbitrary item lists |  |
| C18 | Implicit enum values continue from the last explicit one | proved | induction on the item list |  |
| C19 | Implicit bitfield flags shift from the last explicit one | proved | induction on the item list |  |
| C20 | Bitfield values accept exactly the declared bits | proved | bitwise reasoning |  |
| C21 | Variable-length integers round trip | partial | exact characterisation of the decoder | The full claim is false of the code; the partial theorem is an exact characterisation. |
| C22 | Variable-length integer encoding is minimal LEB128 | proved | strong induction on the value |  |
| C23 | utf8 strings round trip | proved | valid UTF-8 lemmas of the core library |  |
| C24 | utf16 strings round trip | partial | induction on code units | False on little-endian hosts; proved on big-endian ones. |
| C25 | pad aligns | proved | arithmetic |  |
| C26 | The tokenizer is total and loses nothing | partial | strong induction on the remaining input | terminates, cuts exactly and accepts exactly the lexical grammar; violated by the code: two-digit escapes in strings can panic |
| C27 | String literals denote their escaped bytes | partial | induction on the literal | proved for literals without two-digit escapes; violated by the code for those with |
| C28 | Comments and whitespace do not matter | proved | lexeme locality |  |
| C29 | Printing then tokenizing is the identity | partial | induction on the token list | proved for all lists of tokens whose strings have no quote or backslash; violated by the code for those with |
| C30 | Source positions are exact | partial | position invariant along the token list | proved for tokens on later lines not preceded by a line break inside a token; violated by the code on the first line, after comments and strings with line breaks |
| C31 | Expression syntax: precedence and associativity | proved | print/parse round trip, mutual induction on trees | Expression trees of every shape and depth: printed with minimal parentheses (printE, PrintSpec.lean) they are read back; parentheses are shown necessary. SpeltE only restricts types inside casts to spellable ones. Finding: a ternary's false branch is not a ternary (rejected without parentheses; the printer writes them). |
| C32 | Programs parse back to themselves | proved | grammar soundness and completeness | All programs the parser can return (characterised exactly by writable_iff_parsed). Limits: calculated fields cannot have flags, endianness of literal suffixes is dropped. |
| C33 | The parser always terminates and never panics | proved | rank argument for termination; grammar equivalence | All token lists and source texts; the parser accepts exactly the grammar of ParserSpec.lean. |
| C34 | Constant arithmetic is exact or refused | proved | arithmetic on (kind, value) pairs; induction on expressions |  |
| C35 | Integer literals denote their value or are rejected | proved | induction on digits |  |
| C36 | Implicit widening never changes a value | proved | finite tables of the 10 kinds, all values |  |
| C37 | Whatever converts implicitly also converts explicitly | partial | case analysis on types | violated by the code: enum to a wider integer and back, arrays, and unsuffixed literals are usable but not castable. castable_iff, implicit_iff give both relations as tables, implicit_castable_iff the exact difference on them (Props/Casts.lean) |
| C38 | Expressions get the type that was asked for | proved | mutual induction on expressions. Which types may stand for which is stated as a relation over kinds of types (Props/Casts.lean), the types of expressions as typing rules (Props/ExprTypes.lean), both proved equivalent to the modelled functions | every expression, scope, graph and expected type; what is accepted is laxer than one would expect (compare_any_finding) |
| C39 | The emitted expression computes what the expression means | partial | mutual induction on expressions against `Means` | sound and complete for expressions without the defective forms (Emittable, Defaults); violated by the code for an operator applied to a cast, named constants, array indices, >>>, and defaults of ?: that fail |
| C40 | Name resolution is lexical | proved | corollaries of C49 What Type::name and value.name stand for is stated as an equivalence with a relation between types, names and items (Props/Members.lean). | finding: an unresolved operand is reported as a type error of the other operand |
| C41 | Duplicate declarations are rejected | proved | mutual induction on types, both directions | findings: a field named _pad0 before a padding is silently lost; two type arguments may share a name |
| C42 | Type arguments are checked | partial | list lemmas on parameters | an accepted reference supplies all required and at most all; violated by the code: optional arguments cannot be supplied when there are required ones |
| C43 | Function and transform arguments are checked | partial | list lemmas on parameters | an accepted call supplies all required and at most all; violated by the code: too many arguments, or optional ones after two required ones, panic |
| C44 | Each module is loaded once and loading terminates | partial | visited-set induction on the import graph | a run that completes loads exactly the reachable modules, each once; import graphs without cycles terminate; violated by the code: a cycle is never resolved |
| C45 | Imports bind the requested names | proved | induction on the import list |  |
| C46 | Recursive types are flagged | partial | visited-set search, induction on unvisited fields | exact for types whose reachable fields have distinct names; violated by the code otherwise, both ways |
| C47 | Derive lists are canonical | proved | sorting lemmas |  |
| C48 | bits, sum and len compute their definition | partial | induction on elements For which expressions code is generated at all, and with which size, is stated as equivalences (Props/Emits.lean). | bits, len and sum of non-negative elements; violated by the code for negative elements (sum_negative_finding) |
| C49 | The graph is the program with names resolved | proved | relational specification `Elab…`; mutual induction on the syntax, then on the passes | ElabDecl (Sem/ElabProgram.lean, Sem/Elab.lean) is the specification; all_types_resolved covers types imported from other modules, to any depth |
| C50 | Definitions stand only where they may | proved | relational specification `Placed…`, both directions | PlacedDecl (Sem/Shape.lean) is the specification |
| C51 | Every expression of an accepted program has the type its place asks for | partial | relational specification `Typed…`; mutual induction on the syntax, then on the passes | TypedField, Seen (Sem/Typed.lean) are the specification; violated by the code where a type not yet converted (the type itself or a later one) is involved: it is taken for bool, so a number passes as a condition; proved: that is the only exception |
| C52 | The code generators only meet what they expect | partial | Sem/Lower.lean is the view the generators have of the semantic graph, every unwrap/unimplemented as a fault. generator_shapes_partial: source text -> parse (SpeltDecl from writable_iff_parsed) -> convert (ElabDecl from names_resolved_lexically, PlacedDecl from C50) -> induction over the declared type: no `shape` fault, and enough fuel. Findings are concrete accepted sources evaluated by the kernel. | impossible shapes are never met, in own or imported types; violated by the code: accepted sources on which the generators panic or never return (findings). The example specification shipped with the project is itself rejected. |
| C53 | An accepted program is self-contained and its named values are fixed | proved | Sem/Closed.lean: invariant WfHeap/WfProg (every index below the size of the graph, named values without field references) kept by every function of the conversion (Tight/Solid/Keeps/Grows); Props/Closed.lean states it with functions that collect what a graph names | EnvClosed: the resolver's types name no fields; met by the resolver protospec comes with (preludeEnv_closed) |
| C54 | Generated code refers only to what is in scope | partial | Lexical.lean is the specification over the generated declarations; Sem/History.lean: every type of a program stems from a declaration of a module's text (Made, by induction over module loading); Sem/Scoping.lean: lowering an elaborated declaration only mentions names in sight (Sight), by induction on the syntax; Props/Scope.lean combines them | LexicalDecl (Lexical.lean) is the specification; proved for all programs, own and imported types, if no field has the name of a padding; violated by the code otherwise (pad_reference_finding). Alternatives of a tagged enum may refer to earlier alternatives, on which no code comes out (arm_reference_finding) |
| C55 | From source text to bytes and back | partial | Props/EndToEnd.lean: references_in_scope_partial gives the Scoped hypothesis of decode_after_encode and encoded_in_order; the rest is the computable check schemaIn | proved for specifications that satisfy schemaIn, a computable check that excludes the known defects of the back end (C07-C16); scoping conditions are discharged from acceptance |
| C56 | A decoded value has the declared Rust type | partial | RustTypes.lean: declared Rust types and membership; DecodeTyped.lean: induction over the decoding specification, then decode_refines | Belongs, rustFields (RustTypes.lean) are the specification of the declared types. Proved for all schemas without the two excluded shapes, both violated by the code: nested conditions give Option<Option<T>>, arrays of an alias are decoded as arrays of the aliased type; protospec accepts both, rustc rejects what it generates |
| C57 | Generated code that keeps to the type rules never goes wrong | partial | RustCheck.lean: typing of emitted expressions eTy and its soundness by induction on expressions; DecodeSafe.lean, EncodeSafe.lean: typing of decoders and encoders (the variables in scope and their types, statement by statement), induction over the specifications and on fuel, then decode_refines and encode_refines | decChecks, encChecks (DecodeSafe.lean, EncodeSafe.lean, RustCheck.lean) state Rust's type rules for the emitted code, without ownership and borrowing, and reject some typings rustc would infer. That accepted specifications keep to the rules is false (findings) |
| C58 | Code is generated from exactly what the source says | partial | Says.lean: what the text says, as inductive relations; Sem/Origin: induction on the history of imports for where a name comes from; Sem/Grounded: every cell of the graph is the conversion of an item of some text; Sem/Saying: induction on the lowered expressions, types and items | Says.lean is the specification: typed relations between syntax trees and generated declarations, without graph or conversion; the kind of value a cast converts, the size len has and the flag x.flag tests are those of the type found by following names. Missing: specifications in which a field has the name of a padding (violated there, C54), imports under another name (outside the lowering), and the value of a flag tested on a field whose bitfield is written in place, or on a value that was converted to a type that is not a scalar |
| C59 | Decoders survive any input | partial | Bounds.lean: intervals of what emitted expressions give and their soundness, by induction on expressions; Survive.lean: the check, and well-founded induction on (stage, length of the input, rank) over the decoding specification, then decode_refines | survives (Survive.lean, Bounds.lean) is the computable check. Partial: it uses intervals of values, so it also refuses some specifications that survive; and the unconditional claim is false (hostile_input_findings, endless_recursion_finding, bomb_finding). Time and memory within the answered runs are not bounded |
| C60 | How the input arrives does not matter | partial | Schedule.lean: a second machine whose fill_buf shows as much as a schedule, indexed by the path of calls, allows; simulation against DecodeVM by induction on fuel and programs | proved in full: no schedule changes an answer, but it may make the decoder hang (cut_terminator_finding, terminators of two bytes or more); with terminators of one byte the pieces do not matter at all. Readers that fail are C67 |
| C61 | Messages end where they say | partial | Delimited.lean: the check, and stability (a successful run is the same run with more input behind) of every function of the decoding specification, by induction on fuel and types; then decode_refines. Prelude types by induction on the input | delimited (Delimited.lean) is the computable check. Violated by the code outside of it: a container[n] with an array [..] in it, terminated arrays and zero-terminated utf8 accept truncated messages (findings) |
| C62 | Writers that fail | partial | Writer.lean: a second encoder machine on a writer with limited room, whose faults keep the state; lockstep simulation against EncodeVM by induction on programs, and growth of what was written | proved in full: the writer has the beginning, enough room is Ok, failing values fail. That every failure is reported is false for transforms whose writers write in their destructor, as gzip's does (lost_trailer_finding), and proved for all others. Assumed of foreign types: they write with write_all (LibMeets) |
| C63 | The async functions do what the sync functions do | partial | Uses.lean: encoding and decoding depend on the library only through the transforms the schema names, by induction on the specification functions; then encode_refines, decode_refines | the async functions are modelled as the sync ones with another library of transforms, since they are emitted from the same instruction lists; proved for specifications whose transforms agree, in particular without transforms. gzip does not agree (findings; how flate2 and async_compression behave is from their documentation, they are not part of the repository) |
| C64 | Parameters mean their arguments | partial | Hygiene.lean is a second semantics of the emitted code: parameters, constants and the variables of the generator live in one list of Rust scopes, looked up by name, innermost first (compiler/expr.rs 19-21, compiler/decoder.rs, compiler/encoder.rs). Proof: for names that are not the generator's, it agrees with the semantics of C02/C09 (induction over instructions); what expressions mention besides fields is a parameter or a constant of the source (from C58's relations). | proved for all names except those of the variables of the generated functions (r_0, r_1, .., buf, r, r_len, r_xform, big_scratch, reader, writer), for which it is violated by the code (findings). Hygiene.lean runs the emitted code with Rust's block scopes, in which parameters and registers share one name space |
| C65 | Decoding loses nothing | partial | Lossless.lean defines the check lossless and proves, by induction over the types and over the nesting of calls, that a decoder of a type that passes it is injective on what it consumes (Keeps: same value, same bytes; with a variant for terminators that needs bytes to follow). Props/Lossless carries it over to the emitted code with decode_refines, derives the statements about messages, and combines it with C04 for forwarding. The strings of the prelude are proved to keep. | lossless (Lossless.lean) is the computable check; Val.rust is what a Rust program can see of a value. Violated by the code outside of it: a bool is true for 255 different bytes, paddings are not looked at, a terminator may be missing at the end, bytes at the end of u16[..] are dropped, variable-length integers have several forms (findings) |
| C66 | Encoding what was decoded gives the same bytes | partial | Forth.lean defines the check forth on top of lossless and proves, by simultaneous recursion over the items that the decoder and the encoder run through (in the order of the encoder's plan), that the encoder applied to what the decoder returned succeeds and writes the consumed prefix (Back); both environments agree on the fields that expressions may use (Sub). Props/Forth carries it over to the emitted code with decode_refines and encode_refines. The strings of the prelude are proved to satisfy the hypothesis about foreign types. | forth (Forth.lean) is the computable check. No hypothesis about the value: it is whatever the decoder returned. Outside of the check it is violated by the code: a container length from 2^63 on is decoded but panics in the encoder, calculated fields are recomputed, counts that wrap (findings) |
| C67 | A reader that fails is not mistaken for one that ends | partial | Fail.lean runs the emitted instruction lists on a reader that has some bytes and then fails: read_to_end is an error, fill_buf is one if nothing is buffered, take(n) does not reach what lies behind n bytes. A simulation (Beside, OutRel) between this machine and the machine of DecodeVM on the same bytes with any continuation, by induction over the code, gives both directions: Ok on the left is the same Ok on the right with the continuation untouched, and an error on the left means that the right one reads into the continuation or fails too (Shr: nothing is ever put back). That a failure directly behind the message does not matter needs terminators that are not empty: fullTerminators, followed into the code as a check (Prog.full) that a literal is assigned in front of every such loop; loopTerm_ends says that such a loop ends behind a terminator or where its window ends. | proved in full: a value returned is independent of what follows, an interrupted message is no value, a failure at least one byte behind the message does not matter. For terminators that are not empty, exactly what a failing reader returns (failing_reader_iff_partial). Partial: this is false for the empty terminator (empty_terminator_fails) and not proved for terminators not written as literals; half a terminator of two bytes makes the decoder hang instead of reporting the failure (finding). Transforms are assumed to read what they need when they are created |
| C68 | Bitfield values made with the functions of their type | partial | Flags.lean is a small language of programs over a generated bitfield type (constants, from_repr on decoded values, setters, operators), interpreted with the operations of Repr.lean (compiler/mod.rs 606-731). Proof by induction over programs of the invariant that every bit belongs to a flag, which is what the decoder checks; the getters by induction over the history of setter calls. | everything in the statement is proved; partial because ! is left out of it: the complement of a value is accepted by the decoder exactly if the flags cover the representation (complement_accepted_iff), so !Flags::A is in general encoded into bytes that the decoder refuses (complement_finding) |
| C69 | Generated types have a size | partial | Sizes.lean gives the layout rule of rustc as an inductive predicate over the types written in the generated declarations (Vec is a pointer, Option and struct fields are in place), the relation of holding a value in place, and a decision procedure by rounds. Proof: sized implies accessible, accessible implies no cycle; no cycle implies the rounds find everything, by the pigeonhole principle on paths. | violated by the code: a type that holds itself other than in an array, in a conditional field or through others, is accepted by protospec and refused by rustc (unsized_findings). Proved: this is the only case, and finiteSizes decides it |
| C70 | Readers are asked only for what they can do | partial | Readers.lean types the reader variables of the emitted instruction lists (own parameter, Take, what a transform makes, dyn Read, Cursor), with Rust's rules for blocks and moves, and collects what the code asks of each variable; the same is said about the specification by recursion over it (wants). Proof: both agree, by induction over the generator, with an invariant about which variables are older than the register counter; the sufficient and the necessary condition by induction over the items. | violated by the code: a field behind a compressed one uses a moved reader; references, terminated arrays and zero-terminated strings in transformed fields need a BufRead that gzip, base64 and conditional transforms do not give (reader_findings). Proved: exactly when it holds, as a computable condition on the specification (readers_ok_iff), that it holds without transforms or with transforms that return a BufRead and borrow (friendly_readers_ok), and that the refused shapes never compile. decode_sync only; the signatures of flate2 and base64 are taken from their documentation |
| C71 | Decoders are compiled for finitely many reader types | partial | Instances.lean: the instances needed are a least fixed point over the calls found in C70. Proof of finiteness: the number of types reachable over calls that pass on the caller's reader decreases with every call that makes a larger type of it, so sizes are bounded; conversely a cycle with such a call gives instances of every size. Reachability is decided in as many rounds as there are types (pigeonhole). | violated by the code for recursive types that refer to themselves inside a container with a length or behind a transform (instance_findings). Proved: this is the only case, and finiteInstances decides it |
| C72 | Writers are asked only for what they can do | partial | Sinks.lean types the writer variables of the emitted encoder instructions (own parameter, Vec, what a transform makes, dyn Write), with moves, loans that end when a stream is dropped, and Rust's rules where branches and breaks meet; it collects what the code asks of each variable. The same is said about the specification by recursion over it, with the plan of waiting fields of C26; genDecl_asked proves both equal. Positive and negative theorems follow from the specification side. | violated by the code: two transforms at one field, a reference to a type right behind a transform, and a field behind a compressed one outside of containers with a length give encoders that rustc refuses (sink_findings). Proved: exactly when it holds, as a computable condition on the specification (writers_ok_iff), that it holds without transforms and for single transforms that borrow or write to buffers (gentle_writers_ok), and that the three cases never compile |
| C73 | Encoders are compiled for at most two writer types | proved | Induction over the calls found in C72: a call that rustc accepts passes on the own writer or a buffer. | for specifications whose encoders pass C72's condition |
| C74 | The traits that were asked for can be derived | partial | derivesOf models the derive lists per kind of declaration, hasTrait the impls of the standard library over the written Rust types, traitsOk what rustc asks. Case analysis on kinds and induction over written types give the characterisation traits_accepted_iff, stated with WrittenIn (a type is written somewhere) only. | violated by the code: with the default options (Eq is among them) every specification with an f32 or f64 is refused by rustc, so is an enum whose only item is the default one, and bitfields without PartialEq (traits_findings). Proved: exactly when it holds, for lists that agree for structs and enums; for lists that do not, what the one asks of the other. The nine derivable traits of the standard library only |
| C75 | Default values are values | partial | IsDefault is a relation with one rule per derive or impl; existence by induction over Sized (C69), uniqueness and membership (Belongs, C56) by induction over IsDefault; C57 then gives the encoders. | proved in full: it returns, one value, of the type, and encoders do nothing ill with it. Partial: that the encoder accepts it is false: arrays of fixed length are empty by default and panic, conditional fields are absent whatever their condition says, the first alternative need not be the chosen one (default_wire_findings) |
| C76 | Encoders survive any value | partial | encSurvives is C57's check of encoders plus the bounds of C59 on expressions; soundness by induction over the encoder's specification with the invariant that variables hold values in range and of smaller depth, and over the depth of the value for calls; C02's refinement carries it to the generated code. | violated by the code for specifications outside the check encSurvives; for every condition of it encoder_panic_findings has an accepted specification whose encoder panics. Proved for all others: every value of the type ends in bytes or an Err (with counted arrays: or the panic of a wrong count and no other), with as many nested calls as declared types are nested in the value, which is exact (stack_bound_exact). Calculations on blen other than a cast are outside the check because lengths are unbounded in the model. |
| C77 | Names do not get in each other's way | partial | rustModule collects, template by template, which names the module declares, binds and takes from elsewhere; NamesKept is Rust's rules. Case analysis on templates and induction over the generated programs show that the generator's own names are in two fixed lists; what acceptance guarantees is read off the tokens (every name is a word of the lexer's) and the relations of C58. That mentioned types are declared: the generators mention only what the declarations mention (induction over both generators), and those mention only what the text declares (induction over C58's relations). | violated by the code: no name is checked against Rust's words, against the names of the generated header, or against those of the statement templates; each finding is an accepted specification that rustc refuses. Proved: what acceptance does guarantee (accepted_names), and that names chosen so that they stay out of the way (WellNamed, a condition on the names of the specification alone) satisfy all the rules, for every specification without imports (source_names_kept_partial) and for others if the types mentioned are imported too; conversely, what rustc's acceptance implies for C03 and C64 |
| C78 | Parameters with default values | partial | Entry is a declaration with its default values, fillArgs the let statements at the top of the generated functions; FilledIn specifies without them which values the parameters get. Induction over the parameters with the invariant that the variables hold the values so far; the text's default values are followed through conversion and lowering with the relations of C58. | violated by the code: a type with default values cannot be used by another type, with or without an argument for the parameter (the generated call passes a plain value, or fewer arguments, to a function that takes an Option), and a default that mentions its own parameter or a constant gives code that rustc refuses (default_called_finding, default_value_finding). Proved: exactly which modules are refused for this (legal_iff), and for all others: which defaults the generated functions have, that leaving out is the same as passing the value of the default, what that value is, and that what was encoded with parameters left out is decoded again (defaults_round_trip_partial, C55) (up to C39's defects of emitted expressions). _partial: no field is named like a padding |
| C79 | compile_spec writes the file or says why not | partial | compile_spec is a function of the text, the name, the options and a world (OUT_DIR, rustfmt, file system), built on the models of the parser and the converter with the resolver it hands over; GoesWell states what must go well, Target the path. Induction over the declarations for imports and foreign items. | proved with what rustfmt prints in place of the code; violated by the code where rustfmt fails: its exit status is ignored, an empty file is written and Ok returned (format_failure_finding). The emitted text, rustfmt and the file system are parameters; a name that is an absolute path leaves OUT_DIR |

## Findings
Places where the code does not do what the property says. Those with a theorem name are proved about the model.

1. Tokenizer: `"\xHH"` and following characters are decoded wrongly or panic (`hex_escape_finding`, `hex_escape_panics_finding`).
2. Tokenizer: columns on the first line and after line breaks inside comments and strings are off (`first_line_finding`, `comment_column_finding`, `string_line_finding`); `Span + Span` (`span_add_finding`).
3. Tokenizer: printing a string token does not escape (`print_string_finding`); a trailing unterminated `/*` is not reported as such.
4. Parser: the false branch of a ternary cannot be a ternary (`nested_ternary_finding`); an identifier at the end of the file gives `UnexpectedEOF`; calculated fields cannot have flags (`calculated_flag_finding`); the endianness in a literal's suffix is dropped (`literal_endian_finding`).
5. Optional type arguments cannot be supplied after required ones (`optional_type_argument_finding`).
6. Calls with too many arguments, or with optional arguments after two required ones, panic (`too_many_arguments_finding`, `optional_argument_finding`).
7. Explicit casts use the coercion check reversed: enum casts (`narrow_enum_cast_finding`, `wide_enum_cast_finding`), arrays (`array_cast_finding`), unsuffixed literals (`literal_cast_finding`); `f64` is not assignable from `f64` (`f64_finding`).
8. Comparisons accept operands of any type (`compare_any_finding`, `compare_bools_finding`); an unresolved operand is reported as a type error of the other (`unresolved_operand_finding`).
9. A type that is not converted yet counts as `bool`: a number passes as a condition (`forward_reference_finding`); parameters of later types count as absent inside parameter lists (`forward_parameter_finding`).
10. Import cycles never end (`cyclic_imports_finding`, `self_import_finding`); an import silently replaces a declaration (`import_overwrites_finding`); functions cannot be imported (`function_import_finding`).
11. Cycle flags compare field names, so they are wrong both ways (`not_recursive_flagged_finding`, `recursive_not_flagged_finding`).
12. A field `_pad0` declared before a padding is lost (`pad_name_finding`); type parameters may share a name (`duplicate_argument_finding`).
13. Enum/bitfield numbering panics when the first item is implicit and the next computation is out of range, constants of mixed kinds (theorems in `Props/Repr`, `Props/Const`).
14. Emitted expressions: an operator applied to a cast (`unary_over_cast_finding`), named constants, array indices and `>>>` (`not_emitted_finding`), `?:` evaluates its default eagerly (`elvis_default_finding`), `sum` of negative elements (`sum_negative_finding`), `pad(0)` divides by zero.
15. Variable-length integers: the decoder's limit on the number of bytes cuts off or accepts too much (`Props/Prelude`); utf16 uses the host byte order; utf8 with explicit zero bytes.
16. Chains of two transforms use the same order on both sides (`chained_transforms_do_not_round_trip`).
17. Two overlapping `blen` fields come out in the wrong order (`overlapping_lengths_out_of_order`); `blen` counts the bytes before transforms (`length_ignores_transforms`).
18. `container[len]`: the unused rest is neither skipped nor filled (`short_container_not_skipped`, `short_container_not_filled`).
19. Arrays: wrong counts panic or truncate (`wrong_count_panics`, `longer_array_truncated`), `[..]` drops an incomplete last element (`unbounded_drops_tail`), `[..e]` loops forever or accepts a missing terminator (`terminated_array_diverges`, `missing_terminator_accepted`).
20. Tagged enums: no matching arm is no error when encoding (`no_arm_writes_nothing`), supplied values of calculated fields leak (`tagged_calculated_leaks`).
21. Accepted sources on which code generation panics: `len` of a container (`len_container_finding`), `sum` of a non-array (`sum_scalar_finding`), `blen` of a non-field (`blen_literal_finding`), an integer used as a bitfield (`cast_to_bitfield_finding`), a container parameter (`container_parameter_finding`), a conditional container of paddings only (`conditional_paddings_finding`), enum values without a constant value (`enum_value_finding`); `type a = a` never returns (`self_reference_finding`).
22. The example specification `examples/nbtview/spec/nbt.pspec` is rejected for three reasons (`shipped_example_finding`, `shipped_example_length_finding`, `shipped_example_type_finding`).
23. Not in a theorem: `resolved_autos` is keyed by field for the whole generator; aliased imports are emitted under two names; `compile_spec` uses `NullImportResolver`; the gzip encoder moves its writer; a cast to a sized array type never type checks because spans are compared; derived equality of recursive types recurses forever.
24. An alternative of a tagged enum may refer to an earlier alternative; the generators panic on it (`arm_reference_finding`). A reference to a field `_padN` that was lost to a padding likewise (`pad_reference_finding`).
25. Accepted specifications from which code comes out that rustc rejects: nested conditions (`nested_condition_finding`), arrays of an alias of a primitive or enum (`alias_array_finding`), a field whose type is an alias used as a number (`alias_length_finding`), a field that may be absent used as a number (`conditional_reference_finding`), `?:` with a conversion (`elvis_conversion_finding`), calculated fields inside conditional containers (`conditional_calculated_finding`), `blen` of a conditional container (`conditional_length_finding`).
26. `t_count * size_of` in the array decoders is unchecked: in a release build an array of 2^61 `u64` elements decodes as an empty array without reading anything (`array_count_wraps`); counts from 2^63 bytes on panic in `Vec::with_capacity` / `vec![0; n]` (a panic that any peer can cause if the count comes from a 64-bit field).
27. Inputs that panic or never end: counts from 2^63 on, overflow in builds with overflow checks, division by a decoded zero, unbounded arrays of types that read nothing, a missing terminator of two bytes (`hostile_input_findings`); a type that contains itself before anything is read, or behind a transform that grows its input, overflows every stack (`endless_recursion_finding`, `bomb_finding`).
28. A terminator of two bytes that lies on the end of the reader's buffer is never seen: the decoder hangs on a complete and correct message (`cut_terminator_finding`). Truncated messages that are accepted: `[..]` inside `container[n]`, a missing terminator, a missing zero byte of `utf8` (`truncated_findings`, `nul_string_truncated_finding`).
29. `EndStream` emits `flush()?; drop(stream)`: what a transform writes in its destructor (the gzip trailer) may fail without anybody noticing, the encoder returns `Ok` (`lost_trailer_finding`); the async gzip writer writes no trailer when dropped, so `encode_async` leaves it out (`async_trailer_finding`). `flate2::read::GzDecoder` reads ahead, so fields behind a gzip field are lost in `decode_sync` (`overread_finding`). With `include_async`, `base64` makes the generator panic.
30. Parameters are emitted under their own names into functions with variables `r_0`, `r_1`, .., `r_len`, `r`, `buf`, `big_scratch`: a parameter called `r_len` is silently replaced by the number of bytes left in the decoder of an unbounded array, so that what the encoder writes is decoded as another value (`captured_parameter_finding`); `r_0` by the first field (`register_parameter_finding`); a parameter called `reader` or `writer`, or two of one name, gives code that rustc rejects (`reader_parameter_finding`).
31. Different inputs that are decoded to the same value (`lossy_findings`, `varint_lossy_finding`): every non-zero byte is `true`; the bytes of a padding are not checked; a terminator may be missing at the end of the input; incomplete elements at the end of `T[..]` are dropped without an error; variable-length integers may be written with superfluous bytes. A decoder in front of a signature check or a cache key must not assume otherwise.
32. Messages that are decoded without an error but cannot be written again (`forth_findings`): the encoder of a container with a length reserves that many bytes (`Vec::with_capacity`), the decoder only limits its reader: a 64-bit length from 2^63 on decodes and then panics in the encoder; the values read for calculated fields are not compared with what they should be, and others are written.
33. A reader that fails while half of a terminator of two bytes is buffered: the decoder spins forever instead of returning the error (`half_terminator_finding`). An array ended by the empty string asks the reader for a byte before it finds its terminator (`empty_terminator_fails`). `fill_buf` is called without a retry on `ErrorKind::Interrupted`, unlike `read_exact` and `read_to_end`, so a signal may abort a terminated array (read from the code, not modelled).
34. `impl Not` of a generated bitfield type complements all bits of the representation, also those that belong to no flag: `!Flags::A` is encoded without an error into bytes that the decoder refuses (`complement_finding`).
35. No generated type is put into a `Box`: a specification in which a type holds itself in a conditional field, or two types hold each other, is accepted and gives declarations that rustc refuses with E0072 (`unsized_findings`).
36. A field behind a field with a `gzip` transform makes a decoder that rustc refuses: `GzDecoder::new(reader)` moves `reader` (`transform_must_be_last`, `reader_findings`); all tests of the repository have the transform on the last field. References, arrays up to a terminator and zero-terminated strings in a field with a transform are refused as well, since the transformed readers are no `BufRead`; behind a conditional transform the reader is a `&mut dyn Read`, which no `decode_sync` accepts.
37. A type that refers to itself inside a container with a length, or behind a transform, gives decoders whose instantiation does not end (`instance_findings`); so the type of `bomb_finding` (27) is not compiled by rustc with the transforms of the prelude.
38. Two transforms at one field (`-> gzip -> base64`), a reference to a type right behind a transform (`h: header -> gzip`), and any field behind a field with a `gzip` or `base64` transform outside of a container with a length are accepted and give encoders that rustc refuses (`sink_findings`): the streams are values that are moved into one another and flushed afterwards; `encode_sync` is given a value where it needs a `&mut W`; `writer` has been moved.
39. `Options::default()` derives `Eq` for all types, `CompileOptions::default()` does not: with the default options of `compile_spec` a specification with any `f32` or `f64` field is refused by rustc (`traits_findings`, `default_options_accepted_iff`). An enum whose only item is `default` gets an `impl Default` that names a function; bitfields compare themselves but do not ask for `PartialEq`, although they ask for `Copy`.
40. The default value of a type with an array of fixed length makes its encoder panic, that of a container with a conditional field may be refused (`default_wire_findings`).

41. Encoders of accepted specifications panic on values of the declared type: overflow in a calculated field, a stored container length or padding from 2^63 on, a division by a stored zero in a condition, an array whose length is not its count (`encoder_panic_findings`).

42. Names are emitted as they are. Rust's words as names (`rust_word_finding`), a tuple struct `value`, a type called like an import or a generic of the header (`Result`, `mem`, `R`; `taken_type_finding`), a parameter called like a tuple struct, two parameters or two fields (also in different containers of one container) of one name, flags such as `all` or `ready` beside `set_ready` (`shadowing_finding`, `one_list_finding`), and imports that leave out the types that the imported type is made of (`import_finding`): accepted, and rustc refuses the code.

43. A type with a default value for a parameter cannot be used by another type of the specification: `b = a` and `b = a(2u8)` for `type a(n: u8 ? 4u8)` are accepted, but the generated call passes no argument, or a plain `u8`, where an `Option<u8>` is expected (`default_called_finding`). A default value that mentions its own parameter (`n: u8 ? n`) or a constant is accepted; the code uses an `Option` in arithmetic, or a name that is not defined (`default_value_finding`).

44. `rustfmt` in `lib.rs` prints whatever rustfmt wrote to stdout and does not look at its exit status. If rustfmt refuses the generated code (a type called `fn`, see 42), `compile_spec` writes an empty file over the old one and returns `Ok` (`format_failure_finding`); the user then sees that types are missing, not why.
