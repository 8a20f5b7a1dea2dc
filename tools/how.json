{
 "C01": "two's complement byte lists; induction on the width. number_types starts at the names of the types in a specification and ends at the bytes (table of all number types, checked by the kernel, plus the general theorems)",
 "C02": "generator + interpreter refine `encDecl` (simulation by induction on the type); `encDecl` = `wire` in declaration order (induction on the items)",
 "C03": "generator + interpreter refine `specDecode`; simulation by induction on the type",
 "C04": "`Reads` predicate for every construct, induction on the schema depth, through C02 and C03",
 "C05": "locality lemma by induction on the specification, through C03",
 "C06": "corollaries of the refinements",
 "C07": "corollaries of the refinements",
 "C08": "corollary of C02's order theorem",
 "C09": "corollary of C02's order theorem",
 "C10": "concrete violation; order theorem for one waiting field",
 "C11": "invariant of the window reader",
 "C12": "corollary of C03 and a concrete violation",
 "C13": "induction on the element count",
 "C14": "induction on the input length",
 "C15": "induction on the elements; divergence by fuel monotonicity",
 "C16": "corollaries of the refinements",
 "C17": "decision tables over arbitrary item lists",
 "C18": "induction on the item list",
 "C19": "induction on the item list",
 "C20": "bitwise reasoning",
 "C21": "exact characterisation of the decoder",
 "C22": "strong induction on the value",
 "C23": "valid UTF-8 lemmas of the core library",
 "C24": "induction on code units",
 "C25": "arithmetic",
 "C26": "strong induction on the remaining input",
 "C27": "induction on the literal",
 "C28": "lexeme locality",
 "C29": "induction on the token list",
 "C30": "position invariant along the token list",
 "C31": "print/parse round trip, mutual induction on trees",
 "C32": "grammar soundness and completeness",
 "C33": "rank argument for termination; grammar equivalence",
 "C34": "arithmetic on (kind, value) pairs; induction on expressions",
 "C35": "induction on digits",
 "C36": "finite tables of the 10 kinds, all values",
 "C37": "case analysis on types",
 "C38": "mutual induction on expressions. Which types may stand for which is stated as a relation over kinds of types (Props/Casts.lean), the types of expressions as typing rules (Props/ExprTypes.lean), both proved equivalent to the modelled functions",
 "C39": "mutual induction on expressions against `Means`",
 "C40": "corollaries of C49 What Type::name and value.name stand for is stated as an equivalence with a relation between types, names and items (Props/Members.lean).",
 "C41": "mutual induction on types, both directions",
 "C42": "list lemmas on parameters",
 "C43": "list lemmas on parameters",
 "C44": "visited-set induction on the import graph",
 "C45": "induction on the import list",
 "C46": "visited-set search, induction on unvisited fields",
 "C47": "sorting lemmas",
 "C48": "induction on elements For which expressions code is generated at all, and with which size, is stated as equivalences (Props/Emits.lean).",
 "C49": "relational specification `Elab…`; mutual induction on the syntax, then on the passes",
 "C50": "relational specification `Placed…`, both directions",
 "C51": "relational specification `Typed…`; mutual induction on the syntax, then on the passes",
 "C52": "Sem/Lower.lean is the view the generators have of the semantic graph, every unwrap/unimplemented as a fault. generator_shapes_partial: source text -> parse (SpeltDecl from writable_iff_parsed) -> convert (ElabDecl from names_resolved_lexically, PlacedDecl from C50) -> induction over the declared type: no `shape` fault, and enough fuel. Findings are concrete accepted sources evaluated by the kernel.",
 "C53": "Sem/Closed.lean: invariant WfHeap/WfProg (every index below the size of the graph, named values without field references) kept by every function of the conversion (Tight/Solid/Keeps/Grows); Props/Closed.lean states it with functions that collect what a graph names",
 "C54": "Lexical.lean is the specification over the generated declarations; Sem/History.lean: every type of a program stems from a declaration of a module's text (Made, by induction over module loading); Sem/Scoping.lean: lowering an elaborated declaration only mentions names in sight (Sight), by induction on the syntax; Props/Scope.lean combines them",
 "C55": "Props/EndToEnd.lean: references_in_scope_partial gives the Scoped hypothesis of decode_after_encode and encoded_in_order; the rest is the computable check schemaIn",
 "C56": "RustTypes.lean: declared Rust types and membership; DecodeTyped.lean: induction over the decoding specification, then decode_refines",
 "C57": "RustCheck.lean: typing of emitted expressions eTy and its soundness by induction on expressions; DecodeSafe.lean, EncodeSafe.lean: typing of decoders and encoders (the variables in scope and their types, statement by statement), induction over the specifications and on fuel, then decode_refines and encode_refines",
 "C58": "Says.lean: what the text says, as inductive relations; Sem/Origin: induction on the history of imports for where a name comes from; Sem/Grounded: every cell of the graph is the conversion of an item of some text; Sem/Saying: induction on the lowered expressions, types and items",
 "C59": "Bounds.lean: intervals of what emitted expressions give and their soundness, by induction on expressions; Survive.lean: the check, and well-founded induction on (stage, length of the input, rank) over the decoding specification, then decode_refines",
 "C60": "Schedule.lean: a second machine whose fill_buf shows as much as a schedule, indexed by the path of calls, allows; simulation against DecodeVM by induction on fuel and programs",
 "C61": "Delimited.lean: the check, and stability (a successful run is the same run with more input behind) of every function of the decoding specification, by induction on fuel and types; then decode_refines. Prelude types by induction on the input",
 "C62": "Writer.lean: a second encoder machine on a writer with limited room, whose faults keep the state; lockstep simulation against EncodeVM by induction on programs, and growth of what was written",
 "C63": "Uses.lean: encoding and decoding depend on the library only through the transforms the schema names, by induction on the specification functions; then encode_refines, decode_refines",
 "C64": "Hygiene.lean is a second semantics of the emitted code: parameters, constants and the variables of the generator live in one list of Rust scopes, looked up by name, innermost first (compiler/expr.rs 19-21, compiler/decoder.rs, compiler/encoder.rs). Proof: for names that are not the generator's, it agrees with the semantics of C02/C09 (induction over instructions); what expressions mention besides fields is a parameter or a constant of the source (from C58's relations).",
 "C65": "Lossless.lean defines the check lossless and proves, by induction over the types and over the nesting of calls, that a decoder of a type that passes it is injective on what it consumes (Keeps: same value, same bytes; with a variant for terminators that needs bytes to follow). Props/Lossless carries it over to the emitted code with decode_refines, derives the statements about messages, and combines it with C04 for forwarding. The strings of the prelude are proved to keep.",
 "C66": "Forth.lean defines the check forth on top of lossless and proves, by simultaneous recursion over the items that the decoder and the encoder run through (in the order of the encoder's plan), that the encoder applied to what the decoder returned succeeds and writes the consumed prefix (Back); both environments agree on the fields that expressions may use (Sub). Props/Forth carries it over to the emitted code with decode_refines and encode_refines. The strings of the prelude are proved to satisfy the hypothesis about foreign types.",
 "C67": "Fail.lean runs the emitted instruction lists on a reader that has some bytes and then fails: read_to_end is an error, fill_buf is one if nothing is buffered, take(n) does not reach what lies behind n bytes. A simulation (Beside, OutRel) between this machine and the machine of DecodeVM on the same bytes with any continuation, by induction over the code, gives both directions: Ok on the left is the same Ok on the right with the continuation untouched, and an error on the left means that the right one reads into the continuation or fails too (Shr: nothing is ever put back). That a failure directly behind the message does not matter needs terminators that are not empty: fullTerminators, followed into the code as a check (Prog.full) that a literal is assigned in front of every such loop; loopTerm_ends says that such a loop ends behind a terminator or where its window ends.",
 "C68": "Flags.lean is a small language of programs over a generated bitfield type (constants, from_repr on decoded values, setters, operators), interpreted with the operations of Repr.lean (compiler/mod.rs 606-731). Proof by induction over programs of the invariant that every bit belongs to a flag, which is what the decoder checks; the getters by induction over the history of setter calls.",
 "C69": "Sizes.lean gives the layout rule of rustc as an inductive predicate over the types written in the generated declarations (Vec is a pointer, Option and struct fields are in place), the relation of holding a value in place, and a decision procedure by rounds. Proof: sized implies accessible, accessible implies no cycle; no cycle implies the rounds find everything, by the pigeonhole principle on paths.",
 "C70": "Readers.lean types the reader variables of the emitted instruction lists (own parameter, Take, what a transform makes, dyn Read, Cursor), with Rust's rules for blocks and moves, and collects what the code asks of each variable; the same is said about the specification by recursion over it (wants). Proof: both agree, by induction over the generator, with an invariant about which variables are older than the register counter; the sufficient and the necessary condition by induction over the items.",
 "C71": "Instances.lean: the instances needed are a least fixed point over the calls found in C70. Proof of finiteness: the number of types reachable over calls that pass on the caller's reader decreases with every call that makes a larger type of it, so sizes are bounded; conversely a cycle with such a call gives instances of every size. Reachability is decided in as many rounds as there are types (pigeonhole).",
 "C72": "Sinks.lean types the writer variables of the emitted encoder instructions (own parameter, Vec, what a transform makes, dyn Write), with moves, loans that end when a stream is dropped, and Rust's rules where branches and breaks meet; it collects what the code asks of each variable. The same is said about the specification by recursion over it, with the plan of waiting fields of C26; genDecl_asked proves both equal. Positive and negative theorems follow from the specification side.",
 "C73": "Induction over the calls found in C72: a call that rustc accepts passes on the own writer or a buffer.",
 "C74": "derivesOf models the derive lists per kind of declaration, hasTrait the impls of the standard library over the written Rust types, traitsOk what rustc asks. Case analysis on kinds and induction over written types give the characterisation traits_accepted_iff, stated with WrittenIn (a type is written somewhere) only.",
 "C75": "IsDefault is a relation with one rule per derive or impl; existence by induction over Sized (C69), uniqueness and membership (Belongs, C56) by induction over IsDefault; C57 then gives the encoders.",
 "C76": "encSurvives is C57's check of encoders plus the bounds of C59 on expressions; soundness by induction over the encoder's specification with the invariant that variables hold values in range and of smaller depth, and over the depth of the value for calls; C02's refinement carries it to the generated code.",
 "C77": "rustModule collects, template by template, which names the module declares, binds and takes from elsewhere; NamesKept is Rust's rules. Case analysis on templates and induction over the generated programs show that the generator's own names are in two fixed lists; what acceptance guarantees is read off the tokens (every name is a word of the lexer's) and the relations of C58. That mentioned types are declared: the generators mention only what the declarations mention (induction over both generators), and those mention only what the text declares (induction over C58's relations).",
 "C78": "Entry is a declaration with its default values, fillArgs the let statements at the top of the generated functions; FilledIn specifies without them which values the parameters get. Induction over the parameters with the invariant that the variables hold the values so far; the text's default values are followed through conversion and lowering with the relations of C58.",
 "C79": "compile_spec is a function of the text, the name, the options and a world (OUT_DIR, rustfmt, file system), built on the models of the parser and the converter with the resolver it hands over; GoesWell states what must go well, Target the path. Induction over the declarations for imports and foreign items."
}