{"id": "C01", "title": "Fixed-width scalars survive the wire", "statement": "For every integer width, signedness and endianness, encoding any in-range value writes exactly `size` bytes in the declared byte order, and decoding those bytes followed by anything yields the same value and leaves the following bytes unread.", "quantifier": "all 10 scalar types, both endians, every in-range value, every trailing byte sequence", "why_tests_cant": "2^128 values per type; tests sample a handful", "anchors": ["protospec-build/src/compiler/encoder.rs EncodePrimitive", "protospec-build/src/compiler/decoder.rs DecodePrimitive", "protospec-build/src/ast/types/scalar.rs ScalarType::size"]}
{"id": "C02", "title": "A generated encoder writes fields in declaration order", "statement": "For every type declaration (containers nested to any depth, arrays, references, conditions, transforms, calculated fields without overlapping blen) the instruction program the compiler generates, when run, writes exactly the concatenation of the field encodings in declaration order, or fails exactly when the specification fails.", "quantifier": "all well-scoped declarations, all values, all inputs", "why_tests_cant": "the space of declarations is infinite; tests compile a few dozen specs", "anchors": ["protospec-build/src/coder/encode/*", "protospec-build/src/compiler/encoder.rs EncoderContext::prepare_encode"]}
{"id": "C03", "title": "A generated decoder reads fields in declaration order", "statement": "For every type declaration in the modelled fragment, the generated decoder program run on any byte string behaves exactly as reading the fields one after the other in declaration order: same value, same unread remainder, same error.", "quantifier": "all well-scoped declarations, all byte strings", "why_tests_cant": "infinite space of declarations and inputs", "anchors": ["protospec-build/src/coder/decode/*", "protospec-build/src/compiler/decoder.rs prepare_decode"]}
{"id": "C04", "title": "decode after encode is the identity", "statement": "If encoding a value succeeds with bytes b, then decoding b followed by any trailing bytes returns that value (calculated fields replaced by their computed value) and leaves exactly the trailing bytes (for a type that ends in T[..] or a stream transform, only when nothing follows). This holds for every schema of nested, conditional, array, tagged, enum and bitfield declarations with at most one invertible transform per item, at most one length field waiting at a time, no condition or calculation inside a conditional container, and values within their declared types and lengths.", "quantifier": "all declarations of the fragment, all values, all trailing bytes", "why_tests_cant": "tests round-trip literal values of fixed specs", "anchors": ["protospec-build/src/compiler/mod.rs prepare_impls", "protospec-build/src/coder/encode/field.rs", "protospec-build/src/coder/decode/field.rs"]}
{"id": "C05", "title": "Decoders read only what they need", "statement": "If a decoder of a prefix type succeeds on input i leaving r, then i = consumed ++ r and it succeeds with the same value on consumed ++ r' for every r'.", "quantifier": "all prefix types, all inputs, all replacement tails", "why_tests_cant": "quantifies over all continuations of the stream", "anchors": ["protospec-build/src/compiler/decoder.rs prepare_decode"]}
{"id": "C06", "title": "Conditional fields are present exactly when the condition holds", "statement": "Encoding a field with a false condition writes nothing whatever the field holds; with a true condition and an absent value it is an error, with a present value the bytes are those of the unconditional field. Decoding yields absent and reads nothing when false, present otherwise.", "quantifier": "all conditions, all field types, all values", "why_tests_cant": "depends on every combination of flag values and options", "anchors": ["protospec-build/src/coder/encode/field.rs encode_field, encode_field_unconditional", "protospec-build/src/coder/decode/field.rs decode_field", "protospec-build/src/compiler/encoder.rs NullCheck"]}
{"id": "C07", "title": "Tagged enums pick the first matching arm", "statement": "Decoding a tagged_enum container uses the first arm in declaration order whose condition holds and no other; if none holds decoding is an error. Encoding checks that the value is that same arm, otherwise it is an error.", "quantifier": "all arm lists, all discriminants", "why_tests_cant": "number of arms and conditions is unbounded", "anchors": ["protospec-build/src/coder/decode/container.rs decode_enum_container", "protospec-build/src/coder/encode/container.rs encode_container"]}
{"id": "C08", "title": "Calculated fields ignore the supplied value", "statement": "The bytes produced by an encoder do not depend on the value stored by the user in a calculated field; the field on the wire is the value of its expression.", "quantifier": "all containers with calculated fields, all pairs of values that differ only there", "why_tests_cant": "relational property over two executions", "anchors": ["protospec-build/src/coder/encode/container.rs encode_container_refs, encode_container_calculated"]}
{"id": "C09", "title": "blen writes the byte length of its target", "statement": "A calculated field using blen(x) is written before x with the number of bytes x occupies on the wire, even though x is encoded later, and everything between them keeps its place.", "quantifier": "all containers with one pending blen field at a time, all values", "why_tests_cant": "value depends on arbitrary nested content", "anchors": ["protospec-build/src/coder/encode/container.rs encode_container_items, eval_blen_expr"]}
{"id": "C10", "title": "Several blen fields pending at once keep declaration order", "statement": "When two length fields are both waiting for their targets the fields still appear on the wire in declaration order.", "quantifier": "all containers with overlapping blen ranges", "why_tests_cant": "needs the right interleaving of pending fields", "anchors": ["protospec-build/src/coder/encode/container.rs 142-163"]}
{"id": "C11", "title": "A length-constrained container never reads past its length", "statement": "Decoding container[len] never consumes more than len bytes of the enclosing stream, and fields inside never see bytes after the limit.", "quantifier": "all lengths, contents and streams", "why_tests_cant": "holds for every malformed input", "anchors": ["protospec-build/src/coder/decode/container.rs decode_container", "protospec-build/src/compiler/decoder.rs Constrict"]}
{"id": "C12", "title": "A length-constrained container consumes exactly its length", "statement": "After decoding container[len] the next field is read from the byte following the container, even when the fields inside used fewer than len bytes; and the encoder emits exactly len bytes for it.", "quantifier": "all lengths and contents", "why_tests_cant": "quantifies over all mismatching lengths", "anchors": ["protospec-build/src/coder/decode/container.rs decode_container", "protospec-build/src/compiler/encoder.rs AllocBuf"]}
{"id": "C13", "title": "Fixed-length arrays hold exactly the declared number of elements", "statement": "Encoding an array[n] whose value does not have n elements never silently writes a different number of elements; decoding yields exactly n elements in order.", "quantifier": "all n, element types and values", "why_tests_cant": "all lengths", "anchors": ["protospec-build/src/coder/encode/array.rs", "protospec-build/src/compiler/encoder.rs EncodePrimitiveArray, Loop", "protospec-build/src/coder/decode/array.rs"]}
{"id": "C14", "title": "Unbounded arrays consume everything or fail", "statement": "T[..] consumes all remaining bytes of its stream; if the bytes are not a whole number of elements decoding is an error.", "quantifier": "all remaining inputs", "why_tests_cant": "all input lengths", "anchors": ["protospec-build/src/compiler/decoder.rs DecodePrimitiveArray, Loop"]}
{"id": "C15", "title": "Terminated arrays round trip and stop at the terminator", "statement": "Decoding T[..\"X\"] returns the elements before the first position at which the terminator appears at an element boundary, consumes the terminator, and always terminates.", "quantifier": "all inputs, terminators, element types", "why_tests_cant": "all byte strings, termination", "anchors": ["protospec-build/src/compiler/decoder.rs Loop", "protospec-build/src/coder/encode/array.rs"]}
{"id": "C16", "title": "Transforms compose so that decoding inverts encoding", "statement": "For a field with transforms T1..Tn, encoding applies them left to right and decoding undoes them right to left, so a chain of individually invertible transforms round-trips.", "quantifier": "all chains of transforms, all data", "why_tests_cant": "all chains", "anchors": ["protospec-build/src/coder/encode/field.rs encode_field_unconditional", "protospec-build/src/coder/decode/field.rs decode_field_unconditional"]}
{"id": "C17", "title": "Enum wire values convert back and forth", "statement": "to_repr(from_repr(x)) = x whenever from_repr accepts x; without a default variant from_repr accepts exactly the declared values; with a default it accepts every value; from_repr(to_repr(v)) = v for every named variant with a distinct value.", "quantifier": "all enum declarations, all wire values", "why_tests_cant": "all wire values up to 2^128", "anchors": ["protospec-build/src/compiler/mod.rs generate_enum"]}
{"id": "C18", "title": "Implicit enum values continue from the last explicit one", "statement": "The k-th variant after the last explicit value e has value e + k, or compilation fails because it does not fit.", "quantifier": "all variant lists", "why_tests_cant": "all list shapes", "anchors": ["protospec-build/src/semantics/convert/type_/enum_.rs convert_enum_type"]}
{"id": "C19", "title": "Implicit bitfield flags shift from the last explicit one", "statement": "The k-th flag after the last explicit value e has value e << k in the representation type.", "quantifier": "all flag lists", "why_tests_cant": "all list shapes", "anchors": ["protospec-build/src/semantics/convert/type_/bitfield.rs convert_bitfield_type"]}
{"id": "C20", "title": "Bitfield values accept exactly the declared bits", "statement": "from_repr accepts x iff x has no bit outside the union of the declared flags; getters report flag membership; setting a flag makes its getter true, changes no getter of a disjoint flag, and keeps acceptance.", "quantifier": "all flag sets, all repr values", "why_tests_cant": "all 2^128 values", "anchors": ["protospec-build/src/compiler/mod.rs generate_bitfield"]}
{"id": "C21", "title": "Variable-length integers round trip", "statement": "Decoding the encoding of any value of the declared width gives it back.", "quantifier": "all values of v8..v128", "why_tests_cant": "all 2^128 values", "anchors": ["protospec-build/src/prelude/var.rs"]}
{"id": "C22", "title": "Variable-length integer encoding is minimal LEB128", "statement": "The encoder writes the little-endian base-128 digits of the unsigned value, continuation bit on all but the last byte, with no superfluous trailing zero group.", "quantifier": "all values", "why_tests_cant": "all 2^128 values", "anchors": ["protospec-build/src/prelude/var.rs encoding_gen"]}
{"id": "C23", "title": "utf8 strings round trip", "statement": "A NUL-terminated utf8 field gives back the string written; a length-prefixed one gives back the string when the length argument equals its byte length.", "quantifier": "all byte strings / lengths", "why_tests_cant": "all strings", "anchors": ["protospec-build/src/prelude/utf8.rs"]}
{"id": "C24", "title": "utf16 strings round trip", "statement": "A utf16 field with the right unit count gives back the units written.", "quantifier": "all unit sequences, host endianness", "why_tests_cant": "all strings; depends on the host", "anchors": ["protospec-build/src/prelude/utf16.rs"]}
{"id": "C25", "title": "pad aligns", "statement": "base + pad(p, base) is the least multiple of p that is at least base, for every p > 0.", "quantifier": "all bases, all p > 0", "why_tests_cant": "all 2^128 pairs", "anchors": ["protospec-build/src/prelude/pad.rs"]}
{"id": "C26", "title": "The tokenizer is total and loses nothing", "statement": "tokenize terminates on every input with tokens or an error (never a panic); on success every non-whitespace character of the input is covered by exactly one token, in order.", "quantifier": "all input strings", "why_tests_cant": "all strings", "anchors": ["protospec-build/src/tokenizer.rs tokenize, Token::gobble"]}
{"id": "C27", "title": "String literals denote their escaped bytes", "statement": "Within a string literal `\\XY` with two hex digits denotes the byte 0xXY; ordinary characters denote themselves.", "quantifier": "all literals", "why_tests_cant": "all strings", "anchors": ["protospec-build/src/tokenizer.rs Token::gobble"]}
{"id": "C28", "title": "Comments and whitespace do not matter", "statement": "Tokenizing with comment stripping gives the same tokens (ignoring positions) as tokenizing with comments kept and dropping comment tokens; adding whitespace between tokens changes nothing but positions.", "quantifier": "all inputs", "why_tests_cant": "all strings", "anchors": ["protospec-build/src/tokenizer.rs tokenize", "protospec-build/src/parser/token_iter.rs"]}
{"id": "C29", "title": "Printing then tokenizing is the identity", "statement": "For every list of tokens, writing their texts separated by spaces and tokenizing yields the same tokens.", "quantifier": "all token lists", "why_tests_cant": "all lists", "anchors": ["protospec-build/src/tokenizer.rs Display for Token"]}
{"id": "C30", "title": "Source positions are exact", "statement": "Every token span gives the line and the column range of the token text.", "quantifier": "all inputs", "why_tests_cant": "all strings", "anchors": ["protospec-build/src/tokenizer.rs tokenize", "protospec-build/src/tokenizer.rs Span"]}
{"id": "C31", "title": "Expression syntax: precedence and associativity", "statement": "For every expression tree, printing it with the minimal grammar-mandated parentheses and parsing gives back that tree: binary operators are left associative with the documented precedence order, prefix operators bind tighter than binary ones, postfix tighter than prefix.", "quantifier": "all expression trees", "why_tests_cant": "all trees", "anchors": ["protospec-build/src/parser/expression/*"]}
{"id": "C32", "title": "Programs parse back to themselves", "statement": "For every program (imports, ffi imports, consts, types with containers, enums, bitfields, arrays, fields, conditions, transforms, flags) the parser returns that program when given its tokens.", "quantifier": "all programs", "why_tests_cant": "all programs", "anchors": ["protospec-build/src/parser/*"]}
{"id": "C33", "title": "The parser always terminates and never panics", "statement": "parse on any token list returns a program or an error in finitely many steps and every successful sub-parse consumes a prefix of the tokens.", "quantifier": "all token lists", "why_tests_cant": "all lists", "anchors": ["protospec-build/src/parser/*", "protospec-build/src/parser/token_iter.rs"]}
{"id": "C34", "title": "Constant arithmetic is exact or refused", "statement": "If a constant expression evaluates, each arithmetic result is the exact mathematical result in the operand type; overflow, division by zero and oversized shifts never yield a value; operands of different kinds never combine.", "quantifier": "all constant expressions", "why_tests_cant": "all operand values", "anchors": ["protospec-build/src/asg/expression/const_int.rs", "protospec-build/src/compiler/expr.rs eval_const_expression"]}
{"id": "C35", "title": "Integer literals denote their value or are rejected", "statement": "A literal is accepted for type T exactly when its decimal or 0x value is in the range of T, and then denotes it.", "quantifier": "all literals, all 10 types", "why_tests_cant": "all strings", "anchors": ["protospec-build/src/asg/expression/const_int.rs ConstInt::parse", "protospec-build/src/semantics/convert/expression/int.rs"]}
{"id": "C36", "title": "Implicit widening never changes a value", "statement": "Whenever an integer type is implicitly convertible to another, every value of the first is representable in the second, and the relation is a partial order.", "quantifier": "all pairs of scalar types, all values", "why_tests_cant": "all values", "anchors": ["protospec-build/src/ast/types/scalar.rs can_implicit_cast_to"]}
{"id": "C37", "title": "Whatever converts implicitly also converts explicitly", "statement": "If a value of type A may be used where B is expected, `a :> B` is accepted too.", "quantifier": "all pairs of types", "why_tests_cant": "all types", "anchors": ["protospec-build/src/asg/types/mod.rs can_coerce_to, can_cast_to", "protospec-build/src/semantics/convert/expression/cast.rs"]}
{"id": "C38", "title": "Expressions get the type that was asked for", "statement": "If conversion of an expression against an expected type succeeds, the resulting expression has a type assignable to the expected type (an implicit cast is inserted when necessary).", "quantifier": "all expressions, scopes and expected types", "why_tests_cant": "all expressions", "anchors": ["protospec-build/src/semantics/convert/expression/*", "protospec-build/src/semantics/partial_type.rs"]}
{"id": "C39", "title": "The emitted expression computes what the expression means", "statement": "The Rust expression emitted for an expression evaluates to the value the expression denotes.", "quantifier": "all expressions, all field values", "why_tests_cant": "all expressions", "anchors": ["protospec-build/src/compiler/expr.rs emit_expression"]}
{"id": "C40", "title": "Name resolution is lexical", "statement": "A name in an expression refers to the innermost earlier field, else the innermost type argument, else the constant; a field never sees later siblings (except in calculated values); unresolved names are errors.", "quantifier": "all scope chains and names", "why_tests_cant": "all nestings", "anchors": ["protospec-build/src/semantics/resolve.rs", "protospec-build/src/semantics/convert/expression/var_ref.rs", "protospec-build/src/semantics/convert/type_/container.rs"]}
{"id": "C41", "title": "Duplicate declarations are rejected", "statement": "A program with two types, two constants, two variants, two flags or two sibling fields of one name (or a type named like a foreign or imported type) is rejected; a program without them, and without fields named _pad0, _pad1, ... (the names given to paddings), is never rejected as having a redefinition.", "quantifier": "all declaration lists", "why_tests_cant": "all lists", "anchors": ["protospec-build/src/semantics/convert/program/*", "protospec-build/src/semantics/convert/type_/*"]}
{"id": "C42", "title": "Type arguments are checked", "statement": "A reference to a type with parameters is accepted iff it supplies all required and at most all parameters.", "quantifier": "all parameter and argument lists", "why_tests_cant": "all lists", "anchors": ["protospec-build/src/semantics/convert/type_/type_ref.rs"]}
{"id": "C43", "title": "Function and transform arguments are checked", "statement": "A call supplying between the required and the total number of arguments is accepted; any other is an error, never a panic.", "quantifier": "all parameter and argument lists", "why_tests_cant": "all lists", "anchors": ["protospec-build/src/semantics/convert/ffi_arguments.rs"]}
{"id": "C44", "title": "Each module is loaded once and loading terminates", "statement": "Resolving imports loads every reachable module exactly once, however often it is imported, and terminates.", "quantifier": "all import graphs", "why_tests_cant": "all graphs incl. cyclic ones", "anchors": ["protospec-build/src/lib.rs", "protospec-build/src/import.rs", "protospec-build/src/semantics/convert/program/import.rs"]}
{"id": "C45", "title": "Imports bind the requested names", "statement": "After `import a as b from m`, b denotes m's a; a missing a is an error; nothing else is bound.", "quantifier": "all import lists and modules", "why_tests_cant": "all lists", "anchors": ["protospec-build/src/semantics/convert/program/import.rs"]}
{"id": "C46", "title": "Recursive types are flagged", "statement": "A type is marked cyclical iff it can reach a reference to itself.", "quantifier": "all programs", "why_tests_cant": "all type graphs", "anchors": ["protospec-build/src/asg/program.rs scan_cycles", "protospec-build/src/asg/types/mod.rs get_indirect_contained_fields"]}
{"id": "C47", "title": "Derive lists are canonical", "statement": "The emitted derive list is sorted, has no duplicates, contains exactly the requested and extra derives (without Default for enums), whatever the order of the options.", "quantifier": "all option lists", "why_tests_cant": "all lists", "anchors": ["protospec-build/src/compiler/mod.rs emit_struct_derives, emit_enum_derives"]}
{"id": "C48", "title": "bits, sum and len compute their definition", "statement": "bits counts one bits; sum is the sum of the elements or overflow; len is the element count for arrays and the byte size for fixed types.", "quantifier": "all inputs", "why_tests_cant": "all inputs", "anchors": ["protospec-build/src/prelude/bits.rs", "protospec-build/src/prelude/sum.rs", "protospec-build/src/prelude/len.rs"]}
{"id": "C49", "title": "The graph is the program with names resolved", "statement": "A successful conversion changes nothing about a program except that names become what they denote, integer texts become their values, variants without value get one, and expressions may be converted once to the expected type: every declaration has its type, its parameters and their defaults, its fields in order, each with its condition, transforms and calculated value.", "quantifier": "all syntax trees, environments and imported modules", "why_tests_cant": "all programs", "anchors": ["protospec-build/src/semantics/convert/program/mod.rs", "protospec-build/src/semantics/convert/type_/container.rs", "protospec-build/src/semantics/convert/field.rs"]}
{"id": "C50", "title": "Definitions stand only where they may", "statement": "In every accepted module enums and bitfields are written only as the whole right-hand side of a type declaration, containers only there and as the types of fields and type arguments (never inside arrays, casts or constants), tagged_enum containers only on the right-hand side of a declaration; fields carry no flags; a tagged enum has no paddings and no alternative after one without condition; nothing follows the default variant of an enum. Conversely a module that keeps to this is never rejected with one of the errors that say otherwise.", "quantifier": "all syntax trees, environments, imported modules", "why_tests_cant": "all programs, nesting depths and positions", "anchors": ["protospec-build/src/semantics/convert/type_/mod.rs", "protospec-build/src/semantics/convert/type_/container.rs", "protospec-build/src/semantics/convert/type_/enum_.rs", "protospec-build/src/semantics/convert/field.rs"]}
{"id": "C51", "title": "Every expression of an accepted program has the type its place asks for", "statement": "In every type of an accepted module, at any depth: conditions of fields and transforms are boolean, container lengths unsigned numbers, array lengths and paddings u64, terminators byte sequences, values of enums and bitfields fit the underlying type, calculated values and defaults fit the type of their field or parameter, arguments of types and transforms fit the parameters and are neither too few nor too many, values of constants fit the declared type.", "quantifier": "all syntax trees, environments, imported modules, all types, fields and expressions in them", "why_tests_cant": "all programs and nesting depths; the graph changes while expressions are checked", "anchors": ["protospec-build/src/semantics/convert/program/mod.rs", "protospec-build/src/semantics/convert/field.rs", "protospec-build/src/semantics/convert/type_/container.rs", "protospec-build/src/semantics/convert/type_/array.rs"]}
{"id": "C52", "title": "The code generators only meet what they expect", "statement": "For every accepted source and every type it declares, generating code for the type never runs into a case the generators take for impossible (an enum, bitfield, tagged enum or foreign type written in place, a container as an array element, an array without length, a padding without length or as an alternative of a tagged enum); so whatever source is accepted, code comes out, the generator does not panic and returns.", "quantifier": "all source texts, environments, imported modules and declared types, nested to any depth", "why_tests_cant": "all programs and nesting depths; the guarantee is established by the semantic pass and relied on by the generators", "anchors": ["protospec-build/src/coder/decode/mod.rs", "protospec-build/src/coder/encode/mod.rs", "protospec-build/src/compiler/mod.rs", "protospec-build/src/compiler/expr.rs", "protospec-build/src/semantics/convert/type_/container.rs"]}
{"id": "C53", "title": "An accepted program is self-contained and its named values are fixed", "statement": "Whatever program is accepted: every field that any of its types, expressions, containers or constants names is a field of the program, conversion never looks up one that does not exist, and the values of constants, enum variants and bitfield flags depend on no field, directly or through other constants.", "quantifier": "all syntax trees, environments, imported modules, all fields and expressions", "why_tests_cant": "all programs; fields are created and filled in while others refer to them", "anchors": ["protospec-build/src/semantics/convert/program/mod.rs", "protospec-build/src/semantics/convert/expression/mod.rs", "protospec-build/src/asg/mod.rs"]}
{"id": "C54", "title": "Generated code refers only to what is in scope", "statement": "Whatever program is accepted, in the code generated for all its types, own and imported: conditions, transforms, lengths and type arguments refer only to fields declared before in the same container or in an enclosing one; calculated values only to those and to fields of the same container; no field of a container is referred to from outside of it.", "quantifier": "all syntax trees, environments, chains of imports, types, nesting depths", "why_tests_cant": "all programs; scoping is resolved in the semantic pass and relied on by the generators, which look fields up by name", "anchors": ["protospec-build/src/semantics/convert/type_/container.rs", "protospec-build/src/semantics/convert/field.rs", "protospec-build/src/compiler/decoder.rs", "protospec-build/src/compiler/encoder.rs", "protospec-build/src/semantics/convert/program/import.rs"]}
{"id": "C55", "title": "From source text to bytes and back", "statement": "For every accepted specification, including the modules it imports, the decoder generated from it reads back every value that the encoder generated from it writes, leaving what follows, and the encoder writes the fields of containers in the order of the source.", "quantifier": "all specifications, imported modules, values, following bytes", "why_tests_cant": "all programs and all values at once: front end, lowering, both generators", "anchors": ["protospec-build/src/lib.rs", "protospec-build/src/semantics/convert/program/mod.rs", "protospec-build/src/coder/encode/container.rs", "protospec-build/src/coder/decode/container.rs"]}
{"id": "C56", "title": "A decoded value has the declared Rust type", "statement": "Whatever bytes are read, what a generated decoder returns is a value of the struct or enum that is generated for the type: the fields have the declared names, order and types, a conditional field is an Option, an enum or tagged enum is one of its variants, numbers are in the range of their type, to any depth.", "quantifier": "all schemas, foreign types, transforms, types, arguments, inputs", "why_tests_cant": "all schemas and inputs; declarations and decoders are generated by different passes that must agree", "anchors": ["protospec-build/src/compiler/mod.rs", "protospec-build/src/coder/decode/array.rs", "protospec-build/src/coder/decode/field.rs", "protospec-build/src/compiler/decoder.rs"]}
{"id": "C57", "title": "Generated code that keeps to the type rules never goes wrong", "statement": "If the expressions in the generated functions keep to Rust's type rules with the declared types of fields and parameters (conditions are bool, lengths and counts numbers, operands of one type, arguments those of the parameters), then no run of a generated function, whatever the input, value and arguments of the declared types, reads a variable that does not exist, uses a value as one of another type or calls a function with arguments it does not take.", "quantifier": "all schemas, foreign types, transforms, types, arguments, inputs", "why_tests_cant": "all schemas and inputs", "anchors": ["protospec-build/src/compiler/expr.rs", "protospec-build/src/compiler/decoder.rs", "protospec-build/src/compiler/encoder.rs", "protospec-build/src/coder/decode/container.rs", "protospec-build/src/coder/encode/container.rs"]}
{"id": "C58", "title": "Code is generated from exactly what the source says", "statement": "For every accepted specification, each generated declaration is what the declaration of that name in the text says, in the module where following imports leads, and each type the text declares is generated: items in the order of the text with their types, lengths, conditions, transforms and calculated values, variants and flags with their names and values, each name meaning the field, parameter, constant or type in view there.", "quantifier": "all syntax trees, environments, chains of imports, types, nesting depths, expressions", "why_tests_cant": "all programs; the semantic pass goes through a graph of shared mutable cells, cached imports, scopes and inserted conversions", "anchors": ["protospec-build/src/semantics/convert/program/mod.rs", "protospec-build/src/semantics/convert/field.rs", "protospec-build/src/semantics/convert/type_/container.rs", "protospec-build/src/semantics/convert/expression/mod.rs", "protospec-build/src/semantics/convert/program/import.rs", "protospec-build/src/coder/encode/mod.rs"]}
{"id": "C59", "title": "Decoders survive any input", "statement": "If the counts of a specification ask for less than 2^63 bytes, its arithmetic cannot leave the range of its types, nothing divides by what may be zero, the elements of its unbounded arrays read something, its terminators have one byte and its recursive references read something in between, then the generated decoder ends on every input, in a value or an Err: it does not panic, loop or overflow its stack, and calls nest no deeper than the input is long times a constant, or than the chain of references if nothing is recursive.", "quantifier": "all schemas, foreign types and transforms, types, arguments, inputs", "why_tests_cant": "all inputs a peer may send, of any length; termination needs a measure", "anchors": ["protospec-build/src/coder/decode/array.rs", "protospec-build/src/coder/decode/container.rs", "protospec-build/src/compiler/decoder.rs", "protospec-build/src/compiler/expr.rs", "protospec-build/src/compiler/mod.rs"]}
{"id": "C60", "title": "How the input arrives does not matter", "statement": "However a reader cuts the input into pieces, a generated decoder returns the same value and leaves the same bytes, or returns the same error, as on a reader that has everything at once; it never gives a different answer.", "quantifier": "all schemas, foreign types and transforms, types, arguments, inputs, ways of cutting the input", "why_tests_cant": "all ways a reader may deliver the input: schedules", "anchors": ["protospec-build/src/coder/decode/array.rs", "protospec-build/src/coder/decode/mod.rs", "protospec-build/src/compiler/decoder.rs"]}
{"id": "C61", "title": "Messages end where they say", "statement": "For types without unbounded or terminated arrays outside of transforms: what a decoder returns does not depend on the bytes behind the message and these are left unread, so messages put one behind the other are read one after the other; a truncated message is never accepted.", "quantifier": "all schemas, foreign types and transforms, types, arguments, inputs, points of truncation", "why_tests_cant": "all inputs and all points at which a connection may break", "anchors": ["protospec-build/src/coder/decode/array.rs", "protospec-build/src/coder/decode/container.rs", "protospec-build/src/coder/decode/mod.rs", "protospec-build/src/prelude/var.rs", "protospec-build/src/prelude/utf8.rs", "protospec-build/src/prelude/utf16.rs"]}
{"id": "C62", "title": "Writers that fail", "statement": "If the writer fails after any number of bytes, it has received exactly the beginning of the encoding, in order and without gaps, and the encoder returns the writer's error; if everything fits, it returns Ok; a value that cannot be encoded never gives Ok.", "quantifier": "all schemas, foreign types and transforms, types, arguments, values, points of failure of the writer", "why_tests_cant": "all crash points: after every byte, in nested calls, buffers and transforms", "anchors": ["protospec-build/src/compiler/encoder.rs", "protospec-build/src/coder/encode/field.rs", "protospec-build/src/coder/encode/container.rs"]}
{"id": "C63", "title": "The async functions do what the sync functions do", "statement": "encode_async writes what encode_sync writes, decode_async returns what decode_sync returns and leaves the same bytes.", "quantifier": "all schemas, foreign types, types, arguments, values, inputs", "why_tests_cant": "all schemas, values and inputs", "anchors": ["protospec-build/src/compiler/mod.rs", "protospec-build/src/prelude/gzip.rs", "protospec-build/src/prelude/mod.rs", "protospec-build/src/compiler/encoder.rs", "protospec-build/src/compiler/decoder.rs"]}
{"id": "C64", "title": "Parameters mean their arguments", "statement": "Wherever a parameter of a type is mentioned in a condition, a length, an argument or a value, in the generated encoder and decoder, it has the value the caller supplied; variables of the generated functions do not capture it. A constant likewise has its declared value.", "quantifier": "all schemas, foreign types and transforms, types, names of parameters and constants, arguments, values, inputs", "why_tests_cant": "all names a user may choose, at all places of a type", "anchors": ["protospec-build/src/compiler/expr.rs", "protospec-build/src/compiler/decoder.rs", "protospec-build/src/compiler/encoder.rs", "protospec-build/src/compiler/mod.rs"]}
{"id": "C65", "title": "Decoding loses nothing", "statement": "For types without bool fields, paddings and transforms, whose unbounded arrays have elements of one byte or of a self-delimiting type and whose terminated arrays are followed by something: two inputs from which a decoder gets values that a Rust program cannot tell apart begin with the same bytes, the ones it read. So different messages are different values, a changed byte shows, and encoding what was decoded gives the bytes that came.", "quantifier": "all schemas, foreign types, types, arguments, pairs of inputs", "why_tests_cant": "all pairs of inputs", "anchors": ["protospec-build/src/compiler/decoder.rs", "protospec-build/src/coder/decode/array.rs", "protospec-build/src/coder/decode/container.rs", "protospec-build/src/prelude/utf8.rs", "protospec-build/src/prelude/utf16.rs", "protospec-build/src/prelude/var.rs"]}
{"id": "C66", "title": "Encoding what was decoded gives the same bytes", "statement": "For types that lose nothing when decoded (C65) and have no calculated fields, no conditions inside containers with conditions, expressions only over earlier fields, and lengths of containers below 2^32: if a decoder accepts an input, the encoder accepts the value it returned and writes exactly the bytes that were read. So a program that reads messages and writes them again passes on the bytes it was sent. With arbitrary lengths the encoder may fail, but it writes nothing else.", "quantifier": "all schemas, foreign types, types, arguments, inputs, numbers of messages", "why_tests_cant": "all inputs and schemas", "anchors": ["protospec-build/src/compiler/decoder.rs", "protospec-build/src/compiler/encoder.rs", "protospec-build/src/coder/decode/mod.rs", "protospec-build/src/coder/encode/mod.rs"]}
{"id": "C67", "title": "A reader that fails is not mistaken for one that ends", "statement": "If a reader delivers some bytes and then fails, a decoder that returns a value returns what it would return whatever came instead of the failure; a message that the failure interrupts is never returned as a value, for any type, unbounded and terminated arrays and zero-terminated strings included; and a failure that lies behind the message does not keep the decoder from returning it.", "quantifier": "all schemas, foreign types and transforms, types, arguments, inputs, points of failure of the reader", "why_tests_cant": "all points at which a reader may fail", "anchors": ["protospec-build/src/coder/decode/array.rs", "protospec-build/src/coder/decode/mod.rs", "protospec-build/src/compiler/decoder.rs", "protospec-build/src/prelude/utf8.rs"]}
{"id": "C68", "title": "Bitfield values made with the functions of their type", "statement": "Whatever a program does with the constants, setters and the operators |, &, ^ of a generated bitfield type and with values it decoded, the result is encoded into bytes from which the decoder returns it; after any sequence of setter calls the getters say true exactly for what was set before or shares a bit with a flag that was set; getters of one-bit flags commute with the operators.", "quantifier": "all bitfield declarations, programs of constants, setters, operators and decodings, sequences of setter calls, values", "why_tests_cant": "all programs over a type, all histories of setter calls, all values of the representation", "anchors": ["protospec-build/src/compiler/mod.rs"]}
{"id": "C69", "title": "Generated types have a size", "statement": "rustc can compute the size of every generated struct and enum.", "quantifier": "all schemas and foreign types, all ways types may refer to each other", "why_tests_cant": "all graphs of references between types", "anchors": ["protospec-build/src/compiler/mod.rs"]}
{"id": "C70", "title": "Readers are asked only for what they can do", "statement": "The generated decoders use each of their reader variables only for what its type can do (a call and a search for a terminator need a BufRead, a call one of known size), and not after it has been given to a transform; so rustc accepts what they do with readers.", "quantifier": "all types, foreign types and transforms, all ways of nesting containers, arrays, conditions, transforms and references", "why_tests_cant": "all specifications; it depends on the types of variables in code that does not exist before the generator has run", "anchors": ["protospec-build/src/compiler/decoder.rs", "protospec-build/src/compiler/mod.rs", "protospec-build/src/coder/decode/field.rs", "protospec-build/src/coder/decode/container.rs", "protospec-build/src/prelude/gzip.rs", "protospec-build/src/prelude/base64.rs", "protospec-build/src/prelude/utf8.rs"]}
{"id": "C71", "title": "Decoders are compiled for finitely many reader types", "statement": "Whichever generated decoder a program calls with whatever reader, rustc needs finitely many copies of the generic decoders.", "quantifier": "all schemas, all graphs of references between types and readers they pass on", "why_tests_cant": "all graphs of references; the set of instances is a least fixed point", "anchors": ["protospec-build/src/compiler/mod.rs", "protospec-build/src/compiler/decoder.rs", "protospec-build/src/coder/decode/container.rs", "protospec-build/src/coder/decode/field.rs"]}
{"id": "C72", "title": "Writers are asked only for what they can do", "statement": "The generated encoders use each of their writer variables (the caller's writer, buffers for containers with a length and for fields that wait for lengths, the streams of transforms) only for what its type can do (a call of another encoder needs a reference to a writer of known size, a conditional transform a reference), and not while it is lent to a transform nor after it has been given to one; so rustc accepts what they do with writers.", "quantifier": "all types, foreign types and transforms, all ways of nesting containers, arrays, conditions, calculated fields, transforms, alternatives and references", "why_tests_cant": "all specifications; it depends on the types and the ownership of variables in code that does not exist before the generator has run", "anchors": ["protospec-build/src/compiler/encoder.rs", "protospec-build/src/compiler/mod.rs", "protospec-build/src/coder/encode/field.rs", "protospec-build/src/coder/encode/container.rs", "protospec-build/src/prelude/gzip.rs", "protospec-build/src/prelude/base64.rs"]}
{"id": "C73", "title": "Encoders are compiled for at most two writer types", "statement": "Whichever generated encoder a program calls with whatever writer, rustc needs each generic encoder at most for that type of writer and for Vec<u8>, however the types of the specification refer to one another, if it accepts the encoders at all.", "quantifier": "all schemas, all graphs of references between types, all calls", "why_tests_cant": "all graphs of references; the set of instances is a least fixed point", "anchors": ["protospec-build/src/compiler/mod.rs", "protospec-build/src/compiler/encoder.rs", "protospec-build/src/coder/encode/container.rs"]}
{"id": "C74", "title": "The traits that were asked for can be derived", "statement": "Every generated type has the traits that the options ask for, and rustc can derive them: whatever types a specification declares and in whatever way they hold each other, no derive and no impl Default of the generated module is refused.", "quantifier": "all specifications, all graphs of types, all lists of derives in the options", "why_tests_cant": "all specifications and options; whether a derive is accepted depends on all types reachable from the one it stands at", "anchors": ["protospec-build/src/lib.rs", "protospec-build/src/compiler/mod.rs"]}
{"id": "C75", "title": "Default values are values", "statement": "Default::default() of every generated type returns, and returns one value, which is one of the type: numbers in the range of their types, enums one of their items, bitfields only declared flags; the encoder of the type can be given it.", "quantifier": "all specifications, all graphs of types", "why_tests_cant": "all specifications; it is a recursion through all types that are held", "anchors": ["protospec-build/src/compiler/mod.rs"]}
{"id": "C76", "title": "Encoders survive any value", "statement": "A generated encoder given any value of the type and arguments of the declared types returns: bytes were written, or an Err is handed to the caller. It does not panic and does not overflow the stack, except that calls nest as deep as the value does.", "quantifier": "all specifications, all values of the generated types including recursive ones of any depth, all arguments", "why_tests_cant": "all values; overflows, divisions by zero, lengths from 2^63 on and wrong element counts sit at single values of large domains", "anchors": ["protospec-build/src/compiler/encoder.rs", "protospec-build/src/coder/encode/mod.rs", "protospec-build/src/coder/encode/container.rs", "protospec-build/src/coder/encode/field.rs"]}
{"id": "C77", "title": "Names do not get in each other's way", "statement": "Whatever names a specification that protospec accepts gives to its types, parameters, fields, alternatives, variants and flags, rustc accepts the generated module as far as names go: they are identifiers, nothing is declared twice, no variable has the name of a tuple struct, nothing hides what generated code takes from Rust's prelude, its own header or other crates, and every type that is mentioned is declared.", "quantifier": "all accepted specifications, all options", "why_tests_cant": "all names in all positions; clashes are between pairs of a name of the specification and one of dozens that the generator uses itself", "anchors": ["protospec-build/src/compiler/mod.rs", "protospec-build/src/compiler/decoder.rs", "protospec-build/src/compiler/encoder.rs", "protospec-build/src/compiler/expr.rs", "protospec-build/src/prelude/utf8.rs"]}
{"id": "C78", "title": "Parameters with default values", "statement": "A parameter of a type that has a default value may be left out when the type's encode and decode functions are called; the answer is then the one for the value of the default expression, computed from the parameters before it. Passing the value explicitly, or giving a type no default values, changes nothing else; other types of the specification may leave the parameter out too.", "quantifier": "all specifications with default values, all ways of leaving parameters out, all values and bytes", "why_tests_cant": "all specifications, default expressions, arguments and messages", "anchors": ["protospec-build/src/compiler/mod.rs", "protospec-build/src/semantics/convert/field.rs", "protospec-build/src/semantics/convert/type_/type_ref.rs", "protospec-build/src/parser/declaration/type_declaration.rs"]}
{"id": "C79", "title": "compile_spec writes the file or says why not", "statement": "compile_spec returns Ok exactly if the text is a specification that is accepted, code could be generated, and the code is then in the file name.rs in OUT_DIR; otherwise nothing is written. Whether a specification is refused depends on its text alone. A specification it takes has no imports and no foreign items but those of the prelude; asking for others is an error, not a panic.", "quantifier": "all texts, names, options, generated codes, environments", "why_tests_cant": "all texts and environments; a test sees one OUT_DIR and one rustfmt, which happens to succeed", "anchors": ["protospec-build/src/lib.rs", "protospec-build/src/import.rs", "protospec-build/src/prelude/resolver.rs"]}
