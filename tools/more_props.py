p("The graph is the program with names resolved",
  "A successful conversion changes nothing about a program except that names become what they denote, integer texts become their values, variants without value get one, and expressions may be converted once to the expected type: every declaration has its type, its parameters and their defaults, its fields in order, each with its condition, transforms and calculated value.",
  "all syntax trees, environments and imported modules", "all programs", ["protospec-build/src/semantics/convert/program/mod.rs","protospec-build/src/semantics/convert/type_/container.rs","protospec-build/src/semantics/convert/field.rs"])
p("Definitions stand only where they may",
  "In every accepted module enums and bitfields are written only as the whole right-hand side of a type declaration, containers only there and as the types of fields and type arguments (never inside arrays, casts or constants), tagged_enum containers only on the right-hand side of a declaration; fields carry no flags; a tagged enum has no paddings and no alternative after one without condition; nothing follows the default variant of an enum. Conversely a module that keeps to this is never rejected with one of the errors that say otherwise.",
  "all syntax trees, environments, imported modules", "all programs, nesting depths and positions", ["protospec-build/src/semantics/convert/type_/mod.rs","protospec-build/src/semantics/convert/type_/container.rs","protospec-build/src/semantics/convert/type_/enum_.rs","protospec-build/src/semantics/convert/field.rs"])
p("Every expression of an accepted program has the type its place asks for",
  "In every type of an accepted module, at any depth: conditions of fields and transforms are boolean, container lengths unsigned numbers, array lengths and paddings u64, terminators byte sequences, values of enums and bitfields fit the underlying type, calculated values and defaults fit the type of their field or parameter, arguments of types and transforms fit the parameters and are neither too few nor too many, values of constants fit the declared type.",
  "all syntax trees, environments, imported modules, all types, fields and expressions in them", "all programs and nesting depths; the graph changes while expressions are checked", ["protospec-build/src/semantics/convert/program/mod.rs","protospec-build/src/semantics/convert/field.rs","protospec-build/src/semantics/convert/type_/container.rs","protospec-build/src/semantics/convert/type_/array.rs"])
p("The code generators only meet what they expect",
  "For every accepted source and every type it declares, generating code for the type never runs into a case the generators take for impossible (an enum, bitfield, tagged enum or foreign type written in place, a container as an array element, an array without length, a padding without length or as an alternative of a tagged enum); so whatever source is accepted, code comes out, the generator does not panic and returns.",
  "all source texts, environments, imported modules and declared types, nested to any depth", "all programs and nesting depths; the guarantee is established by the semantic pass and relied on by the generators", ["protospec-build/src/coder/decode/mod.rs","protospec-build/src/coder/encode/mod.rs","protospec-build/src/compiler/mod.rs","protospec-build/src/compiler/expr.rs","protospec-build/src/semantics/convert/type_/container.rs"])
p("An accepted program is self-contained and its named values are fixed",
  "Whatever program is accepted: every field that any of its types, expressions, containers or constants names is a field of the program, conversion never looks up one that does not exist, and the values of constants, enum variants and bitfield flags depend on no field, directly or through other constants.",
  "all syntax trees, environments, imported modules, all fields and expressions", "all programs; fields are created and filled in while others refer to them", ["protospec-build/src/semantics/convert/program/mod.rs","protospec-build/src/semantics/convert/expression/mod.rs","protospec-build/src/asg/mod.rs"])
p("Generated code refers only to what is in scope",
  "Whatever program is accepted, in the code generated for all its types, own and imported: conditions, transforms, lengths and type arguments refer only to fields declared before in the same container or in an enclosing one; calculated values only to those and to fields of the same container; no field of a container is referred to from outside of it.",
  "all syntax trees, environments, chains of imports, types, nesting depths", "all programs; scoping is resolved in the semantic pass and relied on by the generators, which look fields up by name", ["protospec-build/src/semantics/convert/type_/container.rs","protospec-build/src/semantics/convert/field.rs","protospec-build/src/compiler/decoder.rs","protospec-build/src/compiler/encoder.rs","protospec-build/src/semantics/convert/program/import.rs"])
p("From source text to bytes and back",
  "For every accepted specification, including the modules it imports, the decoder generated from it reads back every value that the encoder generated from it writes, leaving what follows, and the encoder writes the fields of containers in the order of the source.",
  "all specifications, imported modules, values, following bytes", "all programs and all values at once: front end, lowering, both generators", ["protospec-build/src/lib.rs","protospec-build/src/semantics/convert/program/mod.rs","protospec-build/src/coder/encode/container.rs","protospec-build/src/coder/decode/container.rs"])

p("A decoded value has the declared Rust type",
  "Whatever bytes are read, what a generated decoder returns is a value of the struct or enum that is generated for the type: the fields have the declared names, order and types, a conditional field is an Option, an enum or tagged enum is one of its variants, numbers are in the range of their type, to any depth.",
  "all schemas, foreign types, transforms, types, arguments, inputs", "all schemas and inputs; declarations and decoders are generated by different passes that must agree", ["protospec-build/src/compiler/mod.rs","protospec-build/src/coder/decode/array.rs","protospec-build/src/coder/decode/field.rs","protospec-build/src/compiler/decoder.rs"])
p("Generated code that keeps to the type rules never goes wrong",
  "If the expressions in the generated functions keep to Rust's type rules with the declared types of fields and parameters (conditions are bool, lengths and counts numbers, operands of one type, arguments those of the parameters), then no run of a generated function, whatever the input, value and arguments of the declared types, reads a variable that does not exist, uses a value as one of another type or calls a function with arguments it does not take.",
  "all schemas, foreign types, transforms, types, arguments, inputs", "all schemas and inputs", ["protospec-build/src/compiler/expr.rs","protospec-build/src/compiler/decoder.rs","protospec-build/src/compiler/encoder.rs","protospec-build/src/coder/decode/container.rs","protospec-build/src/coder/encode/container.rs"])
p("Code is generated from exactly what the source says",
  "For every accepted specification, each generated declaration is what the declaration of that name in the text says, in the module where following imports leads, and each type the text declares is generated: items in the order of the text with their types, lengths, conditions, transforms and calculated values, variants and flags with their names and values, each name meaning the field, parameter, constant or type in view there.",
  "all syntax trees, environments, chains of imports, types, nesting depths, expressions", "all programs; the semantic pass goes through a graph of shared mutable cells, cached imports, scopes and inserted conversions", ["protospec-build/src/semantics/convert/program/mod.rs","protospec-build/src/semantics/convert/field.rs","protospec-build/src/semantics/convert/type_/container.rs","protospec-build/src/semantics/convert/expression/mod.rs","protospec-build/src/semantics/convert/program/import.rs","protospec-build/src/coder/encode/mod.rs"])
p("Decoders survive any input",
  "If the counts of a specification ask for less than 2^63 bytes, its arithmetic cannot leave the range of its types, nothing divides by what may be zero, the elements of its unbounded arrays read something, its terminators have one byte and its recursive references read something in between, then the generated decoder ends on every input, in a value or an Err: it does not panic, loop or overflow its stack, and calls nest no deeper than the input is long times a constant, or than the chain of references if nothing is recursive.",
  "all schemas, foreign types and transforms, types, arguments, inputs", "all inputs a peer may send, of any length; termination needs a measure", ["protospec-build/src/coder/decode/array.rs","protospec-build/src/coder/decode/container.rs","protospec-build/src/compiler/decoder.rs","protospec-build/src/compiler/expr.rs","protospec-build/src/compiler/mod.rs"])
p("How the input arrives does not matter",
  "However a reader cuts the input into pieces, a generated decoder returns the same value and leaves the same bytes, or returns the same error, as on a reader that has everything at once; it never gives a different answer.",
  "all schemas, foreign types and transforms, types, arguments, inputs, ways of cutting the input", "all ways a reader may deliver the input: schedules", ["protospec-build/src/coder/decode/array.rs","protospec-build/src/coder/decode/mod.rs","protospec-build/src/compiler/decoder.rs"])
p("Messages end where they say",
  "For types without unbounded or terminated arrays outside of transforms: what a decoder returns does not depend on the bytes behind the message and these are left unread, so messages put one behind the other are read one after the other; a truncated message is never accepted.",
  "all schemas, foreign types and transforms, types, arguments, inputs, points of truncation", "all inputs and all points at which a connection may break", ["protospec-build/src/coder/decode/array.rs","protospec-build/src/coder/decode/container.rs","protospec-build/src/coder/decode/mod.rs","protospec-build/src/prelude/var.rs","protospec-build/src/prelude/utf8.rs","protospec-build/src/prelude/utf16.rs"])
p("Writers that fail",
  "If the writer fails after any number of bytes, it has received exactly the beginning of the encoding, in order and without gaps, and the encoder returns the writer's error; if everything fits, it returns Ok; a value that cannot be encoded never gives Ok.",
  "all schemas, foreign types and transforms, types, arguments, values, points of failure of the writer", "all crash points: after every byte, in nested calls, buffers and transforms", ["protospec-build/src/compiler/encoder.rs","protospec-build/src/coder/encode/field.rs","protospec-build/src/coder/encode/container.rs"])
p("The async functions do what the sync functions do",
  "encode_async writes what encode_sync writes, decode_async returns what decode_sync returns and leaves the same bytes.",
  "all schemas, foreign types, types, arguments, values, inputs", "all schemas, values and inputs", ["protospec-build/src/compiler/mod.rs","protospec-build/src/prelude/gzip.rs","protospec-build/src/prelude/mod.rs","protospec-build/src/compiler/encoder.rs","protospec-build/src/compiler/decoder.rs"])
p("Parameters mean their arguments",
  "Wherever a parameter of a type is mentioned in a condition, a length, an argument or a value, in the generated encoder and decoder, it has the value the caller supplied; variables of the generated functions do not capture it. A constant likewise has its declared value.",
  "all schemas, foreign types and transforms, types, names of parameters and constants, arguments, values, inputs", "all names a user may choose, at all places of a type", ["protospec-build/src/compiler/expr.rs","protospec-build/src/compiler/decoder.rs","protospec-build/src/compiler/encoder.rs","protospec-build/src/compiler/mod.rs"])
p("Decoding loses nothing",
  "For types without bool fields, paddings and transforms, whose unbounded arrays have elements of one byte or of a self-delimiting type and whose terminated arrays are followed by something: two inputs from which a decoder gets values that a Rust program cannot tell apart begin with the same bytes, the ones it read. So different messages are different values, a changed byte shows, and encoding what was decoded gives the bytes that came.",
  "all schemas, foreign types, types, arguments, pairs of inputs", "all pairs of inputs", ["protospec-build/src/compiler/decoder.rs","protospec-build/src/coder/decode/array.rs","protospec-build/src/coder/decode/container.rs","protospec-build/src/prelude/utf8.rs","protospec-build/src/prelude/utf16.rs","protospec-build/src/prelude/var.rs"])
p("Encoding what was decoded gives the same bytes",
  "For types that lose nothing when decoded (C65) and have no calculated fields, no conditions inside containers with conditions, expressions only over earlier fields, and lengths of containers below 2^32: if a decoder accepts an input, the encoder accepts the value it returned and writes exactly the bytes that were read. So a program that reads messages and writes them again passes on the bytes it was sent. With arbitrary lengths the encoder may fail, but it writes nothing else.",
  "all schemas, foreign types, types, arguments, inputs, numbers of messages", "all inputs and schemas", ["protospec-build/src/compiler/decoder.rs","protospec-build/src/compiler/encoder.rs","protospec-build/src/coder/decode/mod.rs","protospec-build/src/coder/encode/mod.rs"])

p("A reader that fails is not mistaken for one that ends",
  "If a reader delivers some bytes and then fails, a decoder that returns a value returns what it would return whatever came instead of the failure; a message that the failure interrupts is never returned as a value, for any type, unbounded and terminated arrays and zero-terminated strings included; and a failure that lies behind the message does not keep the decoder from returning it.",
  "all schemas, foreign types and transforms, types, arguments, inputs, points of failure of the reader", "all points at which a reader may fail", ["protospec-build/src/coder/decode/array.rs","protospec-build/src/coder/decode/mod.rs","protospec-build/src/compiler/decoder.rs","protospec-build/src/prelude/utf8.rs"])

p("Bitfield values made with the functions of their type",
  "Whatever a program does with the constants, setters and the operators |, &, ^ of a generated bitfield type and with values it decoded, the result is encoded into bytes from which the decoder returns it; after any sequence of setter calls the getters say true exactly for what was set before or shares a bit with a flag that was set; getters of one-bit flags commute with the operators.",
  "all bitfield declarations, programs of constants, setters, operators and decodings, sequences of setter calls, values", "all programs over a type, all histories of setter calls, all values of the representation", ["protospec-build/src/compiler/mod.rs"])
p("Generated types have a size",
  "rustc can compute the size of every generated struct and enum.",
  "all schemas and foreign types, all ways types may refer to each other", "all graphs of references between types", ["protospec-build/src/compiler/mod.rs"])
p("Readers are asked only for what they can do",
  "The generated decoders use each of their reader variables only for what its type can do (a call and a search for a terminator need a BufRead, a call one of known size), and not after it has been given to a transform; so rustc accepts what they do with readers.",
  "all types, foreign types and transforms, all ways of nesting containers, arrays, conditions, transforms and references", "all specifications; it depends on the types of variables in code that does not exist before the generator has run", ["protospec-build/src/compiler/decoder.rs","protospec-build/src/compiler/mod.rs","protospec-build/src/coder/decode/field.rs","protospec-build/src/coder/decode/container.rs","protospec-build/src/prelude/gzip.rs","protospec-build/src/prelude/base64.rs","protospec-build/src/prelude/utf8.rs"])
p("Decoders are compiled for finitely many reader types",
  "Whichever generated decoder a program calls with whatever reader, rustc needs finitely many copies of the generic decoders.",
  "all schemas, all graphs of references between types and readers they pass on", "all graphs of references; the set of instances is a least fixed point", ["protospec-build/src/compiler/mod.rs","protospec-build/src/compiler/decoder.rs","protospec-build/src/coder/decode/container.rs","protospec-build/src/coder/decode/field.rs"])
p("Writers are asked only for what they can do",
  "The generated encoders use each of their writer variables (the caller's writer, buffers for containers with a length and for fields that wait for lengths, the streams of transforms) only for what its type can do (a call of another encoder needs a reference to a writer of known size, a conditional transform a reference), and not while it is lent to a transform nor after it has been given to one; so rustc accepts what they do with writers.",
  "all types, foreign types and transforms, all ways of nesting containers, arrays, conditions, calculated fields, transforms, alternatives and references", "all specifications; it depends on the types and the ownership of variables in code that does not exist before the generator has run", ["protospec-build/src/compiler/encoder.rs","protospec-build/src/compiler/mod.rs","protospec-build/src/coder/encode/field.rs","protospec-build/src/coder/encode/container.rs","protospec-build/src/prelude/gzip.rs","protospec-build/src/prelude/base64.rs"])
p("Encoders are compiled for at most two writer types",
  "Whichever generated encoder a program calls with whatever writer, rustc needs each generic encoder at most for that type of writer and for Vec<u8>, however the types of the specification refer to one another, if it accepts the encoders at all.",
  "all schemas, all graphs of references between types, all calls", "all graphs of references; the set of instances is a least fixed point", ["protospec-build/src/compiler/mod.rs","protospec-build/src/compiler/encoder.rs","protospec-build/src/coder/encode/container.rs"])
p("The traits that were asked for can be derived",
  "Every generated type has the traits that the options ask for, and rustc can derive them: whatever types a specification declares and in whatever way they hold each other, no derive and no impl Default of the generated module is refused.",
  "all specifications, all graphs of types, all lists of derives in the options", "all specifications and options; whether a derive is accepted depends on all types reachable from the one it stands at", ["protospec-build/src/lib.rs","protospec-build/src/compiler/mod.rs"])
p("Default values are values",
  "Default::default() of every generated type returns, and returns one value, which is one of the type: numbers in the range of their types, enums one of their items, bitfields only declared flags; the encoder of the type can be given it.",
  "all specifications, all graphs of types", "all specifications; it is a recursion through all types that are held", ["protospec-build/src/compiler/mod.rs"])
p("Encoders survive any value",
  "A generated encoder given any value of the type and arguments of the declared types returns: bytes were written, or an Err is handed to the caller. It does not panic and does not overflow the stack, except that calls nest as deep as the value does.",
  "all specifications, all values of the generated types including recursive ones of any depth, all arguments", "all values; overflows, divisions by zero, lengths from 2^63 on and wrong element counts sit at single values of large domains", ["protospec-build/src/compiler/encoder.rs","protospec-build/src/coder/encode/mod.rs","protospec-build/src/coder/encode/container.rs","protospec-build/src/coder/encode/field.rs"])
p("Names do not get in each other's way",
  "Whatever names a specification that protospec accepts gives to its types, parameters, fields, alternatives, variants and flags, rustc accepts the generated module as far as names go: they are identifiers, nothing is declared twice, no variable has the name of a tuple struct, nothing hides what generated code takes from Rust's prelude, its own header or other crates, and every type that is mentioned is declared.",
  "all accepted specifications, all options", "all names in all positions; clashes are between pairs of a name of the specification and one of dozens that the generator uses itself", ["protospec-build/src/compiler/mod.rs","protospec-build/src/compiler/decoder.rs","protospec-build/src/compiler/encoder.rs","protospec-build/src/compiler/expr.rs","protospec-build/src/prelude/utf8.rs"])
p("Parameters with default values",
  "A parameter of a type that has a default value may be left out when the type's encode and decode functions are called; the answer is then the one for the value of the default expression, computed from the parameters before it. Passing the value explicitly, or giving a type no default values, changes nothing else; other types of the specification may leave the parameter out too.",
  "all specifications with default values, all ways of leaving parameters out, all values and bytes", "all specifications, default expressions, arguments and messages", ["protospec-build/src/compiler/mod.rs","protospec-build/src/semantics/convert/field.rs","protospec-build/src/semantics/convert/type_/type_ref.rs","protospec-build/src/parser/declaration/type_declaration.rs"])
p("compile_spec writes the file or says why not",
  "compile_spec returns Ok exactly if the text is a specification that is accepted, code could be generated, and the code is then in the file name.rs in OUT_DIR; otherwise nothing is written. Whether a specification is refused depends on its text alone. A specification it takes has no imports and no foreign items but those of the prelude; asking for others is an error, not a panic.",
  "all texts, names, options, generated codes, environments", "all texts and environments; a test sees one OUT_DIR and one rustfmt, which happens to succeed", ["protospec-build/src/lib.rs","protospec-build/src/import.rs","protospec-build/src/prelude/resolver.rs"])
