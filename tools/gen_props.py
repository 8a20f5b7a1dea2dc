#!/usr/bin/env python3
# Regenerates /verif/properties.jsonl (single place where the English properties are kept).
import json
P=[]
def p(title, statement, quantifier, why, anchors):
    P.append(dict(id="C%02d"%(len(P)+1), title=title, statement=statement, quantifier=quantifier, why_tests_cant=why, anchors=anchors))

B="protospec-build/src/"
p("Fixed-width scalars survive the wire",
  "For every integer width, signedness and endianness, encoding any in-range value writes exactly `size` bytes in the declared byte order, and decoding those bytes followed by anything yields the same value and leaves the following bytes unread.",
  "all 10 scalar types, both endians, every in-range value, every trailing byte sequence",
  "2^128 values per type; tests sample a handful",
  [B+"compiler/encoder.rs EncodePrimitive", B+"compiler/decoder.rs DecodePrimitive", B+"ast/types/scalar.rs ScalarType::size"])
p("A generated encoder writes fields in declaration order",
  "For every type declaration (containers nested to any depth, arrays, references, conditions, transforms, calculated fields without overlapping blen) the instruction program the compiler generates, when run, writes exactly the concatenation of the field encodings in declaration order, or fails exactly when the specification fails.",
  "all well-scoped declarations, all values, all inputs",
  "the space of declarations is infinite; tests compile a few dozen specs",
  [B+"coder/encode/*", B+"compiler/encoder.rs EncoderContext::prepare_encode"])
p("A generated decoder reads fields in declaration order",
  "For every type declaration in the modelled fragment, the generated decoder program run on any byte string behaves exactly as reading the fields one after the other in declaration order: same value, same unread remainder, same error.",
  "all well-scoped declarations, all byte strings",
  "infinite space of declarations and inputs",
  [B+"coder/decode/*", B+"compiler/decoder.rs prepare_decode"])
p("decode after encode is the identity",
  "If encoding a value succeeds with bytes b, then decoding b followed by any trailing bytes returns that value (calculated fields replaced by their computed value) and leaves exactly the trailing bytes (for a type that ends in T[..] or a stream transform, only when nothing follows). This holds for every schema of nested, conditional, array, tagged, enum and bitfield declarations with at most one invertible transform per item, at most one length field waiting at a time, no condition or calculation inside a conditional container, and values within their declared types and lengths.",
  "all declarations of the fragment, all values, all trailing bytes",
  "tests round-trip literal values of fixed specs",
  [B+"compiler/mod.rs prepare_impls", B+"coder/encode/field.rs", B+"coder/decode/field.rs"])
p("Decoders read only what they need",
  "If a decoder of a prefix type succeeds on input i leaving r, then i = consumed ++ r and it succeeds with the same value on consumed ++ r' for every r'.",
  "all prefix types, all inputs, all replacement tails",
  "quantifies over all continuations of the stream",
  [B+"compiler/decoder.rs prepare_decode"])
p("Conditional fields are present exactly when the condition holds",
  "Encoding a field with a false condition writes nothing whatever the field holds; with a true condition and an absent value it is an error, with a present value the bytes are those of the unconditional field. Decoding yields absent and reads nothing when false, present otherwise.",
  "all conditions, all field types, all values",
  "depends on every combination of flag values and options",
  [B+"coder/encode/field.rs encode_field, encode_field_unconditional", B+"coder/decode/field.rs decode_field", B+"compiler/encoder.rs NullCheck"])
p("Tagged enums pick the first matching arm",
  "Decoding a tagged_enum container uses the first arm in declaration order whose condition holds and no other; if none holds decoding is an error. Encoding checks that the value is that same arm, otherwise it is an error.",
  "all arm lists, all discriminants",
  "number of arms and conditions is unbounded",
  [B+"coder/decode/container.rs decode_enum_container", B+"coder/encode/container.rs encode_container"])
p("Calculated fields ignore the supplied value",
  "The bytes produced by an encoder do not depend on the value stored by the user in a calculated field; the field on the wire is the value of its expression.",
  "all containers with calculated fields, all pairs of values that differ only there",
  "relational property over two executions",
  [B+"coder/encode/container.rs encode_container_refs, encode_container_calculated"])
p("blen writes the byte length of its target",
  "A calculated field using blen(x) is written before x with the number of bytes x occupies on the wire, even though x is encoded later, and everything between them keeps its place.",
  "all containers with one pending blen field at a time, all values",
  "value depends on arbitrary nested content",
  [B+"coder/encode/container.rs encode_container_items, eval_blen_expr"])
p("Several blen fields pending at once keep declaration order",
  "When two length fields are both waiting for their targets the fields still appear on the wire in declaration order.",
  "all containers with overlapping blen ranges",
  "needs the right interleaving of pending fields",
  [B+"coder/encode/container.rs 142-163"])
p("A length-constrained container never reads past its length",
  "Decoding container[len] never consumes more than len bytes of the enclosing stream, and fields inside never see bytes after the limit.",
  "all lengths, contents and streams",
  "holds for every malformed input",
  [B+"coder/decode/container.rs decode_container", B+"compiler/decoder.rs Constrict"])
p("A length-constrained container consumes exactly its length",
  "After decoding container[len] the next field is read from the byte following the container, even when the fields inside used fewer than len bytes; and the encoder emits exactly len bytes for it.",
  "all lengths and contents",
  "quantifies over all mismatching lengths",
  [B+"coder/decode/container.rs decode_container", B+"compiler/encoder.rs AllocBuf"])
p("Fixed-length arrays hold exactly the declared number of elements",
  "Encoding an array[n] whose value does not have n elements never silently writes a different number of elements; decoding yields exactly n elements in order.",
  "all n, element types and values",
  "all lengths",
  [B+"coder/encode/array.rs", B+"compiler/encoder.rs EncodePrimitiveArray, Loop", B+"coder/decode/array.rs"])
p("Unbounded arrays consume everything or fail",
  "T[..] consumes all remaining bytes of its stream; if the bytes are not a whole number of elements decoding is an error.",
  "all remaining inputs",
  "all input lengths",
  [B+"compiler/decoder.rs DecodePrimitiveArray, Loop"])
p("Terminated arrays round trip and stop at the terminator",
  "Decoding T[..\"X\"] returns the elements before the first position at which the terminator appears at an element boundary, consumes the terminator, and always terminates.",
  "all inputs, terminators, element types",
  "all byte strings, termination",
  [B+"compiler/decoder.rs Loop", B+"coder/encode/array.rs"])
p("Transforms compose so that decoding inverts encoding",
  "For a field with transforms T1..Tn, encoding applies them left to right and decoding undoes them right to left, so a chain of individually invertible transforms round-trips.",
  "all chains of transforms, all data",
  "all chains",
  [B+"coder/encode/field.rs encode_field_unconditional", B+"coder/decode/field.rs decode_field_unconditional"])
p("Enum wire values convert back and forth",
  "to_repr(from_repr(x)) = x whenever from_repr accepts x; without a default variant from_repr accepts exactly the declared values; with a default it accepts every value; from_repr(to_repr(v)) = v for every named variant with a distinct value.",
  "all enum declarations, all wire values",
  "all wire values up to 2^128",
  [B+"compiler/mod.rs generate_enum"])
p("Implicit enum values continue from the last explicit one",
  "The k-th variant after the last explicit value e has value e + k, or compilation fails because it does not fit.",
  "all variant lists",
  "all list shapes",
  [B+"semantics/convert/type_/enum_.rs convert_enum_type"])
p("Implicit bitfield flags shift from the last explicit one",
  "The k-th flag after the last explicit value e has value e << k in the representation type.",
  "all flag lists",
  "all list shapes",
  [B+"semantics/convert/type_/bitfield.rs convert_bitfield_type"])
p("Bitfield values accept exactly the declared bits",
  "from_repr accepts x iff x has no bit outside the union of the declared flags; getters report flag membership; setting a flag makes its getter true, changes no getter of a disjoint flag, and keeps acceptance.",
  "all flag sets, all repr values",
  "all 2^128 values",
  [B+"compiler/mod.rs generate_bitfield"])
p("Variable-length integers round trip",
  "Decoding the encoding of any value of the declared width gives it back.",
  "all values of v8..v128",
  "all 2^128 values",
  [B+"prelude/var.rs"])
p("Variable-length integer encoding is minimal LEB128",
  "The encoder writes the little-endian base-128 digits of the unsigned value, continuation bit on all but the last byte, with no superfluous trailing zero group.",
  "all values",
  "all 2^128 values",
  [B+"prelude/var.rs encoding_gen"])
p("utf8 strings round trip",
  "A NUL-terminated utf8 field gives back the string written; a length-prefixed one gives back the string when the length argument equals its byte length.",
  "all byte strings / lengths",
  "all strings",
  [B+"prelude/utf8.rs"])
p("utf16 strings round trip",
  "A utf16 field with the right unit count gives back the units written.",
  "all unit sequences, host endianness",
  "all strings; depends on the host",
  [B+"prelude/utf16.rs"])
p("pad aligns",
  "base + pad(p, base) is the least multiple of p that is at least base, for every p > 0.",
  "all bases, all p > 0",
  "all 2^128 pairs",
  [B+"prelude/pad.rs"])
p("The tokenizer is total and loses nothing",
  "tokenize terminates on every input with tokens or an error (never a panic); on success every non-whitespace character of the input is covered by exactly one token, in order.",
  "all input strings",
  "all strings",
  [B+"tokenizer.rs tokenize, Token::gobble"])
p("String literals denote their escaped bytes",
  "Within a string literal `\\XY` with two hex digits denotes the byte 0xXY; ordinary characters denote themselves.",
  "all literals",
  "all strings",
  [B+"tokenizer.rs Token::gobble"])
p("Comments and whitespace do not matter",
  "Tokenizing with comment stripping gives the same tokens (ignoring positions) as tokenizing with comments kept and dropping comment tokens; adding whitespace between tokens changes nothing but positions.",
  "all inputs",
  "all strings",
  [B+"tokenizer.rs tokenize", B+"parser/token_iter.rs"])
p("Printing then tokenizing is the identity",
  "For every list of tokens, writing their texts separated by spaces and tokenizing yields the same tokens.",
  "all token lists",
  "all lists",
  [B+"tokenizer.rs Display for Token"])
p("Source positions are exact",
  "Every token span gives the line and the column range of the token text.",
  "all inputs",
  "all strings",
  [B+"tokenizer.rs tokenize", B+"tokenizer.rs Span"])
p("Expression syntax: precedence and associativity",
  "For every expression tree, printing it with the minimal grammar-mandated parentheses and parsing gives back that tree: binary operators are left associative with the documented precedence order, prefix operators bind tighter than binary ones, postfix tighter than prefix.",
  "all expression trees",
  "all trees",
  [B+"parser/expression/*"])
p("Programs parse back to themselves",
  "For every program (imports, ffi imports, consts, types with containers, enums, bitfields, arrays, fields, conditions, transforms, flags) the parser returns that program when given its tokens.",
  "all programs",
  "all programs",
  [B+"parser/*"])
p("The parser always terminates and never panics",
  "parse on any token list returns a program or an error in finitely many steps and every successful sub-parse consumes a prefix of the tokens.",
  "all token lists",
  "all lists",
  [B+"parser/*", B+"parser/token_iter.rs"])
p("Constant arithmetic is exact or refused",
  "If a constant expression evaluates, each arithmetic result is the exact mathematical result in the operand type; overflow, division by zero and oversized shifts never yield a value; operands of different kinds never combine.",
  "all constant expressions",
  "all operand values",
  [B+"asg/expression/const_int.rs", B+"compiler/expr.rs eval_const_expression"])
p("Integer literals denote their value or are rejected",
  "A literal is accepted for type T exactly when its decimal or 0x value is in the range of T, and then denotes it.",
  "all literals, all 10 types",
  "all strings",
  [B+"asg/expression/const_int.rs ConstInt::parse", B+"semantics/convert/expression/int.rs"])
p("Implicit widening never changes a value",
  "Whenever an integer type is implicitly convertible to another, every value of the first is representable in the second, and the relation is a partial order.",
  "all pairs of scalar types, all values",
  "all values",
  [B+"ast/types/scalar.rs can_implicit_cast_to"])
p("Whatever converts implicitly also converts explicitly",
  "If a value of type A may be used where B is expected, `a :> B` is accepted too.",
  "all pairs of types",
  "all types",
  [B+"asg/types/mod.rs can_coerce_to, can_cast_to", B+"semantics/convert/expression/cast.rs"])
p("Expressions get the type that was asked for",
  "If conversion of an expression against an expected type succeeds, the resulting expression has a type assignable to the expected type (an implicit cast is inserted when necessary).",
  "all expressions, scopes and expected types",
  "all expressions",
  [B+"semantics/convert/expression/*", B+"semantics/partial_type.rs"])
p("The emitted expression computes what the expression means",
  "The Rust expression emitted for an expression evaluates to the value the expression denotes.",
  "all expressions, all field values",
  "all expressions",
  [B+"compiler/expr.rs emit_expression"])
p("Name resolution is lexical",
  "A name in an expression refers to the innermost earlier field, else the innermost type argument, else the constant; a field never sees later siblings (except in calculated values); unresolved names are errors.",
  "all scope chains and names",
  "all nestings",
  [B+"semantics/resolve.rs", B+"semantics/convert/expression/var_ref.rs", B+"semantics/convert/type_/container.rs"])
p("Duplicate declarations are rejected",
  "A program with two types, two constants, two variants, two flags or two sibling fields of one name (or a type named like a foreign or imported type) is rejected; a program without them, and without fields named _pad0, _pad1, ... (the names given to paddings), is never rejected as having a redefinition.",
  "all declaration lists",
  "all lists",
  [B+"semantics/convert/program/*", B+"semantics/convert/type_/*"])
p("Type arguments are checked",
  "A reference to a type with parameters is accepted iff it supplies all required and at most all parameters.",
  "all parameter and argument lists",
  "all lists",
  [B+"semantics/convert/type_/type_ref.rs"])
p("Function and transform arguments are checked",
  "A call supplying between the required and the total number of arguments is accepted; any other is an error, never a panic.",
  "all parameter and argument lists",
  "all lists",
  [B+"semantics/convert/ffi_arguments.rs"])
p("Each module is loaded once and loading terminates",
  "Resolving imports loads every reachable module exactly once, however often it is imported, and terminates.",
  "all import graphs",
  "all graphs incl. cyclic ones",
  [B+"lib.rs", B+"import.rs", B+"semantics/convert/program/import.rs"])
p("Imports bind the requested names",
  "After `import a as b from m`, b denotes m's a; a missing a is an error; nothing else is bound.",
  "all import lists and modules",
  "all lists",
  [B+"semantics/convert/program/import.rs"])
p("Recursive types are flagged",
  "A type is marked cyclical iff it can reach a reference to itself.",
  "all programs",
  "all type graphs",
  [B+"asg/program.rs scan_cycles", B+"asg/types/mod.rs get_indirect_contained_fields"])
p("Derive lists are canonical",
  "The emitted derive list is sorted, has no duplicates, contains exactly the requested and extra derives (without Default for enums), whatever the order of the options.",
  "all option lists",
  "all lists",
  [B+"compiler/mod.rs emit_struct_derives, emit_enum_derives"])
p("bits, sum and len compute their definition",
  "bits counts one bits; sum is the sum of the elements or overflow; len is the element count for arrays and the byte size for fixed types.",
  "all inputs",
  "all inputs",
  [B+"prelude/bits.rs", B+"prelude/sum.rs", B+"prelude/len.rs"])
exec(open("/verif/tools/more_props.py").read()) if __import__("os").path.exists("/verif/tools/more_props.py") else None
open("/verif/properties.jsonl","w").write("".join(json.dumps(x)+"\n" for x in P))
print(len(P))
