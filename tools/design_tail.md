
## Findings
Places where the code does not do what the property says. Those with a theorem name are proved about the model.

1. Tokenizer: `"\xHH"` and following characters are decoded wrongly or panic (`hex_escape_finding`, `hex_escape_panics_finding`).
2. Tokenizer: columns on the first line and after line breaks inside comments and strings are off (`first_line_finding`, `comment_column_finding`, `string_line_finding`); `Span + Span` (`span_add_finding`).
3. Tokenizer: printing a string token does not escape (`print_string_finding`); a trailing unterminated `/*` is not reported as such.
4. Parser: the false branch of a ternary cannot be a ternary (`nested_ternary_finding`); an identifier at the end of the file gives `UnexpectedEOF`; calculated fields cannot have flags (`calculated_flag_finding`); the endianness in a literal's suffix is dropped (`literal_endian_finding`).
5. Optional type arguments cannot be supplied after required ones (`optional_type_argument_finding`).
6. Calls with too many arguments, or with optional arguments after two required ones, panic (`too_many_arguments_finding`, `optional_argument_finding`).
7. Explicit casts use the coercion check reversed: enum casts (`narrow_enum_cast_finding`, `wide_enum_cast_finding`), arrays (`array_cast_finding`), unsuffixed literals (`literal_cast_finding`); `f64` is not assignable from `f64` (`f64_finding`).
8. Comparisons accept operands of any type (`compare_any_finding`, `compare_bools_finding`); an unresolved operand is reported as a type error of the other (`unresolved_operand_finding`).
9. A type that is not converted yet counts as `bool`: a number passes as a condition (`forward_reference_finding`); parameters of later types count as absent inside parameter lists (`forward_parameter_finding`).
10. Import cycles never end (`cyclic_imports_finding`, `self_import_finding`); an import silently replaces a declaration (`import_overwrites_finding`); functions cannot be imported (`function_import_finding`).
11. Cycle flags compare field names, so they are wrong both ways (`not_recursive_flagged_finding`, `recursive_not_flagged_finding`).
12. A field `_pad0` declared before a padding is lost (`pad_name_finding`); type parameters may share a name (`duplicate_argument_finding`).
13. Enum/bitfield numbering panics when the first item is implicit and the next computation is out of range, constants of mixed kinds (theorems in `Props/Repr`, `Props/Const`).
14. Emitted expressions: an operator applied to a cast (`unary_over_cast_finding`), named constants, array indices and `>>>` (`not_emitted_finding`), `?:` evaluates its default eagerly (`elvis_default_finding`), `sum` of negative elements (`sum_negative_finding`), `pad(0)` divides by zero.
15. Variable-length integers: the decoder's limit on the number of bytes cuts off or accepts too much (`Props/Prelude`); utf16 uses the host byte order; utf8 with explicit zero bytes.
16. Chains of two transforms use the same order on both sides (`chained_transforms_do_not_round_trip`).
17. Two overlapping `blen` fields come out in the wrong order (`overlapping_lengths_out_of_order`); `blen` counts the bytes before transforms (`length_ignores_transforms`).
18. `container[len]`: the unused rest is neither skipped nor filled (`short_container_not_skipped`, `short_container_not_filled`).
19. Arrays: wrong counts panic or truncate (`wrong_count_panics`, `longer_array_truncated`), `[..]` drops an incomplete last element (`unbounded_drops_tail`), `[..e]` loops forever or accepts a missing terminator (`terminated_array_diverges`, `missing_terminator_accepted`).
20. Tagged enums: no matching arm is no error when encoding (`no_arm_writes_nothing`), supplied values of calculated fields leak (`tagged_calculated_leaks`).
21. Accepted sources on which code generation panics: `len` of a container (`len_container_finding`), `sum` of a non-array (`sum_scalar_finding`), `blen` of a non-field (`blen_literal_finding`), an integer used as a bitfield (`cast_to_bitfield_finding`), a container parameter (`container_parameter_finding`), a conditional container of paddings only (`conditional_paddings_finding`), enum values without a constant value (`enum_value_finding`); `type a = a` never returns (`self_reference_finding`).
22. The example specification `examples/nbtview/spec/nbt.pspec` is rejected for three reasons (`shipped_example_finding`, `shipped_example_length_finding`, `shipped_example_type_finding`).
23. Not in a theorem: `resolved_autos` is keyed by field for the whole generator; aliased imports are emitted under two names; `compile_spec` uses `NullImportResolver`; the gzip encoder moves its writer; a cast to a sized array type never type checks because spans are compared; derived equality of recursive types recurses forever.
24. An alternative of a tagged enum may refer to an earlier alternative; the generators panic on it (`arm_reference_finding`). A reference to a field `_padN` that was lost to a padding likewise (`pad_reference_finding`).
25. Accepted specifications from which code comes out that rustc rejects: nested conditions (`nested_condition_finding`), arrays of an alias of a primitive or enum (`alias_array_finding`), a field whose type is an alias used as a number (`alias_length_finding`), a field that may be absent used as a number (`conditional_reference_finding`), `?:` with a conversion (`elvis_conversion_finding`), calculated fields inside conditional containers (`conditional_calculated_finding`), `blen` of a conditional container (`conditional_length_finding`).
26. `t_count * size_of` in the array decoders is unchecked: in a release build an array of 2^61 `u64` elements decodes as an empty array without reading anything (`array_count_wraps`); counts from 2^63 bytes on panic in `Vec::with_capacity` / `vec![0; n]` (a panic that any peer can cause if the count comes from a 64-bit field).
27. Inputs that panic or never end: counts from 2^63 on, overflow in builds with overflow checks, division by a decoded zero, unbounded arrays of types that read nothing, a missing terminator of two bytes (`hostile_input_findings`); a type that contains itself before anything is read, or behind a transform that grows its input, overflows every stack (`endless_recursion_finding`, `bomb_finding`).
28. A terminator of two bytes that lies on the end of the reader's buffer is never seen: the decoder hangs on a complete and correct message (`cut_terminator_finding`). Truncated messages that are accepted: `[..]` inside `container[n]`, a missing terminator, a missing zero byte of `utf8` (`truncated_findings`, `nul_string_truncated_finding`).
29. `EndStream` emits `flush()?; drop(stream)`: what a transform writes in its destructor (the gzip trailer) may fail without anybody noticing, the encoder returns `Ok` (`lost_trailer_finding`); the async gzip writer writes no trailer when dropped, so `encode_async` leaves it out (`async_trailer_finding`). `flate2::read::GzDecoder` reads ahead, so fields behind a gzip field are lost in `decode_sync` (`overread_finding`). With `include_async`, `base64` makes the generator panic.
30. Parameters are emitted under their own names into functions with variables `r_0`, `r_1`, .., `r_len`, `r`, `buf`, `big_scratch`: a parameter called `r_len` is silently replaced by the number of bytes left in the decoder of an unbounded array, so that what the encoder writes is decoded as another value (`captured_parameter_finding`); `r_0` by the first field (`register_parameter_finding`); a parameter called `reader` or `writer`, or two of one name, gives code that rustc rejects (`reader_parameter_finding`).
31. Different inputs that are decoded to the same value (`lossy_findings`, `varint_lossy_finding`): every non-zero byte is `true`; the bytes of a padding are not checked; a terminator may be missing at the end of the input; incomplete elements at the end of `T[..]` are dropped without an error; variable-length integers may be written with superfluous bytes. A decoder in front of a signature check or a cache key must not assume otherwise.
32. Messages that are decoded without an error but cannot be written again (`forth_findings`): the encoder of a container with a length reserves that many bytes (`Vec::with_capacity`), the decoder only limits its reader: a 64-bit length from 2^63 on decodes and then panics in the encoder; the values read for calculated fields are not compared with what they should be, and others are written.
33. A reader that fails while half of a terminator of two bytes is buffered: the decoder spins forever instead of returning the error (`half_terminator_finding`). An array ended by the empty string asks the reader for a byte before it finds its terminator (`empty_terminator_fails`). `fill_buf` is called without a retry on `ErrorKind::Interrupted`, unlike `read_exact` and `read_to_end`, so a signal may abort a terminated array (read from the code, not modelled).
34. `impl Not` of a generated bitfield type complements all bits of the representation, also those that belong to no flag: `!Flags::A` is encoded without an error into bytes that the decoder refuses (`complement_finding`).
35. No generated type is put into a `Box`: a specification in which a type holds itself in a conditional field, or two types hold each other, is accepted and gives declarations that rustc refuses with E0072 (`unsized_findings`).
36. A field behind a field with a `gzip` transform makes a decoder that rustc refuses: `GzDecoder::new(reader)` moves `reader` (`transform_must_be_last`, `reader_findings`); all tests of the repository have the transform on the last field. References, arrays up to a terminator and zero-terminated strings in a field with a transform are refused as well, since the transformed readers are no `BufRead`; behind a conditional transform the reader is a `&mut dyn Read`, which no `decode_sync` accepts.
37. A type that refers to itself inside a container with a length, or behind a transform, gives decoders whose instantiation does not end (`instance_findings`); so the type of `bomb_finding` (27) is not compiled by rustc with the transforms of the prelude.
38. Two transforms at one field (`-> gzip -> base64`), a reference to a type right behind a transform (`h: header -> gzip`), and any field behind a field with a `gzip` or `base64` transform outside of a container with a length are accepted and give encoders that rustc refuses (`sink_findings`): the streams are values that are moved into one another and flushed afterwards; `encode_sync` is given a value where it needs a `&mut W`; `writer` has been moved.
39. `Options::default()` derives `Eq` for all types, `CompileOptions::default()` does not: with the default options of `compile_spec` a specification with any `f32` or `f64` field is refused by rustc (`traits_findings`, `default_options_accepted_iff`). An enum whose only item is `default` gets an `impl Default` that names a function; bitfields compare themselves but do not ask for `PartialEq`, although they ask for `Copy`.
40. The default value of a type with an array of fixed length makes its encoder panic, that of a container with a conditional field may be refused (`default_wire_findings`).

41. Encoders of accepted specifications panic on values of the declared type: overflow in a calculated field, a stored container length or padding from 2^63 on, a division by a stored zero in a condition, an array whose length is not its count (`encoder_panic_findings`).

42. Names are emitted as they are. Rust's words as names (`rust_word_finding`), a tuple struct `value`, a type called like an import or a generic of the header (`Result`, `mem`, `R`; `taken_type_finding`), a parameter called like a tuple struct, two parameters or two fields (also in different containers of one container) of one name, flags such as `all` or `ready` beside `set_ready` (`shadowing_finding`, `one_list_finding`), and imports that leave out the types that the imported type is made of (`import_finding`): accepted, and rustc refuses the code.

43. A type with a default value for a parameter cannot be used by another type of the specification: `b = a` and `b = a(2u8)` for `type a(n: u8 ? 4u8)` are accepted, but the generated call passes no argument, or a plain `u8`, where an `Option<u8>` is expected (`default_called_finding`). A default value that mentions its own parameter (`n: u8 ? n`) or a constant is accepted; the code uses an `Option` in arithmetic, or a name that is not defined (`default_value_finding`).

44. `rustfmt` in `lib.rs` prints whatever rustfmt wrote to stdout and does not look at its exit status. If rustfmt refuses the generated code (a type called `fn`, see 42), `compile_spec` writes an empty file over the old one and returns `Ok` (`format_failure_finding`); the user then sees that types are missing, not why.
