{
 "claims": [
  {
   "property": "C01",
   "status": "proved",
   "theorems": [
    "Verif.Props.scalar_wire_format",
    "Verif.Props.scalar_round_trip",
    "Verif.Props.scalar_wire_bijective",
    "Verif.Props.number_types",
    "Verif.Props.float_and_bool_types"
   ],
   "note": "number_types: from the names in a specification to the bytes, for all 18 number types"
  },
  {
   "property": "C02",
   "status": "partial",
   "theorems": [
    "Verif.Props.encode_refines",
    "Verif.Props.encoded_in_order",
    "Verif.Props.arm_in_order_partial"
   ],
   "note": "proved for containers (declaration order, every nesting, with calculated fields) and struct arms without blen; missing: struct arms of tagged enums with blen fields, where the supplied value leaks (tagged_calculated_leaks)"
  },
  {
   "property": "C03",
   "status": "proved",
   "theorems": [
    "Verif.Props.decode_refines",
    "Verif.Props.take_is_window"
   ],
   "note": "whole decoder generator + interpreter vs specification; hypothesis: no repeated field names (rustc rejects those)"
  },
  {
   "property": "C04",
   "status": "proved",
   "theorems": [
    "Verif.Props.decode_after_encode",
    "Verif.Props.decode_after_encode_calculated",
    "Verif.Props.len_round_trip",
    "Verif.Props.item_round_trip",
    "Verif.Props.tag_round_trip"
   ],
   "note": "fragment as in the statement (WfSchema, Fitting); outside it the code violates it: chained_transforms_do_not_round_trip, overlapping_lengths_out_of_order"
  },
  {
   "property": "C05",
   "status": "proved",
   "theorems": [
    "Verif.Props.decode_local"
   ],
   "note": "prefix fragment: no [..], [..e]; foreign types/transforms assumed local themselves"
  },
  {
   "property": "C06",
   "status": "proved",
   "theorems": [
    "Verif.Props.decoded_present_iff",
    "Verif.Props.absent_field_reads_nothing",
    "Verif.Props.present_field_reads_field",
    "Verif.Props.false_condition_writes_nothing",
    "Verif.Props.absent_value_is_error",
    "Verif.Props.present_value_is_plain",
    "Verif.Props.false_container_writes_nothing"
   ],
   "note": "decoding and encoding"
  },
  {
   "property": "C07",
   "status": "partial",
   "theorems": [
    "Verif.Props.decoded_arm_is_first",
    "Verif.Props.later_arms_do_not_matter",
    "Verif.Props.no_arm_is_error",
    "Verif.Props.wrong_arm_is_error",
    "Verif.Props.later_arms_do_not_matter_enc",
    "Verif.Props.no_arm_writes_nothing"
   ],
   "note": "violated by the encoder: with no matching arm it writes nothing and reports success"
  },
  {
   "property": "C08",
   "status": "partial",
   "theorems": [
    "Verif.Props.calculated_value_ignored",
    "Verif.Props.encoded_in_order",
    "Verif.Props.tagged_calculated_leaks"
   ],
   "note": "proved for containers (the wire value is the value of the expression); violated for struct arms of tagged enums"
  },
  {
   "property": "C09",
   "status": "partial",
   "theorems": [
    "Verif.Props.encoded_in_order",
    "Verif.Props.length_field_value",
    "Verif.Props.blen_call_iff",
    "Verif.Props.length_field_value_u64",
    "Verif.Props.length_ignores_transforms"
   ],
   "note": "proved for containers without transforms; violated for containers with transforms: the length is that of the untransformed content"
  },
  {
   "property": "C10",
   "status": "partial",
   "theorems": [
    "Verif.Props.overlapping_lengths_out_of_order",
    "Verif.Props.encoded_in_order"
   ],
   "note": "violated by the code: two overlapping length fields come out in the wrong order; order proved when at most one waits"
  },
  {
   "property": "C11",
   "status": "proved",
   "theorems": [
    "Verif.Props.limited_decl_within_length",
    "Verif.Props.limited_field_within_length"
   ],
   "note": ""
  },
  {
   "property": "C12",
   "status": "partial",
   "theorems": [
    "Verif.Props.short_container_not_skipped",
    "Verif.Props.exact_container_consumed_partial",
    "Verif.Props.short_container_not_filled"
   ],
   "note": "violated by the code: the unused rest of container[len] is neither skipped nor filled; holds when the content uses the whole length"
  },
  {
   "property": "C13",
   "status": "partial",
   "theorems": [
    "Verif.Props.decoded_array_length",
    "Verif.Props.decoded_array_elements",
    "Verif.Props.array_count_wraps",
    "Verif.Props.wrong_count_panics",
    "Verif.Props.other_array_elements_partial",
    "Verif.Props.longer_array_truncated",
    "Verif.Props.right_count_elements",
    "Verif.Props.right_count_bytes"
   ],
   "note": "violated by the encoder for arrays of non-primitives (longer values are cut off) and by the decoder of release builds for counts whose byte size passes 2^64 (array_count_wraps)"
  },
  {
   "property": "C14",
   "status": "partial",
   "theorems": [
    "Verif.Props.unbounded_consumes_all",
    "Verif.Props.unbounded_drops_tail",
    "Verif.Props.unbounded_whole_elements_partial",
    "Verif.Props.unbounded_other_is_elements"
   ],
   "note": "violated by the code for primitive, enum and bitfield elements: an incomplete last element is dropped"
  },
  {
   "property": "C15",
   "status": "partial",
   "theorems": [
    "Verif.Props.terminated_array_partial",
    "Verif.Props.terminated_array_diverges",
    "Verif.Props.missing_terminator_accepted",
    "Verif.Props.terminated_array_ends_partial",
    "Verif.Props.terminated_round_trip"
   ],
   "note": "round trip proved; violated by the code: endless loop and accepted missing terminator"
  },
  {
   "property": "C16",
   "status": "partial",
   "theorems": [
    "Verif.Props.encoded_chain",
    "Verif.Props.decoded_chain",
    "Verif.Props.chained_transforms_do_not_round_trip",
    "Verif.Props.transform_round_trip"
   ],
   "note": "single transforms round trip; violated by the code for chains of two: both sides use the same order"
  },
  {
   "property": "C17",
   "status": "proved",
   "theorems": [
    "Verif.Props.enum_from_then_to",
    "Verif.Props.enum_accepts_declared",
    "Verif.Props.enum_default_accepts_all",
    "Verif.Props.enum_to_then_from",
    "Verif.Props.enum_default_round_trip",
    "Verif.Props.enum_default_is_last",
    "Verif.Props.enum_decodes",
    "Verif.Props.enum_default_decodes"
   ],
   "note": ""
  },
  {
   "property": "C18",
   "status": "proved",
   "theorems": [
    "Verif.Props.enum_implicit_numbering",
    "Verif.Props.implicit_first_item_panics"
   ],
   "note": ""
  },
  {
   "property": "C19",
   "status": "proved",
   "theorems": [
    "Verif.Props.bitfield_implicit_shift"
   ],
   "note": ""
  },
  {
   "property": "C20",
   "status": "proved",
   "theorems": [
    "Verif.Props.bitfield_accepts",
    "Verif.Props.bitfield_getter",
    "Verif.Props.bitfield_setter",
    "Verif.Props.bitfield_decodes",
    "Verif.Props.bitfield_zero_flag"
   ],
   "note": ""
  },
  {
   "property": "C21",
   "status": "partial",
   "theorems": [
    "Verif.Props.varint_round_trip_partial",
    "Verif.Props.varint_round_trip_fails"
   ],
   "note": "The full claim is false of the code; the partial theorem is an exact characterisation."
  },
  {
   "property": "C22",
   "status": "proved",
   "theorems": [
    "Verif.Props.varint_is_minimal_leb128"
   ],
   "note": ""
  },
  {
   "property": "C23",
   "status": "proved",
   "theorems": [
    "Verif.Props.utf8_nul_round_trip",
    "Verif.Props.utf8_len_round_trip",
    "Verif.Props.utf8_len_decode_exact",
    "Verif.Props.utf8_nul_finding"
   ],
   "note": ""
  },
  {
   "property": "C24",
   "status": "partial",
   "theorems": [
    "Verif.Props.utf16_round_trip_partial",
    "Verif.Props.utf16_round_trip_fails"
   ],
   "note": "False on little-endian hosts; proved on big-endian ones."
  },
  {
   "property": "C25",
   "status": "proved",
   "theorems": [
    "Verif.Props.pad_aligns"
   ],
   "note": ""
  },
  {
   "property": "C26",
   "status": "partial",
   "theorems": [
    "Verif.Props.tokenize_terminates",
    "Verif.Props.tokenize_cuts",
    "Verif.Props.tokenize_accepts_partial",
    "Verif.Props.tokenize_no_panic_partial",
    "Verif.Props.tokenize_unexpected",
    "Verif.Props.Cuts.unique",
    "Verif.Props.character_classes",
    "Verif.Props.identifier_iff",
    "Verif.Props.hex_escape_panics_finding"
   ],
   "note": "terminates, cuts exactly and accepts exactly the lexical grammar; violated by the code: two-digit escapes in strings can panic"
  },
  {
   "property": "C27",
   "status": "partial",
   "theorems": [
    "Verif.Props.string_bytes_partial",
    "Verif.Props.hex_digit_values",
    "Verif.Props.hex_escape_panics_finding",
    "Verif.Props.hex_escape_finding",
    "Verif.Props.hex_escape_general_finding"
   ],
   "note": "proved for literals without two-digit escapes; violated by the code for those with"
  },
  {
   "property": "C28",
   "status": "proved",
   "theorems": [
    "Verif.Props.strip_is_filter",
    "Verif.Props.whitespace_irrelevant",
    "Verif.Props.comments_irrelevant",
    "Verif.Props.before_tokens_boundary"
   ],
   "note": ""
  },
  {
   "property": "C29",
   "status": "partial",
   "theorems": [
    "Verif.Props.print_read_partial",
    "Verif.Props.print_string_finding"
   ],
   "note": "proved for all lists of tokens whose strings have no quote or backslash; violated by the code for those with"
  },
  {
   "property": "C30",
   "status": "partial",
   "theorems": [
    "Verif.Props.spans_exact_partial",
    "Verif.Props.first_line_finding",
    "Verif.Props.comment_column_finding",
    "Verif.Props.string_line_finding",
    "Verif.Props.span_add_partial",
    "Verif.Props.span_add_finding"
   ],
   "note": "proved for tokens on later lines not preceded by a line break inside a token; violated by the code on the first line, after comments and strings with line breaks"
  },
  {
   "property": "C31",
   "status": "proved",
   "theorems": [
    "Verif.Props.parens_needed",
    "Verif.Props.expression_roundtrip",
    "Verif.Props.binary_assoc",
    "Verif.Props.prefix_binds",
    "Verif.Props.nested_ternary_finding"
   ],
   "note": "Expression trees of every shape and depth: printed with minimal parentheses (printE, PrintSpec.lean) they are read back; parentheses are shown necessary. SpeltE only restricts types inside casts to spellable ones. Finding: a ternary's false branch is not a ternary (rejected without parentheses; the printer writes them)."
  },
  {
   "property": "C32",
   "status": "proved",
   "theorems": [
    "Verif.Props.program_roundtrip",
    "Verif.Props.writable_iff_parsed",
    "Verif.Props.reparse",
    "Verif.Props.program_source_roundtrip",
    "Verif.Props.gr_no_comment",
    "Verif.Props.calculated_flag_finding",
    "Verif.Props.literal_endian_finding"
   ],
   "note": "All programs the parser can return (characterised exactly by writable_iff_parsed). Limits: calculated fields cannot have flags, endianness of literal suffixes is dropped."
  },
  {
   "property": "C33",
   "status": "proved",
   "theorems": [
    "Verif.Props.parse_terminates",
    "Verif.Props.parse_no_panic",
    "Verif.Props.parse_unexpected",
    "Verif.Props.parse_iff_grammar",
    "Verif.Props.grammar_unambiguous",
    "Verif.Props.parse_source"
   ],
   "note": "All token lists and source texts; the parser accepts exactly the grammar of ParserSpec.lean."
  },
  {
   "property": "C34",
   "status": "proved",
   "theorems": [
    "Verif.Props.const_op_exact_or_refused",
    "Verif.Props.const_eval_sound",
    "Verif.Props.means_functional",
    "Verif.Props.const_eval_complete_partial",
    "Verif.Props.const_eval_refuses",
    "Verif.Props.const_eval_no_mismatch",
    "Verif.Props.const_eval_strict",
    "Verif.Props.const_mixed_kind_comparison_false"
   ],
   "note": ""
  },
  {
   "property": "C35",
   "status": "proved",
   "theorems": [
    "Verif.Props.literal_denotes_or_rejected",
    "Verif.Props.decimal_literal_round_trip"
   ],
   "note": ""
  },
  {
   "property": "C36",
   "status": "proved",
   "theorems": [
    "Verif.Props.implicit_cast_preserves_value",
    "Verif.Props.implicit_cast_partial_order"
   ],
   "note": ""
  },
  {
   "property": "C37",
   "status": "partial",
   "theorems": [
    "Verif.Props.implicit_then_explicit_partial",
    "Verif.Props.castable_iff",
    "Verif.Props.implicit_castable_iff",
    "Verif.Props.cast_accepted_iff",
    "Verif.Props.narrow_enum_cast_finding",
    "Verif.Props.wide_enum_cast_finding",
    "Verif.Props.array_cast_finding",
    "Verif.Props.literal_cast_finding"
   ],
   "note": "violated by the code: enum to a wider integer and back, arrays, and unsuffixed literals are usable but not castable. castable_iff, implicit_iff give both relations as tables, implicit_castable_iff the exact difference on them (Props/Casts.lean)"
  },
  {
   "property": "C38",
   "status": "proved",
   "theorems": [
    "Verif.Props.converted_expression_fits",
    "Verif.Props.converted_expression_type",
    "Verif.Props.converted_integer",
    "Verif.Props.converted_condition",
    "Verif.Props.implicit_iff",
    "Verif.Props.integer_expected_iff",
    "Verif.Props.expression_type_iff",
    "Verif.Props.varint_takes_iff",
    "Verif.Props.varint_used_iff",
    "Verif.Props.string_takes_iff",
    "Verif.Props.string_used_iff",
    "Verif.Props.compare_any_finding",
    "Verif.Props.compare_bools_finding",
    "Verif.Props.f64_finding"
   ],
   "note": "every expression, scope, graph and expected type; what is accepted is laxer than one would expect (compare_any_finding)"
  },
  {
   "property": "C39",
   "status": "partial",
   "theorems": [
    "Verif.Props.emitted_value_is_meaning",
    "Verif.Props.cast_iff",
    "Verif.Props.meaning_is_computed",
    "Verif.Props.meaning_unique",
    "Verif.Props.unary_over_cast_finding",
    "Verif.Props.not_emitted_finding",
    "Verif.Props.elvis_default_finding"
   ],
   "note": "sound and complete for expressions without the defective forms (Emittable, Defaults); violated by the code for an operator applied to a cast, named constants, array indices, >>>, and defaults of ?: that fail"
  },
  {
   "property": "C40",
   "status": "proved",
   "theorems": [
    "Verif.Props.names_resolved_lexically",
    "Verif.Props.access_iff",
    "Verif.Props.member_iff",
    "Verif.Props.offers_unique",
    "Verif.Props.alias_access_refused",
    "Verif.Props.name_denotes_one",
    "Verif.Props.name_resolves_iff",
    "Verif.Props.unresolved_is_error",
    "Verif.Props.denotes_siblings",
    "Verif.Props.denotes_top",
    "Verif.Props.field_sees_earlier_siblings",
    "Verif.Props.padding_sees_earlier_siblings",
    "Verif.Props.calculated_sees_all_siblings",
    "Verif.Props.declared_field_sees",
    "Verif.Props.constant_sees_constants",
    "Verif.Props.unresolved_operand_finding"
   ],
   "note": "finding: an unresolved operand is reported as a type error of the other operand"
  },
  {
   "property": "C41",
   "status": "proved",
   "theorems": [
    "Verif.Props.duplicates_rejected",
    "Verif.Props.program_duplicates_rejected",
    "Verif.Props.distinct_not_rejected",
    "Verif.Props.preludeEnv_nr",
    "Verif.Props.pad_name_finding",
    "Verif.Props.duplicate_argument_finding"
   ],
   "note": "findings: a field named _pad0 before a padding is silently lost; two type arguments may share a name"
  },
  {
   "property": "C42",
   "status": "partial",
   "theorems": [
    "Verif.Props.type_argument_count_iff",
    "Verif.Props.prelude_types",
    "Verif.Props.type_reference_arity",
    "Verif.Props.type_arguments_accepted_partial",
    "Verif.Props.optional_type_argument_finding",
    "Verif.Props.type_argument_count_no_panic"
   ],
   "note": "an accepted reference supplies all required and at most all; violated by the code: optional arguments cannot be supplied when there are required ones"
  },
  {
   "property": "C43",
   "status": "partial",
   "theorems": [
    "Verif.Props.argument_count_iff",
    "Verif.Props.prelude_functions",
    "Verif.Props.argument_count_panics_iff",
    "Verif.Props.call_arity",
    "Verif.Props.argument_count_partial",
    "Verif.Props.too_many_arguments_finding",
    "Verif.Props.optional_argument_finding"
   ],
   "note": "an accepted call supplies all required and at most all; violated by the code: too many arguments, or optional ones after two required ones, panic"
  },
  {
   "property": "C44",
   "status": "partial",
   "theorems": [
    "Verif.Props.modules_loaded_once",
    "Verif.Props.program_modules_loaded_once",
    "Verif.Props.acyclic_imports_terminate_partial",
    "Verif.Props.cyclic_imports_finding",
    "Verif.Props.self_import_finding"
   ],
   "note": "a run that completes loads exactly the reachable modules, each once; import graphs without cycles terminate; violated by the code: a cycle is never resolved"
  },
  {
   "property": "C45",
   "status": "proved",
   "theorems": [
    "Verif.Props.import_succeeds_iff",
    "Verif.Props.import_missing",
    "Verif.Props.import_binds",
    "Verif.Props.import_binds_nothing_else",
    "Verif.Props.imported_name_denotes",
    "Verif.Props.function_import_finding",
    "Verif.Props.import_overwrites_finding"
   ],
   "note": ""
  },
  {
   "property": "C46",
   "status": "partial",
   "theorems": [
    "Verif.Props.recursive_types_flagged_partial",
    "Verif.Props.flags_of_module",
    "Verif.Props.cycle_search_terminates",
    "Verif.Props.contained_sound",
    "Verif.Props.contained_complete",
    "Verif.Props.flagged_reaches_name",
    "Verif.Props.not_recursive_flagged_finding",
    "Verif.Props.recursive_not_flagged_finding"
   ],
   "note": "exact for types whose reachable fields have distinct names; violated by the code otherwise, both ways"
  },
  {
   "property": "C47",
   "status": "proved",
   "theorems": [
    "Verif.Props.struct_derives_canonical",
    "Verif.Props.enum_derives_canonical",
    "Verif.Props.derives_order_irrelevant",
    "Verif.Props.canonical_unique"
   ],
   "note": ""
  },
  {
   "property": "C48",
   "status": "partial",
   "theorems": [
    "Verif.Props.bits_counts_ones",
    "Verif.Props.sum_exact",
    "Verif.Props.sum_negative_finding",
    "Verif.Props.len_is_size",
    "Verif.Props.len_call_iff",
    "Verif.Props.sum_call_iff"
   ],
   "note": "bits, len and sum of non-negative elements; violated by the code for negative elements (sum_negative_finding)"
  },
  {
   "property": "C49",
   "status": "proved",
   "theorems": [
    "Verif.Props.names_resolved_lexically",
    "Verif.Props.all_types_resolved"
   ],
   "note": "ElabDecl (Sem/ElabProgram.lean, Sem/Elab.lean) is the specification; all_types_resolved covers types imported from other modules, to any depth"
  },
  {
   "property": "C50",
   "status": "proved",
   "theorems": [
    "Verif.Props.misplaced_rejected",
    "Verif.Props.program_misplaced_rejected",
    "Verif.Props.placed_not_rejected",
    "Verif.Props.preludeEnv_np"
   ],
   "note": "PlacedDecl (Sem/Shape.lean) is the specification"
  },
  {
   "property": "C51",
   "status": "partial",
   "theorems": [
    "Verif.Props.typed_as_asked_partial",
    "Verif.Props.conditions_boolean_partial",
    "Verif.Props.forward_reference_finding",
    "Verif.Props.forward_parameter_finding"
   ],
   "note": "TypedField, Seen (Sem/Typed.lean) are the specification; violated by the code where a type not yet converted (the type itself or a later one) is involved: it is taken for bool, so a number passes as a condition; proved: that is the only exception"
  },
  {
   "property": "C52",
   "status": "partial",
   "theorems": [
    "Verif.Props.generator_shapes_partial",
    "Verif.Props.generator_shapes_all_partial",
    "Verif.Props.len_container_finding",
    "Verif.Props.sum_scalar_finding",
    "Verif.Props.blen_literal_finding",
    "Verif.Props.cast_to_bitfield_finding",
    "Verif.Props.container_parameter_finding",
    "Verif.Props.conditional_paddings_finding",
    "Verif.Props.enum_value_finding",
    "Verif.Props.self_reference_finding",
    "Verif.Props.shipped_example_finding",
    "Verif.Props.shipped_example_length_finding",
    "Verif.Props.shipped_example_type_finding"
   ],
   "note": "impossible shapes are never met, in own or imported types; violated by the code: accepted sources on which the generators panic or never return (findings). The example specification shipped with the project is itself rejected."
  },
  {
   "property": "C53",
   "status": "proved",
   "theorems": [
    "Verif.Props.self_contained",
    "Verif.Props.named_values_fixed",
    "Verif.Props.never_dangling"
   ],
   "note": "EnvClosed: the resolver's types name no fields; met by the resolver protospec comes with (preludeEnv_closed)"
  },
  {
   "property": "C54",
   "status": "partial",
   "theorems": [
    "Verif.Props.references_in_scope_partial",
    "Verif.Props.out_of_scope_rejected",
    "Verif.Props.arm_reference_finding",
    "Verif.Props.pad_reference_finding"
   ],
   "note": "LexicalDecl (Lexical.lean) is the specification; proved for all programs, own and imported types, if no field has the name of a padding; violated by the code otherwise (pad_reference_finding). Alternatives of a tagged enum may refer to earlier alternatives, on which no code comes out (arm_reference_finding)"
  },
  {
   "property": "C55",
   "status": "partial",
   "theorems": [
    "Verif.Props.source_round_trip_partial",
    "Verif.Props.text_round_trip_partial",
    "Verif.Props.source_in_order_partial",
    "Verif.Props.counted_round_trip"
   ],
   "note": "proved for specifications that satisfy schemaIn, a computable check that excludes the known defects of the back end (C07-C16); scoping conditions are discharged from acceptance"
  },
  {
   "property": "C56",
   "status": "partial",
   "theorems": [
    "Verif.Props.decoded_value_has_declared_type_partial",
    "Verif.Props.list_decoder_shape",
    "Verif.Props.nested_condition_finding",
    "Verif.Props.alias_array_finding"
   ],
   "note": "Belongs, rustFields (RustTypes.lean) are the specification of the declared types. Proved for all schemas without the two excluded shapes, both violated by the code: nested conditions give Option<Option<T>>, arrays of an alias are decoded as arrays of the aliased type; protospec accepts both, rustc rejects what it generates"
  },
  {
   "property": "C57",
   "status": "partial",
   "theorems": [
    "Verif.Props.checked_decoder_never_ill",
    "Verif.Props.checked_encoder_never_ill",
    "Verif.Props.decoded_value_encodes_without_ill",
    "Verif.Props.list_decoder_never_ill",
    "Verif.Props.counted_encoder_never_ill",
    "Verif.Props.alias_length_finding",
    "Verif.Props.conditional_reference_finding",
    "Verif.Props.elvis_conversion_finding",
    "Verif.Props.conditional_calculated_finding",
    "Verif.Props.conditional_length_finding"
   ],
   "note": "decChecks, encChecks (DecodeSafe.lean, EncodeSafe.lean, RustCheck.lean) state Rust's type rules for the emitted code, without ownership and borrowing, and reject some typings rustc would infer. That accepted specifications keep to the rules is false (findings)"
  },
  {
   "property": "C58",
   "status": "partial",
   "theorems": [
    "Verif.Props.code_from_source_partial",
    "Verif.Props.text_code_from_source_partial",
    "Verif.Props.order_is_said",
    "Verif.Props.condition_is_said",
    "Verif.Props.length_is_said",
    "Verif.Props.cast_is_said"
   ],
   "note": "Says.lean is the specification: typed relations between syntax trees and generated declarations, without graph or conversion; the kind of value a cast converts, the size len has and the flag x.flag tests are those of the type found by following names. Missing: specifications in which a field has the name of a padding (violated there, C54), imports under another name (outside the lowering), and the value of a flag tested on a field whose bitfield is written in place, or on a value that was converted to a type that is not a scalar"
  },
  {
   "property": "C59",
   "status": "partial",
   "theorems": [
    "Verif.Props.decoder_survives_any_input_partial",
    "Verif.Props.nonrecursive_stack_partial",
    "Verif.Props.recursive_stack_partial",
    "Verif.Props.list_decoder_survives",
    "Verif.Props.tree_decoder_survives",
    "Verif.Props.hostile_input_findings",
    "Verif.Props.wrapping_build_survives",
    "Verif.Props.endless_recursion_finding",
    "Verif.Props.bomb_finding"
   ],
   "note": "survives (Survive.lean, Bounds.lean) is the computable check. Partial: it uses intervals of values, so it also refuses some specifications that survive; and the unconditional claim is false (hostile_input_findings, endless_recursion_finding, bomb_finding). Time and memory within the answered runs are not bounded"
  },
  {
   "property": "C60",
   "status": "partial",
   "theorems": [
    "Verif.Props.arrival_never_changes_the_answer",
    "Verif.Props.arrival_does_not_matter_partial",
    "Verif.Props.decoder_survives_any_arrival_partial",
    "Verif.Props.text_arrival",
    "Verif.Props.text_arrival_value",
    "Verif.Props.cut_terminator_finding"
   ],
   "note": "proved in full: no schedule changes an answer, but it may make the decoder hang (cut_terminator_finding, terminators of two bytes or more); with terminators of one byte the pieces do not matter at all. Readers that fail are C67"
  },
  {
   "property": "C61",
   "status": "partial",
   "theorems": [
    "Verif.Props.bytes_behind_do_not_matter_partial",
    "Verif.Props.truncated_not_accepted_partial",
    "Verif.Props.truncated_is_an_error_partial",
    "Verif.Props.messages_in_sequence_partial",
    "Verif.Props.no_message_begins_another_partial",
    "Verif.Props.truncated_tree",
    "Verif.Props.delimited_by_transform",
    "Verif.Props.varint_ends",
    "Verif.Props.utf8_length_ends",
    "Verif.Props.utf16_length_ends",
    "Verif.Props.truncated_findings",
    "Verif.Props.nul_string_truncated_finding"
   ],
   "note": "delimited (Delimited.lean) is the computable check. Violated by the code outside of it: a container[n] with an array [..] in it, terminated arrays and zero-terminated utf8 accept truncated messages (findings)"
  },
  {
   "property": "C62",
   "status": "partial",
   "theorems": [
    "Verif.Props.failing_writer_has_the_beginning",
    "Verif.Props.enough_room_is_ok",
    "Verif.Props.failure_is_reported_partial",
    "Verif.Props.failing_value_fails_on_any_writer",
    "Verif.Props.vec_gets_everything",
    "Verif.Props.tree_on_a_failing_writer",
    "Verif.Props.lost_trailer_finding"
   ],
   "note": "proved in full: the writer has the beginning, enough room is Ok, failing values fail. That every failure is reported is false for transforms whose writers write in their destructor, as gzip's does (lost_trailer_finding), and proved for all others. Assumed of foreign types: they write with write_all (LibMeets)"
  },
  {
   "property": "C63",
   "status": "partial",
   "theorems": [
    "Verif.Props.async_decodes_the_same_partial",
    "Verif.Props.async_encodes_the_same_partial",
    "Verif.Props.async_same_without_transforms",
    "Verif.Props.async_trailer_finding",
    "Verif.Props.overread_finding"
   ],
   "note": "the async functions are modelled as the sync ones with another library of transforms, since they are emitted from the same instruction lists; proved for specifications whose transforms agree, in particular without transforms. gzip does not agree (findings; how flate2 and async_compression behave is from their documentation, they are not part of the repository)"
  },
  {
   "property": "C64",
   "status": "partial",
   "theorems": [
    "Verif.Props.parameters_mean_arguments_decoding_partial",
    "Verif.Props.parameters_mean_arguments_encoding_partial",
    "Verif.Props.text_parameters_mean_arguments_partial",
    "Verif.Props.captured_parameter_finding",
    "Verif.Props.register_parameter_finding",
    "Verif.Props.reader_parameter_finding"
   ],
   "note": "proved for all names except those of the variables of the generated functions (r_0, r_1, .., buf, r, r_len, r_xform, big_scratch, reader, writer), for which it is violated by the code (findings). Hygiene.lean runs the emitted code with Rust's block scopes, in which parameters and registers share one name space"
  },
  {
   "property": "C65",
   "status": "partial",
   "theorems": [
    "Verif.Props.decoding_loses_nothing_partial",
    "Verif.Props.decoding_loses_nothing_before_more_partial",
    "Verif.Props.different_messages_differ_partial",
    "Verif.Props.changed_message_shows_partial",
    "Verif.Props.forwarded_unchanged_partial",
    "Verif.Props.trees_differ",
    "Verif.Props.item_forwarded",
    "Verif.Props.lossless_texts",
    "Verif.Props.utf8_length_keeps",
    "Verif.Props.utf8_nul_keeps",
    "Verif.Props.utf16_length_keeps",
    "Verif.Props.lossy_findings",
    "Verif.Props.varint_lossy_finding"
   ],
   "note": "lossless (Lossless.lean) is the computable check; Val.rust is what a Rust program can see of a value. Violated by the code outside of it: a bool is true for 255 different bytes, paddings are not looked at, a terminator may be missing at the end, bytes at the end of u16[..] are dropped, variable-length integers have several forms (findings)"
  },
  {
   "property": "C66",
   "status": "partial",
   "theorems": [
    "Verif.Props.encode_after_decode_partial",
    "Verif.Props.encode_after_decode_before_more_partial",
    "Verif.Props.encode_after_decode_or_fails_partial",
    "Verif.Props.relayed_unchanged_partial",
    "Verif.Props.list_forwarded",
    "Verif.Props.tree_forwarded",
    "Verif.Props.texts_forwarded",
    "Verif.Props.utf8_back",
    "Verif.Props.forth_texts",
    "Verif.Props.forth_findings"
   ],
   "note": "forth (Forth.lean) is the computable check. No hypothesis about the value: it is whatever the decoder returned. Outside of the check it is violated by the code: a container length from 2^63 on is decoded but panics in the encoder, calculated fields are recomputed, counts that wrap (findings)"
  },
  {
   "property": "C67",
   "status": "partial",
   "theorems": [
    "Verif.Props.failure_is_not_the_end",
    "Verif.Props.interrupted_is_no_value",
    "Verif.Props.failure_behind_the_message",
    "Verif.Props.failure_right_behind_the_message_partial",
    "Verif.Props.failing_reader_iff_partial",
    "Verif.Props.failing_reader_cases",
    "Verif.Props.list_before_a_failure",
    "Verif.Props.lines_before_a_failure",
    "Verif.Props.lines_before_any_failure",
    "Verif.Props.interrupted_list",
    "Verif.Props.utf8_fails",
    "Verif.Props.interrupted_texts",
    "Verif.Props.interrupted_string_case",
    "Verif.Props.half_terminator_finding",
    "Verif.Props.empty_terminator_fails"
   ],
   "note": "proved in full: a value returned is independent of what follows, an interrupted message is no value, a failure at least one byte behind the message does not matter. For terminators that are not empty, exactly what a failing reader returns (failing_reader_iff_partial). Partial: this is false for the empty terminator (empty_terminator_fails) and not proved for terminators not written as literals; half a terminator of two bytes makes the decoder hang instead of reporting the failure (finding). Transforms are assumed to read what they need when they are created"
  },
  {
   "property": "C68",
   "status": "partial",
   "theorems": [
    "Verif.Props.flag_programs_round_trip",
    "Verif.Props.complement_accepted_iff",
    "Verif.Props.complement_finding",
    "Verif.Props.getters_and_operators",
    "Verif.Props.getter_of_or",
    "Verif.Props.getters_after_setters",
    "Verif.Props.flags_set_are_flags_read"
   ],
   "note": "everything in the statement is proved; partial because ! is left out of it: the complement of a value is accepted by the decoder exactly if the flags cover the representation (complement_accepted_iff), so !Flags::A is in general encoded into bytes that the decoder refuses (complement_finding)"
  },
  {
   "property": "C69",
   "status": "partial",
   "theorems": [
    "Verif.Props.sizes_iff_no_type_holds_itself",
    "Verif.Props.every_written_type_sized",
    "Verif.Props.parts_are_of_written_types",
    "Verif.Props.tree_sized",
    "Verif.Props.unsized_findings",
    "Verif.Props.list_not_sized"
   ],
   "note": "violated by the code: a type that holds itself other than in an array, in a conditional field or through others, is accepted by protospec and refused by rustc (unsized_findings). Proved: this is the only case, and finiteSizes decides it"
  },
  {
   "property": "C70",
   "status": "partial",
   "theorems": [
    "Verif.Props.readers_ok_iff",
    "Verif.Props.friendly_readers_ok",
    "Verif.Props.transform_must_be_last",
    "Verif.Props.stacked_readers_refused",
    "Verif.Props.reference_behind_blind_refused",
    "Verif.Props.alias_behind_blind_refused",
    "Verif.Props.packet_readers_ok",
    "Verif.Props.reader_findings"
   ],
   "note": "violated by the code: a field behind a compressed one uses a moved reader; references, terminated arrays and zero-terminated strings in transformed fields need a BufRead that gzip, base64 and conditional transforms do not give (reader_findings). Proved: exactly when it holds, as a computable condition on the specification (readers_ok_iff), that it holds without transforms or with transforms that return a BufRead and borrow (friendly_readers_ok), and that the refused shapes never compile. decode_sync only; the signatures of flate2 and base64 are taken from their documentation"
  },
  {
   "property": "C71",
   "status": "partial",
   "theorems": [
    "Verif.Props.finitely_many_instances_iff",
    "Verif.Props.nonrecursive_instances_finite",
    "Verif.Props.tree_instances_finite",
    "Verif.Props.instance_findings"
   ],
   "note": "violated by the code for recursive types that refer to themselves inside a container with a length or behind a transform (instance_findings). Proved: this is the only case, and finiteInstances decides it"
  },
  {
   "property": "C72",
   "status": "partial",
   "theorems": [
    "Verif.Props.writers_ok_iff",
    "Verif.Props.gentle_writers_ok",
    "Verif.Props.stacked_transforms_refused",
    "Verif.Props.reference_behind_transform_refused",
    "Verif.Props.reference_type_behind_transform_refused",
    "Verif.Props.write_behind_moved_refused",
    "Verif.Props.sinks_accepted",
    "Verif.Props.sink_findings"
   ],
   "note": "violated by the code: two transforms at one field, a reference to a type right behind a transform, and a field behind a compressed one outside of containers with a length give encoders that rustc refuses (sink_findings). Proved: exactly when it holds, as a computable condition on the specification (writers_ok_iff), that it holds without transforms and for single transforms that borrow or write to buffers (gentle_writers_ok), and that the three cases never compile"
  },
  {
   "property": "C73",
   "status": "proved",
   "theorems": [
    "Verif.Props.encoder_instances",
    "Verif.Props.encoder_instances_finite"
   ],
   "note": "for specifications whose encoders pass C72's condition"
  },
  {
   "property": "C74",
   "status": "partial",
   "theorems": [
    "Verif.Props.traits_accepted_iff",
    "Verif.Props.number_type_accepted_iff",
    "Verif.Props.default_options_accepted_iff",
    "Verif.Props.default_compile_options_accepted_iff",
    "Verif.Props.asked_for_is_declared",
    "Verif.Props.struct_asks_of_enum",
    "Verif.Props.enum_asks_of_struct",
    "Verif.Props.traits_ok_case",
    "Verif.Props.traits_findings"
   ],
   "note": "violated by the code: with the default options (Eq is among them) every specification with an f32 or f64 is refused by rustc, so is an enum whose only item is the default one, and bitfields without PartialEq (traits_findings). Proved: exactly when it holds, for lists that agree for structs and enums; for lists that do not, what the one asks of the other. The nine derivable traits of the standard library only"
  },
  {
   "property": "C75",
   "status": "partial",
   "theorems": [
    "Verif.Props.default_exists",
    "Verif.Props.default_belongs",
    "Verif.Props.default_bitfield_accepted",
    "Verif.Props.default_encodes_without_ill",
    "Verif.Props.default_wire_case",
    "Verif.Props.default_wire_findings",
    "Verif.Props.defaults_case"
   ],
   "note": "proved in full: it returns, one value, of the type, and encoders do nothing ill with it. Partial: that the encoder accepts it is false: arrays of fixed length are empty by default and panic, conditional fields are absent whatever their condition says, the first alternative need not be the chosen one (default_wire_findings)"
  },
  {
   "property": "C76",
   "status": "partial",
   "theorems": [
    "Verif.Props.encoder_survives_any_value_partial",
    "Verif.Props.encoder_panics_on_miscount_only_partial",
    "Verif.Props.forwarding_survives_partial",
    "Verif.Props.default_survives_partial",
    "Verif.Props.stack_bound_exact",
    "Verif.Props.chain_encoder_survives",
    "Verif.Props.tree_encoder_survives",
    "Verif.Props.encoder_panic_findings"
   ],
   "note": "violated by the code for specifications outside the check encSurvives; for every condition of it encoder_panic_findings has an accepted specification whose encoder panics. Proved for all others: every value of the type ends in bytes or an Err (with counted arrays: or the panic of a wrong count and no other), with as many nested calls as declared types are nested in the value, which is exact (stack_bound_exact). Calculations on blen other than a cast are outside the check because lengths are unbounded in the model."
  },
  {
   "property": "C77",
   "status": "partial",
   "theorems": [
    "Verif.Props.accepted_names",
    "Verif.Props.names_kept_partial",
    "Verif.Props.mentioned_declared",
    "Verif.Props.source_names_kept_partial",
    "Verif.Props.named_importFree",
    "Verif.Props.kept_names_give",
    "Verif.Props.kept_names_decode",
    "Verif.Props.header_name_refused",
    "Verif.Props.value_type_refused",
    "Verif.Props.rust_word_refused",
    "Verif.Props.named_ok",
    "Verif.Props.named_meets",
    "Verif.Props.rust_word_finding",
    "Verif.Props.value_type_finding",
    "Verif.Props.taken_type_finding",
    "Verif.Props.shadowing_finding",
    "Verif.Props.one_list_finding",
    "Verif.Props.import_finding"
   ],
   "note": "violated by the code: no name is checked against Rust's words, against the names of the generated header, or against those of the statement templates; each finding is an accepted specification that rustc refuses. Proved: what acceptance does guarantee (accepted_names), and that names chosen so that they stay out of the way (WellNamed, a condition on the names of the specification alone) satisfy all the rules, for every specification without imports (source_names_kept_partial) and for others if the types mentioned are imported too; conversely, what rustc's acceptance implies for C03 and C64"
  },
  {
   "property": "C78",
   "status": "partial",
   "theorems": [
    "Verif.Props.text_defaults_partial",
    "Verif.Props.text_default_scope_partial",
    "Verif.Props.decode_left_out",
    "Verif.Props.encode_left_out",
    "Verif.Props.left_out_is_default",
    "Verif.Props.filled_passed",
    "Verif.Props.default_meaning_partial",
    "Verif.Props.defaults_round_trip_partial",
    "Verif.Props.sized_round_trip",
    "Verif.Props.text_entries_in_scope_partial",
    "Verif.Props.legal_iff",
    "Verif.Props.default_mentioned_finding",
    "Verif.Props.no_defaults_same",
    "Verif.Props.no_defaults_run",
    "Verif.Props.sized_module",
    "Verif.Props.sized_filled",
    "Verif.Props.default_called_finding",
    "Verif.Props.default_value_finding"
   ],
   "note": "violated by the code: a type with default values cannot be used by another type, with or without an argument for the parameter (the generated call passes a plain value, or fewer arguments, to a function that takes an Option), and a default that mentions its own parameter or a constant gives code that rustc refuses (default_called_finding, default_value_finding). Proved: exactly which modules are refused for this (legal_iff), and for all others: which defaults the generated functions have, that leaving out is the same as passing the value of the default, what that value is, and that what was encoded with parameters left out is decoded again (defaults_round_trip_partial, C55) (up to C39's defects of emitted expressions). _partial: no field is named like a padding"
  },
  {
   "property": "C79",
   "status": "partial",
   "theorems": [
    "Verif.Props.compile_spec_writes_iff",
    "Verif.Props.compile_spec_refused_iff",
    "Verif.Props.compile_spec_self_contained",
    "Verif.Props.shipped_import_refused",
    "Verif.Props.shippedEnv_closed",
    "Verif.Props.format_failure_finding"
   ],
   "note": "proved with what rustfmt prints in place of the code; violated by the code where rustfmt fails: its exit status is ignored, an empty file is written and Ok returned (format_failure_finding). The emitted text, rustfmt and the file system are parameters; a name that is an absolute path leaves OUT_DIR"
  }
 ]
}