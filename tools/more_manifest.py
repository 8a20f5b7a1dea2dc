c(3,"proved","decode_refines take_is_window","whole decoder generator + interpreter vs specification; hypothesis: no repeated field names (rustc rejects those)")
c(5,"proved","decode_local","prefix fragment: no [..], [..e]; foreign types/transforms assumed local themselves")
c(6,"partial","decoded_present_iff absent_field_reads_nothing present_field_reads_field","decoding side")
c(7,"partial","decoded_arm_is_first later_arms_do_not_matter no_arm_is_error","decoding side")
c(11,"proved","limited_decl_within_length limited_field_within_length","")
c(12,"partial","short_container_not_skipped exact_container_consumed_partial","violated by the code: the unused rest of container[len] is not skipped; holds when the content uses the whole length")
c(13,"partial","decoded_array_length decoded_array_elements","decoding side")
c(14,"partial","unbounded_consumes_all unbounded_drops_tail unbounded_whole_elements_partial unbounded_other_is_elements","violated by the code for primitive, enum and bitfield elements: an incomplete last element is dropped")
c(15,"partial","terminated_array_partial terminated_array_diverges missing_terminator_accepted terminated_array_ends_partial","violated by the code: endless loop and accepted missing terminator")
c(2,"partial","encode_refines","generated encoder = the specified encoder; the declaration-order form of the specification is proved for the calculated-field-free case next")
c(6,"proved","decoded_present_iff absent_field_reads_nothing present_field_reads_field false_condition_writes_nothing absent_value_is_error present_value_is_plain false_container_writes_nothing","decoding and encoding")
c(7,"partial","decoded_arm_is_first later_arms_do_not_matter no_arm_is_error wrong_arm_is_error later_arms_do_not_matter_enc no_arm_writes_nothing","violated by the encoder: with no matching arm it writes nothing and reports success")
c(8,"partial","calculated_value_ignored tagged_calculated_leaks","proved for containers; violated for struct arms of tagged enums")
c(10,"partial","overlapping_lengths_out_of_order","violated by the code: two overlapping length fields come out in the wrong order")
c(12,"partial","short_container_not_skipped exact_container_consumed_partial short_container_not_filled","violated by the code: the unused rest of container[len] is neither skipped nor filled; holds when the content uses the whole length")
c(13,"partial","decoded_array_length decoded_array_elements wrong_count_panics other_array_elements_partial longer_array_truncated right_count_elements right_count_bytes","violated by the encoder for arrays of non-primitives (longer values are cut off)")
c(16,"partial","encoded_chain decoded_chain chained_transforms_do_not_round_trip","violated by the code: both sides use the same order, so chains of two do not round trip")
c(2,"partial","encode_refines encoded_in_order arm_in_order_partial","proved for containers (declaration order, every nesting, with calculated fields) and struct arms without blen; missing: struct arms of tagged enums with blen fields, where the supplied value leaks (tagged_calculated_leaks)")
c(8,"partial","calculated_value_ignored encoded_in_order tagged_calculated_leaks","proved for containers (the wire value is the value of the expression); violated for struct arms of tagged enums")
c(9,"partial","encoded_in_order length_field_value blen_call_iff length_field_value_u64 length_ignores_transforms","proved for containers without transforms; violated for containers with transforms: the length is that of the untransformed content")
c(10,"partial","overlapping_lengths_out_of_order encoded_in_order","violated by the code: two overlapping length fields come out in the wrong order; order proved when at most one waits")

c(4,"proved","decode_after_encode decode_after_encode_calculated len_round_trip item_round_trip tag_round_trip","fragment as in the statement (WfSchema, Fitting); outside it the code violates it: chained_transforms_do_not_round_trip, overlapping_lengths_out_of_order")
c(15,"partial","terminated_array_partial terminated_array_diverges missing_terminator_accepted terminated_array_ends_partial terminated_round_trip","round trip proved; violated by the code: endless loop and accepted missing terminator")
c(16,"partial","encoded_chain decoded_chain chained_transforms_do_not_round_trip transform_round_trip","single transforms round trip; violated by the code for chains of two: both sides use the same order")
c(39,"partial","emitted_value_is_meaning cast_iff meaning_is_computed meaning_unique unary_over_cast_finding not_emitted_finding elvis_default_finding","sound and complete for expressions without the defective forms (Emittable, Defaults); violated by the code for an operator applied to a cast, named constants, array indices, >>>, and defaults of ?: that fail")
c(48,"partial","bits_counts_ones sum_exact sum_negative_finding len_is_size len_call_iff sum_call_iff","bits, len and sum of non-negative elements; violated by the code for negative elements (sum_negative_finding)")
c(17,"proved","enum_from_then_to enum_accepts_declared enum_default_accepts_all enum_to_then_from enum_default_round_trip enum_default_is_last enum_decodes enum_default_decodes","")
c(20,"proved","bitfield_accepts bitfield_getter bitfield_setter bitfield_decodes bitfield_zero_flag","")
c(26,"partial","tokenize_terminates tokenize_cuts tokenize_accepts_partial tokenize_no_panic_partial tokenize_unexpected Cuts.unique character_classes identifier_iff hex_escape_panics_finding","terminates, cuts exactly and accepts exactly the lexical grammar; violated by the code: two-digit escapes in strings can panic")
c(27,"partial","string_bytes_partial hex_digit_values hex_escape_panics_finding hex_escape_finding hex_escape_general_finding","proved for literals without two-digit escapes; violated by the code for those with")
c(28,"proved","strip_is_filter whitespace_irrelevant comments_irrelevant before_tokens_boundary","")
c(29,"partial","print_read_partial print_string_finding","proved for all lists of tokens whose strings have no quote or backslash; violated by the code for those with")
c(30,"partial","spans_exact_partial first_line_finding comment_column_finding string_line_finding span_add_partial span_add_finding","proved for tokens on later lines not preceded by a line break inside a token; violated by the code on the first line, after comments and strings with line breaks")
c(31,"proved","parens_needed expression_roundtrip binary_assoc prefix_binds nested_ternary_finding","Expression trees of every shape and depth: printed with minimal parentheses (printE, PrintSpec.lean) they are read back; parentheses are shown necessary. SpeltE only restricts types inside casts to spellable ones. Finding: a ternary's false branch is not a ternary (rejected without parentheses; the printer writes them).")
c(32,"proved","program_roundtrip writable_iff_parsed reparse program_source_roundtrip gr_no_comment calculated_flag_finding literal_endian_finding","All programs the parser can return (characterised exactly by writable_iff_parsed). Limits: calculated fields cannot have flags, endianness of literal suffixes is dropped.")
c(33,"proved","parse_terminates parse_no_panic parse_unexpected parse_iff_grammar grammar_unambiguous parse_source","All token lists and source texts; the parser accepts exactly the grammar of ParserSpec.lean.")
c(37,"partial","implicit_then_explicit_partial castable_iff implicit_castable_iff cast_accepted_iff narrow_enum_cast_finding wide_enum_cast_finding array_cast_finding literal_cast_finding","violated by the code: enum to a wider integer and back, arrays, and unsuffixed literals are usable but not castable. castable_iff, implicit_iff give both relations as tables, implicit_castable_iff the exact difference on them (Props/Casts.lean)")
c(38,"proved","converted_expression_fits converted_expression_type converted_integer converted_condition implicit_iff integer_expected_iff expression_type_iff varint_takes_iff varint_used_iff string_takes_iff string_used_iff compare_any_finding compare_bools_finding f64_finding","every expression, scope, graph and expected type; what is accepted is laxer than one would expect (compare_any_finding)")
c(42,"partial","type_argument_count_iff prelude_types type_reference_arity type_arguments_accepted_partial optional_type_argument_finding type_argument_count_no_panic","an accepted reference supplies all required and at most all; violated by the code: optional arguments cannot be supplied when there are required ones")
c(43,"partial","argument_count_iff prelude_functions argument_count_panics_iff call_arity argument_count_partial too_many_arguments_finding optional_argument_finding","an accepted call supplies all required and at most all; violated by the code: too many arguments, or optional ones after two required ones, panic")
c(44,"partial","modules_loaded_once program_modules_loaded_once acyclic_imports_terminate_partial cyclic_imports_finding self_import_finding","a run that completes loads exactly the reachable modules, each once; import graphs without cycles terminate; violated by the code: a cycle is never resolved")
c(45,"proved","import_succeeds_iff import_missing import_binds import_binds_nothing_else imported_name_denotes function_import_finding import_overwrites_finding","")
c(46,"partial","recursive_types_flagged_partial flags_of_module cycle_search_terminates contained_sound contained_complete flagged_reaches_name not_recursive_flagged_finding recursive_not_flagged_finding","exact for types whose reachable fields have distinct names; violated by the code otherwise, both ways")
c(47,"proved","struct_derives_canonical enum_derives_canonical derives_order_irrelevant canonical_unique","")
c(41,"proved","duplicates_rejected program_duplicates_rejected distinct_not_rejected preludeEnv_nr pad_name_finding duplicate_argument_finding","findings: a field named _pad0 before a padding is silently lost; two type arguments may share a name")
c(40,"proved","names_resolved_lexically access_iff member_iff offers_unique alias_access_refused name_denotes_one name_resolves_iff unresolved_is_error denotes_siblings denotes_top field_sees_earlier_siblings padding_sees_earlier_siblings calculated_sees_all_siblings declared_field_sees constant_sees_constants unresolved_operand_finding","finding: an unresolved operand is reported as a type error of the other operand")
c(49,"proved","names_resolved_lexically","ElabDecl (Sem/ElabProgram.lean, Sem/Elab.lean) is the specification")
c(50,"proved","misplaced_rejected program_misplaced_rejected placed_not_rejected preludeEnv_np","PlacedDecl (Sem/Shape.lean) is the specification")
c(51,"partial","typed_as_asked_partial conditions_boolean_partial forward_reference_finding forward_parameter_finding","TypedField, Seen (Sem/Typed.lean) are the specification; violated by the code where a type not yet converted (the type itself or a later one) is involved: it is taken for bool, so a number passes as a condition; proved: that is the only exception")
c(52,"partial","generator_shapes_partial len_container_finding sum_scalar_finding blen_literal_finding cast_to_bitfield_finding container_parameter_finding conditional_paddings_finding enum_value_finding self_reference_finding shipped_example_finding shipped_example_length_finding shipped_example_type_finding","impossible shapes are never met; violated by the code: accepted sources on which the generators panic or never return (findings). The example specification shipped with the project is itself rejected.")
c(49,"proved","names_resolved_lexically all_types_resolved","ElabDecl (Sem/ElabProgram.lean, Sem/Elab.lean) is the specification; all_types_resolved covers types imported from other modules, to any depth")
c(52,"partial","generator_shapes_partial generator_shapes_all_partial len_container_finding sum_scalar_finding blen_literal_finding cast_to_bitfield_finding container_parameter_finding conditional_paddings_finding enum_value_finding self_reference_finding shipped_example_finding shipped_example_length_finding shipped_example_type_finding","impossible shapes are never met, in own or imported types; violated by the code: accepted sources on which the generators panic or never return (findings). The example specification shipped with the project is itself rejected.")
c(53,"proved","self_contained named_values_fixed never_dangling","EnvClosed: the resolver's types name no fields; met by the resolver protospec comes with (preludeEnv_closed)")
c(54,"partial","references_in_scope_partial out_of_scope_rejected arm_reference_finding pad_reference_finding","LexicalDecl (Lexical.lean) is the specification; proved for all programs, own and imported types, if no field has the name of a padding; violated by the code otherwise (pad_reference_finding). Alternatives of a tagged enum may refer to earlier alternatives, on which no code comes out (arm_reference_finding)")
c(55,"partial","source_round_trip_partial text_round_trip_partial source_in_order_partial counted_round_trip","proved for specifications that satisfy schemaIn, a computable check that excludes the known defects of the back end (C07-C16); scoping conditions are discharged from acceptance")

c(56,"partial","decoded_value_has_declared_type_partial list_decoder_shape nested_condition_finding alias_array_finding","Belongs, rustFields (RustTypes.lean) are the specification of the declared types. Proved for all schemas without the two excluded shapes, both violated by the code: nested conditions give Option<Option<T>>, arrays of an alias are decoded as arrays of the aliased type; protospec accepts both, rustc rejects what it generates")
c(57,"partial","checked_decoder_never_ill list_decoder_never_ill alias_length_finding","decChecks (DecodeSafe.lean, RustCheck.lean) states Rust's type rules for the emitted code. Decoders; encoders are missing. That accepted specifications keep to the rules is false (alias_length_finding and findings of C48, C54)")

c(57,"partial","checked_decoder_never_ill checked_encoder_never_ill decoded_value_encodes_without_ill list_decoder_never_ill counted_encoder_never_ill alias_length_finding conditional_reference_finding elvis_conversion_finding conditional_calculated_finding conditional_length_finding","decChecks, encChecks (DecodeSafe.lean, EncodeSafe.lean, RustCheck.lean) state Rust's type rules for the emitted code, without ownership and borrowing, and reject some typings rustc would infer. That accepted specifications keep to the rules is false (findings)")

c(58,"partial","code_from_source_partial text_code_from_source_partial order_is_said condition_is_said length_is_said cast_is_said","Says.lean is the specification: typed relations between syntax trees and generated declarations, without graph or conversion; the kind of value a cast converts, the size len has and the flag x.flag tests are those of the type found by following names. Missing: specifications in which a field has the name of a padding (violated there, C54), imports under another name (outside the lowering), and the value of a flag tested on a field whose bitfield is written in place, or on a value that was converted to a type that is not a scalar")

c(13,"partial","decoded_array_length decoded_array_elements array_count_wraps wrong_count_panics other_array_elements_partial longer_array_truncated right_count_elements right_count_bytes","violated by the encoder for arrays of non-primitives (longer values are cut off) and by the decoder of release builds for counts whose byte size passes 2^64 (array_count_wraps)")
c(59,"partial","decoder_survives_any_input_partial nonrecursive_stack_partial recursive_stack_partial list_decoder_survives tree_decoder_survives hostile_input_findings wrapping_build_survives endless_recursion_finding bomb_finding","survives (Survive.lean, Bounds.lean) is the computable check. Partial: it uses intervals of values, so it also refuses some specifications that survive; and the unconditional claim is false (hostile_input_findings, endless_recursion_finding, bomb_finding). Time and memory within the answered runs are not bounded")
c(60,"partial","arrival_never_changes_the_answer arrival_does_not_matter_partial decoder_survives_any_arrival_partial text_arrival text_arrival_value cut_terminator_finding","proved in full: no schedule changes an answer, but it may make the decoder hang (cut_terminator_finding, terminators of two bytes or more); with terminators of one byte the pieces do not matter at all. Readers that fail are C67")
c(61,"partial","bytes_behind_do_not_matter_partial truncated_not_accepted_partial truncated_is_an_error_partial messages_in_sequence_partial no_message_begins_another_partial truncated_tree delimited_by_transform varint_ends utf8_length_ends utf16_length_ends truncated_findings nul_string_truncated_finding","delimited (Delimited.lean) is the computable check. Violated by the code outside of it: a container[n] with an array [..] in it, terminated arrays and zero-terminated utf8 accept truncated messages (findings)")
c(62,"partial","failing_writer_has_the_beginning enough_room_is_ok failure_is_reported_partial failing_value_fails_on_any_writer vec_gets_everything tree_on_a_failing_writer lost_trailer_finding","proved in full: the writer has the beginning, enough room is Ok, failing values fail. That every failure is reported is false for transforms whose writers write in their destructor, as gzip's does (lost_trailer_finding), and proved for all others. Assumed of foreign types: they write with write_all (LibMeets)")
c(63,"partial","async_decodes_the_same_partial async_encodes_the_same_partial async_same_without_transforms async_trailer_finding overread_finding","the async functions are modelled as the sync ones with another library of transforms, since they are emitted from the same instruction lists; proved for specifications whose transforms agree, in particular without transforms. gzip does not agree (findings; how flate2 and async_compression behave is from their documentation, they are not part of the repository)")
c(64,"partial","parameters_mean_arguments_decoding_partial parameters_mean_arguments_encoding_partial text_parameters_mean_arguments_partial captured_parameter_finding register_parameter_finding reader_parameter_finding","proved for all names except those of the variables of the generated functions (r_0, r_1, .., buf, r, r_len, r_xform, big_scratch, reader, writer), for which it is violated by the code (findings). Hygiene.lean runs the emitted code with Rust's block scopes, in which parameters and registers share one name space")
c(65,"partial","decoding_loses_nothing_partial decoding_loses_nothing_before_more_partial different_messages_differ_partial changed_message_shows_partial forwarded_unchanged_partial trees_differ item_forwarded lossless_texts utf8_length_keeps utf8_nul_keeps utf16_length_keeps lossy_findings varint_lossy_finding","lossless (Lossless.lean) is the computable check; Val.rust is what a Rust program can see of a value. Violated by the code outside of it: a bool is true for 255 different bytes, paddings are not looked at, a terminator may be missing at the end, bytes at the end of u16[..] are dropped, variable-length integers have several forms (findings)")
c(66,"partial","encode_after_decode_partial encode_after_decode_before_more_partial encode_after_decode_or_fails_partial relayed_unchanged_partial list_forwarded tree_forwarded texts_forwarded utf8_back forth_texts forth_findings","forth (Forth.lean) is the computable check. No hypothesis about the value: it is whatever the decoder returned. Outside of the check it is violated by the code: a container length from 2^63 on is decoded but panics in the encoder, calculated fields are recomputed, counts that wrap (findings)")
c(67,"partial","failure_is_not_the_end interrupted_is_no_value failure_behind_the_message failure_right_behind_the_message_partial failing_reader_iff_partial failing_reader_cases list_before_a_failure lines_before_a_failure lines_before_any_failure interrupted_list utf8_fails interrupted_texts interrupted_string_case half_terminator_finding empty_terminator_fails","proved in full: a value returned is independent of what follows, an interrupted message is no value, a failure at least one byte behind the message does not matter. For terminators that are not empty, exactly what a failing reader returns (failing_reader_iff_partial). Partial: this is false for the empty terminator (empty_terminator_fails) and not proved for terminators not written as literals; half a terminator of two bytes makes the decoder hang instead of reporting the failure (finding). Transforms are assumed to read what they need when they are created")
c(68,"partial","flag_programs_round_trip complement_accepted_iff complement_finding getters_and_operators getter_of_or getters_after_setters flags_set_are_flags_read","everything in the statement is proved; partial because ! is left out of it: the complement of a value is accepted by the decoder exactly if the flags cover the representation (complement_accepted_iff), so !Flags::A is in general encoded into bytes that the decoder refuses (complement_finding)")
c(69,"partial","sizes_iff_no_type_holds_itself every_written_type_sized tree_sized unsized_findings list_not_sized","violated by the code: a type that holds itself other than in an array, in a conditional field or through others, is accepted by protospec and refused by rustc (unsized_findings). Proved: this is the only case, and finiteSizes decides it")
c(69,"partial","sizes_iff_no_type_holds_itself every_written_type_sized parts_are_of_written_types tree_sized unsized_findings list_not_sized","violated by the code: a type that holds itself other than in an array, in a conditional field or through others, is accepted by protospec and refused by rustc (unsized_findings). Proved: this is the only case, and finiteSizes decides it")
c(70,"partial","readers_ok_iff friendly_readers_ok transform_must_be_last stacked_readers_refused reference_behind_blind_refused alias_behind_blind_refused packet_readers_ok reader_findings","violated by the code: a field behind a compressed one uses a moved reader; references, terminated arrays and zero-terminated strings in transformed fields need a BufRead that gzip, base64 and conditional transforms do not give (reader_findings). Proved: exactly when it holds, as a computable condition on the specification (readers_ok_iff), that it holds without transforms or with transforms that return a BufRead and borrow (friendly_readers_ok), and that the refused shapes never compile. decode_sync only; the signatures of flate2 and base64 are taken from their documentation")
c(71,"partial","finitely_many_instances_iff nonrecursive_instances_finite tree_instances_finite instance_findings","violated by the code for recursive types that refer to themselves inside a container with a length or behind a transform (instance_findings). Proved: this is the only case, and finiteInstances decides it")
c(72,"partial","writers_ok_iff gentle_writers_ok stacked_transforms_refused reference_behind_transform_refused reference_type_behind_transform_refused write_behind_moved_refused sinks_accepted sink_findings","violated by the code: two transforms at one field, a reference to a type right behind a transform, and a field behind a compressed one outside of containers with a length give encoders that rustc refuses (sink_findings). Proved: exactly when it holds, as a computable condition on the specification (writers_ok_iff), that it holds without transforms and for single transforms that borrow or write to buffers (gentle_writers_ok), and that the three cases never compile")
c(73,"proved","encoder_instances encoder_instances_finite","for specifications whose encoders pass C72's condition")
c(74,"partial","traits_accepted_iff number_type_accepted_iff default_options_accepted_iff default_compile_options_accepted_iff asked_for_is_declared struct_asks_of_enum enum_asks_of_struct traits_ok_case traits_findings","violated by the code: with the default options (Eq is among them) every specification with an f32 or f64 is refused by rustc, so is an enum whose only item is the default one, and bitfields without PartialEq (traits_findings). Proved: exactly when it holds, for lists that agree for structs and enums; for lists that do not, what the one asks of the other. The nine derivable traits of the standard library only")
c(75,"partial","default_exists default_belongs default_bitfield_accepted default_encodes_without_ill default_wire_case default_wire_findings defaults_case","proved in full: it returns, one value, of the type, and encoders do nothing ill with it. Partial: that the encoder accepts it is false: arrays of fixed length are empty by default and panic, conditional fields are absent whatever their condition says, the first alternative need not be the chosen one (default_wire_findings)")
c(76,"partial","encoder_survives_any_value_partial encoder_panics_on_miscount_only_partial forwarding_survives_partial default_survives_partial stack_bound_exact chain_encoder_survives tree_encoder_survives encoder_panic_findings","violated by the code for specifications outside the check encSurvives; for every condition of it encoder_panic_findings has an accepted specification whose encoder panics. Proved for all others: every value of the type ends in bytes or an Err (with counted arrays: or the panic of a wrong count and no other), with as many nested calls as declared types are nested in the value, which is exact (stack_bound_exact). Calculations on blen other than a cast are outside the check because lengths are unbounded in the model.")
c(77,"partial","accepted_names names_kept_partial mentioned_declared source_names_kept_partial named_importFree kept_names_give kept_names_decode header_name_refused value_type_refused rust_word_refused named_ok named_meets rust_word_finding value_type_finding taken_type_finding shadowing_finding one_list_finding import_finding","violated by the code: no name is checked against Rust's words, against the names of the generated header, or against those of the statement templates; each finding is an accepted specification that rustc refuses. Proved: what acceptance does guarantee (accepted_names), and that names chosen so that they stay out of the way (WellNamed, a condition on the names of the specification alone) satisfy all the rules, for every specification without imports (source_names_kept_partial) and for others if the types mentioned are imported too; conversely, what rustc's acceptance implies for C03 and C64")
c(78,"partial","text_defaults_partial text_default_scope_partial decode_left_out encode_left_out left_out_is_default filled_passed default_meaning_partial defaults_round_trip_partial sized_round_trip text_entries_in_scope_partial legal_iff default_mentioned_finding no_defaults_same no_defaults_run sized_module sized_filled default_called_finding default_value_finding","violated by the code: a type with default values cannot be used by another type, with or without an argument for the parameter (the generated call passes a plain value, or fewer arguments, to a function that takes an Option), and a default that mentions its own parameter or a constant gives code that rustc refuses (default_called_finding, default_value_finding). Proved: exactly which modules are refused for this (legal_iff), and for all others: which defaults the generated functions have, that leaving out is the same as passing the value of the default, what that value is, and that what was encoded with parameters left out is decoded again (defaults_round_trip_partial, C55) (up to C39's defects of emitted expressions). _partial: no field is named like a padding")
c(79,"partial","compile_spec_writes_iff compile_spec_refused_iff compile_spec_self_contained shipped_import_refused shippedEnv_closed format_failure_finding","proved with what rustfmt prints in place of the code; violated by the code where rustfmt fails: its exit status is ignored, an empty file is written and Ok returned (format_failure_finding). The emitted text, rustfmt and the file system are parameters; a name that is an absolute path leaves OUT_DIR")
