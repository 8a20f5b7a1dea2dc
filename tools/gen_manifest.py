import json
M = {}
def c(i, status, thms, note=""):
    M["C%02d"%i] = dict(property="C%02d"%i, status=status, theorems=["Verif.Props."+t for t in thms.split()], note=note)
c(1,"proved","scalar_wire_format scalar_round_trip scalar_wire_bijective number_types float_and_bool_types","number_types: from the names in a specification to the bytes, for all 18 number types")
c(17,"proved","enum_from_then_to enum_accepts_declared enum_default_accepts_all enum_to_then_from enum_default_round_trip enum_default_is_last")
c(18,"proved","enum_implicit_numbering implicit_first_item_panics")
c(19,"proved","bitfield_implicit_shift")
c(20,"proved","bitfield_accepts bitfield_getter bitfield_setter bitfield_zero_flag")
c(21,"partial","varint_round_trip_partial varint_round_trip_fails","The full claim is false of the code; the partial theorem is an exact characterisation.")
c(22,"proved","varint_is_minimal_leb128")
c(23,"proved","utf8_nul_round_trip utf8_len_round_trip utf8_len_decode_exact utf8_nul_finding")
c(24,"partial","utf16_round_trip_partial utf16_round_trip_fails","False on little-endian hosts; proved on big-endian ones.")
c(25,"proved","pad_aligns")
c(34,"proved","const_op_exact_or_refused const_eval_sound means_functional const_eval_complete_partial const_eval_refuses const_eval_no_mismatch const_eval_strict const_mixed_kind_comparison_false")
c(35,"proved","literal_denotes_or_rejected decimal_literal_round_trip")
c(36,"proved","implicit_cast_preserves_value implicit_cast_partial_order")
c(48,"partial","bits_counts_ones sum_exact sum_negative_finding","len is treated with the expression semantics")
try: exec(open('/verif/tools/more_manifest.py').read())
except FileNotFoundError: pass
json.dump({"claims":[M[k] for k in sorted(M)]}, open('/verif/MANIFEST.json','w'), indent=1, ensure_ascii=False)
