{
 "claims": [
  {
   "property": "C01",
   "status": "proved",
   "theorems": [
    "Verif.Props.tarval_add_wraps",
    "Verif.Props.tarval_sub_wraps",
    "Verif.Props.tarval_mul_wraps",
    "Verif.Props.tarval_neg_wraps",
    "Verif.Props.tarval_abs_wraps",
    "Verif.Props.tarval_add_reference",
    "Verif.Props.tarval_sub_references"
   ],
   "note": ""
  },
  {
   "property": "C02",
   "status": "proved",
   "theorems": [
    "Verif.Props.tarval_add_overflow",
    "Verif.Props.tarval_sub_overflow",
    "Verif.Props.tarval_mul_overflow",
    "Verif.Props.tarval_neg_overflow"
   ],
   "note": ""
  },
  {
   "property": "C03",
   "status": "proved",
   "theorems": [
    "Verif.Props.tarval_and_bits",
    "Verif.Props.tarval_or_bits",
    "Verif.Props.tarval_eor_bits",
    "Verif.Props.tarval_andnot_bits",
    "Verif.Props.tarval_ornot_bits",
    "Verif.Props.tarval_not_bits",
    "Verif.Props.tarval_bool_ops"
   ],
   "note": ""
  },
  {
   "property": "C04",
   "status": "proved",
   "theorems": [
    "Verif.Props.tarval_div_zero",
    "Verif.Props.tarval_divmod_spec",
    "Verif.Props.tarval_div_exact",
    "Verif.Props.tarval_div_min"
   ],
   "note": ""
  },
  {
   "property": "C05",
   "status": "partial",
   "theorems": [
    "Verif.Props.tarval_shl_spec_partial",
    "Verif.Props.tarval_shr_spec_partial",
    "Verif.Props.tarval_shrs_spec_partial",
    "Verif.Props.tarval_shl_unsigned_spec",
    "Verif.Props.tarval_shr_unsigned_spec",
    "Verif.Props.tarval_shrs_unsigned_spec",
    "Verif.Props.oversized_shift",
    "Verif.Props.tarval_shl_truncates"
   ],
   "note": "The _unsigned variants hold for every amount. The tarval variants truncate the amount to 32 bits, so in a mode without modulo-shift amounts of 2^32 and more violate the property (tarval_shl_truncates); the partial theorems exclude exactly these."
  },
  {
   "property": "C06",
   "status": "proved",
   "theorems": [
    "Verif.Props.sc_not_in_place",
    "Verif.Props.sc_zip_in_place",
    "Verif.Props.sc_bitwise_in_place",
    "Verif.Props.sc_add_in_place",
    "Verif.Props.sc_inc_in_place",
    "Verif.Props.sc_neg_in_place",
    "Verif.Props.sc_sub_in_place",
    "Verif.Props.sc_shl_in_place",
    "Verif.Props.sc_shr_in_place",
    "Verif.Props.sc_shrs_in_place"
   ],
   "note": ""
  },
  {
   "property": "C07",
   "status": "proved",
   "theorems": [
    "Verif.Props.tarval_convert_wraps",
    "Verif.Props.tarval_convert_exact",
    "Verif.Props.tarval_convert_overflow"
   ],
   "note": ""
  },
  {
   "property": "C08",
   "status": "proved",
   "theorems": [
    "Verif.Props.tarval_cmp_order",
    "Verif.Props.tarval_cmp_equal_iff",
    "Verif.Props.tarval_cmp_bool",
    "Verif.Props.tarval_in_range_spec"
   ],
   "note": ""
  },
  {
   "property": "C09",
   "status": "proved",
   "theorems": [
    "Verif.Props.intern_pointer_eq",
    "Verif.Props.tarval_hash_consing",
    "Verif.Props.tarval_pointer_eq_iff",
    "Verif.Props.intern_modes_differ"
   ],
   "note": ""
  },
  {
   "property": "C10",
   "status": "partial",
   "theorems": [
    "Verif.Props.from_bytes_spec_partial",
    "Verif.Props.bytes_roundtrip_partial",
    "Verif.Props.to_bytes_value",
    "Verif.Props.from_bytes_writes_outside"
   ],
   "note": "The stored value is right, but the memset of sc_val_from_bytes starts at the wrong place and clears bytes behind the buffer (from_bytes_writes_outside); the partial theorems speak about the bytes inside the buffer."
  },
  {
   "property": "C11",
   "status": "proved",
   "theorems": [
    "Verif.Props.val_from_bits_spec"
   ],
   "note": ""
  },
  {
   "property": "C12",
   "status": "proved",
   "theorems": [
    "Verif.Props.val_from_str_value",
    "Verif.Props.val_from_str_accepts",
    "Verif.Props.val_from_str_rejects",
    "Verif.Props.new_integer_from_str_wraps",
    "Verif.Props.new_integer_from_str_exact",
    "Verif.Props.new_tarval_from_str_prefix"
   ],
   "note": ""
  },
  {
   "property": "C13",
   "status": "proved",
   "theorems": [
    "Verif.Props.print_hex_spells",
    "Verif.Props.ascii_roundtrip",
    "Verif.Props.ascii_roundtrip_strict_fails",
    "Verif.Props.print_dec_spells",
    "Verif.Props.decimal_roundtrip"
   ],
   "note": "The hexadecimal round trip needs wrap_on_overflow; without it negative values fail to parse back (ascii_roundtrip_strict_fails)."
  },
  {
   "property": "C14",
   "status": "proved",
   "theorems": [
    "Verif.Props.from_long_spec",
    "Verif.Props.tarval_is_long_spec",
    "Verif.Props.get_tarval_long_spec",
    "Verif.Props.long_roundtrip",
    "Verif.Props.get_tarval_uint64_spec",
    "Verif.Props.tarval_is_uint64_iff"
   ],
   "note": ""
  },
  {
   "property": "C15",
   "status": "partial",
   "theorems": [
    "Verif.Props.tarval_popcount_spec",
    "Verif.Props.tarval_lowest_bit_partial",
    "Verif.Props.tarval_highest_bit_partial",
    "Verif.Props.tarval_is_null_spec",
    "Verif.Props.sc_is_all_one_iff",
    "Verif.Props.sc_lowest_set_bit_spec",
    "Verif.Props.lowest_bit_odd_size_wrong"
   ],
   "note": "popcount and the predicates hold for every size; highest/lowest bit hold for sizes that are a multiple of 8 and are wrong (-1) otherwise, see lowest_bit_odd_size_wrong."
  },
  {
   "property": "C16",
   "status": "partial",
   "theorems": [
    "Verif.Props.tarval_sub_bits_partial",
    "Verif.Props.sub_bits_odd_size_wrong"
   ],
   "note": "Holds for sizes that are a multiple of 8; the code violates it otherwise (sub_bits_odd_size_wrong)."
  },
  {
   "property": "C17",
   "status": "proved",
   "theorems": [
    "Verif.Props.mode_min_spec",
    "Verif.Props.mode_max_spec",
    "Verif.Props.mode_null_one_spec"
   ],
   "note": ""
  },
  {
   "property": "C18",
   "status": "proved",
   "theorems": [
    "Verif.Props.smaller_mode_range",
    "Verif.Props.smaller_mode_lossless",
    "Verif.Props.smaller_mode_complete",
    "Verif.Props.values_in_mode_roundtrip",
    "Verif.Props.values_in_mode_changes_value",
    "Verif.Props.reinterpret_cast_iff",
    "Verif.Props.reinterpret_cast_bits"
   ],
   "note": ""
  },
  {
   "property": "C19",
   "status": "proved",
   "theorems": [
    "Verif.Props.negated_spec",
    "Verif.Props.inversed_spec",
    "Verif.Props.negated_negated",
    "Verif.Props.inversed_inversed",
    "Verif.Props.negated_inversed",
    "Verif.Props.names_spec"
   ],
   "note": ""
  },
  {
   "property": "C20",
   "status": "proved",
   "theorems": [
    "Verif.Props.mul_decomposition_exact",
    "Verif.Props.mul_decomposition_zero"
   ],
   "note": "modes of 4 to 255 bits whose modulo-shift is 0 or at least the mode size; the constant 0 is the witness that non-zero is needed"
  },
  {
   "property": "C21",
   "status": "proved",
   "theorems": [
    "Verif.Props.mul_decomposition_terminates"
   ],
   "note": ""
  },
  {
   "property": "C22",
   "status": "proved",
   "theorems": [
    "Verif.Props.signed_div_by_mulh"
   ],
   "note": "every signed mode of at least two bits with modulo-shift 0 or at least its size"
  },
  {
   "property": "C23",
   "status": "partial",
   "theorems": [
    "Verif.Props.unsigned_div_by_mulh_partial",
    "Verif.Props.unsigned_div_by_mulh_zero",
    "Verif.Props.unsigned_div_by_mulh_wrong"
   ],
   "note": "Proved for modes whose modulo-shift equals their size (the 32 and 64 bit modes). For every other mode the replacement is the constant 0 (unsigned_div_by_mulh_zero), because of a superfluous shift by the mode size."
  },
  {
   "property": "C24",
   "status": "proved",
   "theorems": [
    "Verif.Props.signed_div_by_const",
    "Verif.Props.unsigned_div_by_const",
    "Verif.Props.signed_mod_by_const",
    "Verif.Props.unsigned_mod_by_const",
    "Verif.Props.tv_ld2_spec",
    "Verif.Props.replace_div_minus_one"
   ],
   "note": "through transform_node_Div, which handles -1 itself; arch_dep_replace_div_by_const alone returns x for x / -1 (replace_div_minus_one)"
  },
  {
   "property": "C25",
   "status": "proved",
   "theorems": [
    "Verif.Props.constbits_const",
    "Verif.Props.constbits_and",
    "Verif.Props.constbits_or",
    "Verif.Props.constbits_eor",
    "Verif.Props.constbits_not",
    "Verif.Props.constbits_conv",
    "Verif.Props.constbits_mux",
    "Verif.Props.constbits_phi",
    "Verif.Props.constbits_confirm",
    "Verif.Props.constbits_never_undefined"
   ],
   "note": "Transfer functions of And, Or, Eor, Not, Conv, Mux, Phi, Confirm, Const for every width, state and value."
  },
  {
   "property": "C26",
   "status": "proved",
   "theorems": [
    "Verif.Props.constbits_add",
    "Verif.Props.constbits_sub",
    "Verif.Props.constbits_minus",
    "Verif.Props.constbits_mul"
   ],
   "note": "Transfer functions of Add, Sub, Minus and Mul for every width, state and value."
  },
  {
   "property": "C27",
   "status": "partial",
   "theorems": [
    "Verif.Props.constbits_shl",
    "Verif.Props.constbits_shr",
    "Verif.Props.constbits_shrs_partial",
    "Verif.Props.constbits_shrs",
    "Verif.Props.constbits_shrs_wrong"
   ],
   "note": "Shl and Shr in full (size a power of two and representable in the mode of the count); Shrs when the effective count is below the size or constant. Missing: Shrs with a partially known count that may exceed the size, where the rule of the code is unsound (constbits_shrs_wrong: 8-bit signed mode with modulo shift 32)."
  },
  {
   "property": "C28",
   "status": "proved",
   "theorems": [
    "Verif.Props.constbits_cmp",
    "Verif.Props.constbits_cmp_known"
   ],
   "note": "All relations, signed and unsigned; relations the analysis does not handle give the unknown state."
  },
  {
   "property": "C29",
   "status": "partial",
   "theorems": [
    "Verif.Props.bool_or_sound",
    "Verif.Props.bool_and_sound_partial",
    "Verif.Props.bool_and_wrong",
    "Verif.Props.cf_or_sound"
   ],
   "note": "Disjunctions in full, also for the control flow merge with normalised (negated) conditions; conjunctions except the rule for two comparisons with zero. Missing: that rule builds And instead of Or and is wrong (bool_and_wrong: p == 0 && q == 0 becomes (p & q) == 0)."
  },
  {
   "property": "C30",
   "status": "partial",
   "theorems": [
    "Verif.Props.computed_value_confirm_partial",
    "Verif.Props.computed_value_confirm_int_partial",
    "Verif.Props.confirm_swapped_wrong",
    "Verif.Props.confirm_infinity_wrong",
    "Verif.Props.confirm_two_zeros_wrong"
   ],
   "note": "Missing: three cases in which the code is wrong (left equals the bound of right without inverting the relation; infinities beyond the bounds of a float mode; the two zeros as bounds), each with a witness."
  },
  {
   "property": "C31",
   "status": "partial",
   "theorems": [
    "Verif.Props.cascade_preserves_target_partial",
    "Verif.Props.cascade_interval_wrong",
    "Verif.Props.cascade_edges",
    "Verif.Props.cascade_comparisons",
    "Verif.Props.lower_switch_preserves_target_partial"
   ],
   "note": "Tables of any size in unsigned modes, and tables of single values in signed modes; number of edges per target and of comparisons per path. Missing: proper intervals in a signed mode, where the cascade is wrong (cascade_interval_wrong). QSORT is assumed to sort."
  },
  {
   "property": "C32",
   "status": "partial",
   "theorems": [
    "Verif.Props.normalize_switch_preserves_target_partial",
    "Verif.Props.normalize_sign_extension_wrong",
    "Verif.Props.lower_switch_preserves_target_partial"
   ],
   "note": "Missing: negative cases of a selector mode narrower than the mode of the backend, where the rebased table is wrong (normalize_sign_extension_wrong)."
  },
  {
   "property": "C33",
   "status": "proved",
   "theorems": [
    "Verif.Props.pqueue_put_spec",
    "Verif.Props.pqueue_pop_spec",
    "Verif.Props.pqueue_refines",
    "Verif.Props.pqueue_new_refines"
   ],
   "note": ""
  },
  {
   "property": "C34",
   "status": "proved",
   "theorems": [
    "Verif.Props.deq_step_refines",
    "Verif.Props.deq_refines",
    "Verif.Props.deq_new_refines",
    "Verif.Props.deq_empty_iff",
    "Verif.Props.deq_iterate",
    "Verif.Props.deq_shrink_too_much"
   ],
   "note": ""
  },
  {
   "property": "C35",
   "status": "proved",
   "theorems": [
    "Verif.Props.hashset_new_refines",
    "Verif.Props.hashset_refines",
    "Verif.Props.hashset_insert",
    "Verif.Props.hashset_find",
    "Verif.Props.hashset_remove",
    "Verif.Props.hashset_init_size",
    "Verif.Props.hashset_remove_iterator",
    "Verif.Props.hashset_remove_iterator_twice",
    "Verif.Props.nodeset_hashEq"
   ],
   "note": ""
  },
  {
   "property": "C36",
   "status": "proved",
   "theorems": [
    "Verif.Props.probing_visits_all",
    "Verif.Props.probing_no_repeat",
    "Verif.Props.probing_needs_pow2"
   ],
   "note": ""
  },
  {
   "property": "C37",
   "status": "proved",
   "theorems": [
    "Verif.Props.lset_new_refines",
    "Verif.Props.lset_refines",
    "Verif.Props.lset_find",
    "Verif.Props.lset_insert",
    "Verif.Props.lset_remove",
    "Verif.Props.lset_iterate",
    "Verif.Props.lset_directory",
    "Verif.Props.spec_find_unique"
   ],
   "note": ""
  },
  {
   "property": "C38",
   "status": "proved",
   "theorems": [
    "Verif.Props.uf_equivalence",
    "Verif.Props.uf_find_keeps",
    "Verif.Props.uf_progress",
    "Verif.Props.uf_sizes",
    "Verif.Props.uf_find_spec"
   ],
   "note": "all sequences of calls; the set sizes cannot overflow an int for at most 2^31 elements"
  },
  {
   "property": "C39",
   "status": "proved",
   "theorems": [
    "Verif.Props.rbitset_new",
    "Verif.Props.rbitset_set",
    "Verif.Props.rbitset_flip",
    "Verif.Props.rbitset_clear",
    "Verif.Props.rbitset_is_set",
    "Verif.Props.rbitset_set_all",
    "Verif.Props.rbitset_flip_all",
    "Verif.Props.rbitset_and",
    "Verif.Props.rbitset_or",
    "Verif.Props.rbitset_xor",
    "Verif.Props.rbitset_andnot",
    "Verif.Props.rbitset_copy",
    "Verif.Props.rbitset_is_empty",
    "Verif.Props.rbitsets_equal",
    "Verif.Props.rbitset_contains",
    "Verif.Props.rbitsets_have_common",
    "Verif.Props.rbitset_popcount"
   ],
   "note": ""
  },
  {
   "property": "C40",
   "status": "partial",
   "theorems": [
    "Verif.Props.rbitset_next_max",
    "Verif.Props.rbitset_next",
    "Verif.Props.rbitset_prev_partial",
    "Verif.Props.rbitset_prev_reads_outside",
    "Verif.Props.bitset_foreach"
   ],
   "note": "rbitset_prev reads the word of its start position, which lies outside of the array when it is started at a size that is a multiple of 32 (rbitset_prev_reads_outside); everything else is proved."
  },
  {
   "property": "C41",
   "status": "partial",
   "theorems": [
    "Verif.Props.rbitset_minus1_partial",
    "Verif.Props.rbitset_minus1_wrong"
   ],
   "note": "The code detects a borrow by a change of the top bit and goes wrong when the lowest non-zero word is 0x80000000 (rbitset_minus1_wrong); proved for all other contents."
  },
  {
   "property": "C42",
   "status": "partial",
   "theorems": [
    "Verif.Props.bipartite_matching_partial",
    "Verif.Props.bipartite_matching_not_maximum"
   ],
   "note": "termination, matching and inclusion-maximality are proved; maximum size is false, with a witness graph"
  },
  {
   "property": "C43",
   "status": "proved",
   "theorems": [
    "Verif.Props.popcount_portable",
    "Verif.Props.nlz_portable",
    "Verif.Props.nlz_gnu",
    "Verif.Props.nlz_variants",
    "Verif.Props.ntz_portable",
    "Verif.Props.log2_floor_spec",
    "Verif.Props.log2_ceil_spec",
    "Verif.Props.floor_po2_gnu",
    "Verif.Props.floor_po2_portable",
    "Verif.Props.ceil_po2_gnu",
    "Verif.Props.ceil_po2_portable",
    "Verif.Props.is_po2_or_zero_spec",
    "Verif.Props.round_up2_spec",
    "Verif.Props.round_up2_wraps"
   ],
   "note": ""
  },
  {
   "property": "C44",
   "status": "proved",
   "theorems": [
    "Verif.Props.Flt.pattern_round_trip",
    "Verif.Props.Flt.pattern_unnormal_changed",
    "Verif.Props.Flt.fromPattern_num_partial",
    "Verif.Props.Flt.fromPattern_num_wrong",
    "Verif.Props.Flt.pack_num"
   ],
   "note": "All formats with at least two exponent bits; for formats with a stored leading bit the pattern must be canonical (pattern_unnormal_changed). The datum of the value read is right except for subnormal patterns taken for zero (fromPattern_num_wrong)."
  },
  {
   "property": "C45",
   "status": "partial",
   "theorems": [
    "Verif.Props.Flt.fcComp_spec",
    "Verif.Props.Flt.comp_pattern",
    "Verif.Props.Flt.comp_pattern_partial",
    "Verif.Props.Flt.related_unordered",
    "Verif.Props.Flt.related_equal_fin",
    "Verif.Props.Flt.comp_wrong"
   ],
   "note": "In full for all well-formed values and, on bit patterns, for formats with fewer than 32 fraction bits. Missing: subnormal double precision patterns that are read as zero compare equal (comp_wrong)."
  },
  {
   "property": "C46",
   "status": "partial",
   "theorems": [
    "Verif.Props.Flt.add_pattern",
    "Verif.Props.Flt.sub_pattern",
    "Verif.Props.Flt.add_pattern_partial",
    "Verif.Props.Flt.sub_pattern_partial",
    "Verif.Props.Flt.fcAdd_spec_partial",
    "Verif.Props.Flt.fcSub_spec_partial",
    "Verif.Props.Flt.add_flushed_wrong",
    "Verif.Props.Flt.add_bfloat16_wrong",
    "Verif.Props.Flt.round_directed",
    "Verif.Props.Flt.overflow_directed_wrong"
   ],
   "note": "In full for formats with fewer than 32 fraction bits other than 7 and 8 (single, half), with infinities and NaNs. Missing for the others: subnormal results with 32 zero bits at the end, which the code takes for zero (add_flushed_wrong); 7 and 8 fraction bits, where rounding is wrong (add_bfloat16_wrong)."
  },
  {
   "property": "C47",
   "status": "partial",
   "theorems": [
    "Verif.Props.Flt.mul_pattern_partial",
    "Verif.Props.Flt.mul_pattern_small_partial",
    "Verif.Props.Flt.fcMul_spec_partial",
    "Verif.Props.Flt.prodCovered_normal",
    "Verif.Props.Flt.mul_wrong"
   ],
   "note": "Missing: a subnormal operand times a normal one of magnitude 2 or more, where the code does not round correctly (mul_wrong), and the two defects of C46."
  },
  {
   "property": "C48",
   "status": "partial",
   "theorems": [
    "Verif.Props.Flt.div_pattern_partial",
    "Verif.Props.Flt.div_pattern_small_partial",
    "Verif.Props.Flt.fcDiv_spec_partial",
    "Verif.Props.Flt.quotCovered_normal",
    "Verif.Props.Flt.div_wrong",
    "Verif.Props.Flt.div_wrong_rounding"
   ],
   "note": "Missing: a subnormal divisor of a normal dividend, where the quotient is wrong by a factor of 4 (div_wrong), a subnormal dividend with a divisor below 1/2 (div_wrong_rounding), and the two defects of C46."
  },
  {
   "property": "C49",
   "status": "partial",
   "theorems": [
    "Verif.Props.Flt.cast_pattern_narrow",
    "Verif.Props.Flt.cast_pattern_partial",
    "Verif.Props.Flt.fcCast_spec_partial",
    "Verif.Props.Flt.cast_wider",
    "Verif.Props.Flt.cast_nan_wrong"
   ],
   "note": "Conversions to wider formats are exact; double to single is correctly rounded in full. Missing: signalling NaNs that become infinities (cast_nan_wrong), and the two defects of C46."
  },
  {
   "property": "C50",
   "status": "proved",
   "theorems": [
    "Verif.Props.Flt.floatToInt_spec",
    "Verif.Props.Flt.floatToInt_pattern",
    "Verif.Props.Flt.convert_saturates"
   ],
   "note": "All formats, widths and patterns."
  },
  {
   "property": "C51",
   "status": "proved",
   "theorems": [
    "Verif.Props.layout_struct",
    "Verif.Props.layout_align_divides",
    "Verif.Props.layout_union",
    "Verif.Props.layout_overflow"
   ],
   "note": "Under the bound that the size fits 32 bits; layout_overflow shows that the bound is needed. Bit-field members panic."
  },
  {
   "property": "C52",
   "status": "partial",
   "theorems": [
    "Verif.Props.uleb128_size",
    "Verif.Props.sleb128_size_partial",
    "Verif.Props.sleb128_size_short",
    "Verif.Props.sleb128_size_wrong"
   ],
   "note": "Unsigned in full. Missing: the signed size ignores the sign bit; exactly the values whose sign does not fit the last group get a size one too small (sleb128_size_short, sleb128_size_wrong: 64)."
  },
  {
   "property": "C53",
   "status": "proved",
   "theorems": [
    "Verif.Props.string_round_trip",
    "Verif.Props.string_null_round_trip",
    "Verif.Props.symbol_round_trip",
    "Verif.Props.tokens_round_trip"
   ],
   "note": ""
  },
  {
   "property": "C54",
   "status": "partial",
   "theorems": [
    "Verif.Props.long_round_trip",
    "Verif.Props.int_round_trip",
    "Verif.Props.unsigned_round_trip",
    "Verif.Props.size_round_trip_partial",
    "Verif.Props.size_round_trip_wrong",
    "Verif.Props.tokens_round_trip"
   ],
   "note": "long, int, unsigned in full. Missing: read_size_t reads an unsigned, so every size from 2^32 on reads back as another number (size_round_trip_wrong)."
  },
  {
   "property": "C55",
   "status": "proved",
   "theorems": [
    "Verif.Props.pbqp_simplify",
    "Verif.Props.pbqp_step",
    "Verif.Props.pbqp_step_min",
    "Verif.Props.pbqp_progress_one",
    "Verif.Props.pbqp_progress_two",
    "Verif.Props.pbqpAdd32_spec_partial",
    "Verif.Props.pbqpAdd32_wrong"
   ],
   "note": "Costs are natural numbers with infinity, i.e. finite sums must stay below INF_COSTS; pbqp_add does not detect overflow (pbqpAdd32_wrong). Every order of reduction steps is allowed."
  },
  {
   "property": "C56",
   "status": "proved",
   "theorems": [
    "Verif.Props.arr_resize",
    "Verif.Props.arr_setlen",
    "Verif.Props.arr_step",
    "Verif.Props.arr_history",
    "Verif.Props.arr_appends",
    "Verif.Props.arr_resize_hangs"
   ],
   "note": "lengths up to 2^62"
  },
  {
   "property": "C57",
   "status": "partial",
   "theorems": [
    "Verif.Props.tarval_magnitude_partial"
   ],
   "note": "Sizes that are a multiple of 8; for other sizes the byte loop of the code starts at index 2^32-2."
  },
  {
   "property": "C58",
   "status": "partial",
   "theorems": [
    "Verif.Props.rbitset_set_range_partial",
    "Verif.Props.bitset_mod_range_partial",
    "Verif.Props.rbitset_set_range_writes_outside",
    "Verif.Props.bitset_mod_range_outside"
   ],
   "note": "Writes one word outside of the array when the range ends at a size that is a multiple of 32; proved otherwise."
  },
  {
   "property": "C59",
   "status": "partial",
   "theorems": [
    "Verif.Props.pset_new_refines_partial",
    "Verif.Props.pset_new_conflates"
   ],
   "note": "False on 64-bit hosts: pointers that agree in the low 32 bits are merged (pset_new_conflates). Proved when the low 32 bits tell the pointers apart."
  },
  {
   "property": "C60",
   "status": "proved",
   "theorems": [
    "Verif.Props.pbqp_brute_optimal",
    "Verif.Props.pbqpPath_solved"
   ],
   "note": "Costs as in C55; the deep copy of the problem for each alternative is represented by solving the selected problem afresh."
  },
  {
   "property": "C61",
   "status": "proved",
   "theorems": [
    "Verif.Props.pbqp_heur_cost"
   ],
   "note": "Costs as in C55; any choice of node and alternative."
  },
  {
   "property": "C62",
   "status": "proved",
   "theorems": [
    "Verif.Props.pbqp_build"
   ],
   "note": "Costs as in C55."
  },
  {
   "property": "C63",
   "status": "proved",
   "theorems": [
    "Verif.Props.reconnect_total",
    "Verif.Props.reconnect_inv",
    "Verif.Props.pbqp_mapping_defined"
   ],
   "note": "One reconnected edge at a time; that all edges are simplified before a merge is attempted is not modelled, see DESIGN."
  },
  {
   "property": "C64",
   "status": "partial",
   "theorems": [
    "Verif.Props.equivalent_node_sound",
    "Verif.Props.computed_value_sound_partial",
    "Verif.Props.shr_self_wrong",
    "Verif.Props.oversize_wrong"
   ],
   "note": "equivalent_node holds in full. computed_value is wrong for x >> x in modes with modulo-shift (shr_self_wrong); the _partial theorem excludes just this. Negative constant shift counts, for which the code is wrong too (oversize_wrong), count as undefined behaviour of the program. Phi, memory, float and jump nodes are not modelled."
  },
  {
   "property": "C65",
   "status": "proved",
   "theorems": [
    "Verif.Props.possible_cmp_relations_sound",
    "Verif.Props.value_not_null_sound"
   ],
   "note": "Integer comparisons; the bit information, value ranges and confirmations are parameters assumed sound (C25-C28, C30)."
  },
  {
   "property": "C66",
   "status": "partial",
   "theorems": [
    "Verif.Props.transform_or_sound_partial",
    "Verif.Props.transform_eor_sound_partial",
    "Verif.Props.transform_and_sound_partial",
    "Verif.Props.transform_not_sound",
    "Verif.Props.self_cmp_folded",
    "Verif.Props.or_self_cmp_wrong"
   ],
   "note": "Not in full; And, Or, Eor except when the second operand is a comparison of a node with itself, for which the code is wrong (or_self_cmp_wrong); such a comparison is folded first when constant folding is on (self_cmp_folded). Bit information is a parameter assumed sound."
  },
  {
   "property": "C67",
   "status": "partial",
   "theorems": [
    "Verif.Props.transform_shl_sound_partial",
    "Verif.Props.transform_shr_sound_partial",
    "Verif.Props.transform_shrs_sound_partial",
    "Verif.Props.shl_shr_wrong",
    "Verif.Props.shrs_oversize_wrong",
    "Verif.Props.shift_shift_wrong",
    "Verif.Props.shift_mask_negative"
   ],
   "note": "Missing, each with a witness that the code is wrong: modes without modulo-shift (shift_shift_wrong), shifted operands whose constant counts are not reduced (shl_shr_wrong), counts in a mode narrower than the value (shrs_oversize_wrong), negative constant masks (shift_mask_negative)."
  },
  {
   "property": "C68",
   "status": "proved",
   "theorems": [
    "Verif.Props.transform_conv_sound",
    "Verif.Props.leave_out_middle_conv",
    "Verif.Props.leave_out_middle_conv_needed"
   ],
   "note": "Integer modes; floats and references are not modelled."
  },
  {
   "property": "C69",
   "status": "partial",
   "theorems": [
    "Verif.Props.transform_add_sound_partial",
    "Verif.Props.transform_sub_sound",
    "Verif.Props.transform_minus_sound",
    "Verif.Props.add_distributive_wrong"
   ],
   "note": "Sub and Minus in full. Add except for two right shifts, Ands or Ors with a common operand, for which the code is wrong (add_distributive_wrong). Bit information is a parameter assumed sound."
  },
  {
   "property": "C70",
   "status": "partial",
   "theorems": [
    "Verif.Props.transform_mul_sound_partial",
    "Verif.Props.transform_div_sound",
    "Verif.Props.transform_mod_sound",
    "Verif.Props.mul_shr_wrong"
   ],
   "note": "Div and Mod in full. Mul for modes with modulo-shift and left operands whose constant shift counts are reduced; the code is wrong otherwise (mul_shr_wrong). The replacement of constant factors and divisors by shifts is C21-C23."
  },
  {
   "property": "C71",
   "status": "partial",
   "theorems": [
    "Verif.Props.transform_cmp_sound_partial",
    "Verif.Props.bitsCtx_constBits",
    "Verif.Props.cmp_same_op_wrong",
    "Verif.Props.cmp_shifts_wrong",
    "Verif.Props.cmp_shrs_wrong",
    "Verif.Props.cmp_minus_wrong",
    "Verif.Props.cmp_mod_wrong"
   ],
   "note": "Every rule is proved for all inputs, except for the situations excluded by CmpSafe, each of which has a witness that the code is wrong: an order relation kept when an operation is removed from both sides, shifts by the same count, arithmetic shifts by more than the size, a negated value compared with the least number, remainders. Floating point and pointer comparisons are not modelled."
  },
  {
   "property": "C72",
   "status": "partial",
   "theorems": [
    "Verif.Props.constbits_expr_partial",
    "Verif.Props.constbits_expr_const_partial",
    "Verif.Props.constbits_expr_defined_partial",
    "Verif.Props.bitsCtx_sound"
   ],
   "note": "Expressions with sizes of shifted values that are powers of two and arithmetic shifts whose counts do not exceed the size (the code is wrong otherwise, see C27). Graphs with Phis are in C74."
  },
  {
   "property": "C73",
   "status": "partial",
   "theorems": [
    "Verif.Props.transform_mux_sound_partial",
    "Verif.Props.transform_mux_sound_other",
    "Verif.Props.mux_assertion",
    "Verif.Props.mux_abs_wrong",
    "Verif.Props.mux_abs_unsigned_wrong",
    "Verif.Props.mux_minus_one_wrong",
    "Verif.Props.mux_one_bit_wrong"
   ],
   "note": "Every rule for all inputs, except for the situations excluded by MuxSafe, each of which has a witness that the code is wrong: z != 0 ? -z : z and unsigned values taken for an absolute value, a comparison with -1 of a value known to differ from -1, signed modes of one bit. In full for selectors that are no comparisons. Floating point modes are not modelled."
  },
  {
   "property": "C74",
   "status": "partial",
   "theorems": [
    "Verif.Props.constbits_graph_partial",
    "Verif.Props.constbits_unreachable_partial",
    "Verif.Props.constbits_cond_partial",
    "Verif.Props.loop_fixpoint",
    "Verif.Props.loop_regular"
   ],
   "note": "For every state that is a fixpoint of transfer and graphs whose operations are regular (see C72). Whether the analysis reaches a fixpoint is C76."
  },
  {
   "property": "C75",
   "status": "partial",
   "theorems": [
    "Verif.Props.constbits_ascending_partial",
    "Verif.Props.constbits_changes_partial",
    "Verif.Props.constbits_least_partial",
    "Verif.Props.constbits_order_partial",
    "Verif.Props.constbits_consistent_partial",
    "Verif.Props.constbits_confirm_descends",
    "Verif.Props.constbits_shrs_descends"
   ],
   "note": "For graphs whose operations are regular and that have no Confirm with the relation \"equal\"; for the others the assertions can fail, shown by constbits_confirm_descends and constbits_shrs_descends."
  },
  {
   "property": "C76",
   "status": "partial",
   "theorems": [
    "Verif.Props.constbits_analyze_ends_partial",
    "Verif.Props.constbits_analyze_least_partial",
    "Verif.Props.constbits_analyze_partial",
    "Verif.Props.constbits_analyze_exact_partial",
    "Verif.Props.constbits_analyze_wrong",
    "Verif.Props.constbits_analyze_unstable",
    "Verif.Props.diamond_regular",
    "Verif.Props.diamond_acyclic",
    "Verif.Props.diamond_wellFormed",
    "Verif.Props.tangle_plain",
    "Verif.Props.tangle_wellFormed",
    "Verif.Props.tangle_reaches"
   ],
   "note": "Termination and the bound by every fixpoint for all graphs whose operations are regular and that have no Confirm with the relation \"equal\". Right bits for graphs without cycles; with cycles the claim is false: constbits_analyze_wrong is a graph with eight blocks for which a Phi is claimed to be constant but is not."
  },
  {
   "property": "C77",
   "status": "proved",
   "theorems": [
    "Verif.Props.vrp_sound",
    "Verif.Props.vrp_sound_state",
    "Verif.Props.vrp_merge_wrong",
    "Verif.Props.vrp_antirange_kept"
   ],
   "note": "Integer nodes; the transfer functions of all opcodes vrp_update_node handles. Memory of the node map and dumping are not modelled."
  },
  {
   "property": "C78",
   "status": "proved",
   "theorems": [
    "Verif.Props.vrp_cmp_sound",
    "Verif.Props.vrp_value_sound"
   ],
   "note": ""
  },
  {
   "property": "C79",
   "status": "proved",
   "theorems": [
    "Verif.Props.vrp_terminates",
    "Verif.Props.vrp_no_failure",
    "Verif.Props.vrp_stable",
    "Verif.Props.vrpGraph_ok",
    "Verif.Props.vrpOuts_users"
   ],
   "note": ""
  },
  {
   "property": "C80",
   "status": "proved",
   "theorems": [
    "Verif.Props.lowerDw_two",
    "Verif.Props.lowerDw_one",
    "Verif.Props.lowerDw_total",
    "Verif.Props.lowerDw_names",
    "Verif.Props.lowerDw_sizes_wrong"
   ],
   "note": ""
  },
  {
   "property": "C81",
   "status": "proved",
   "theorems": [
    "Verif.Props.lowerDw_cmp",
    "Verif.Props.lowerDw_cond"
   ],
   "note": ""
  },
  {
   "property": "C82",
   "status": "proved",
   "theorems": [
    "Verif.Props.lowerDw_load",
    "Verif.Props.lowerDw_store"
   ],
   "note": ""
  },
  {
   "property": "C83",
   "status": "partial",
   "theorems": [
    "Verif.Props.lowerDw_builtins",
    "Verif.Props.lowerDw_bswap",
    "Verif.Props.lowerBuiltins_widen_partial",
    "Verif.Props.lowerBuiltins_widen_clz_wrong",
    "Verif.Props.lowerBuiltins_widen_popcount_wrong"
   ],
   "note": "Refuted for the replacement by a wider builtin: clz yields too much by the number of additional bits, popcount too, for negative operands of signed types (lowerBuiltins_widen_*_wrong). Proved for the double words and for the other builtins."
  },
  {
   "property": "C84",
   "status": "proved",
   "theorems": [
    "Verif.Props.idom_right",
    "Verif.Props.idom_none",
    "Verif.Props.dom_depth"
   ],
   "note": ""
  },
  {
   "property": "C85",
   "status": "proved",
   "theorems": [
    "Verif.Props.block_dominates_right",
    "Verif.Props.deepest_common_dominator",
    "Verif.Props.block_dominates_unreachable_wrong"
   ],
   "note": "For reachable blocks; for unreachable ones the answer of block_dominates means nothing (block_dominates_unreachable_wrong)."
  },
  {
   "property": "C86",
   "status": "proved",
   "theorems": [
    "Verif.Props.frontier_right",
    "Verif.Props.frontier_start"
   ],
   "note": "If control flow leads to the start block (which valid graphs do not have), its own frontier lacks it (frontier_start)."
  },
  {
   "property": "C87",
   "status": "proved",
   "theorems": [
    "Verif.Props.ipostdom_right",
    "Verif.Props.ipostdom_stop",
    "Verif.Props.block_postdominates_right",
    "Verif.Props.postdom_defined"
   ],
   "note": ""
  },
  {
   "property": "C88",
   "status": "proved",
   "theorems": [
    "Verif.Props.dfs_numbers",
    "Verif.Props.dfs_edge_kinds",
    "Verif.Props.dfs_postorder",
    "Verif.Props.dfs_cycle"
   ],
   "note": ""
  },
  {
   "property": "C89",
   "status": "proved",
   "theorems": [
    "Verif.Props.live_check_exact",
    "Verif.Props.live_map_assertions",
    "Verif.Props.live_check_absent_pred"
   ],
   "note": "In the block of the definition the answer is exact if no operand of a Phi belongs to an absent control flow predecessor; otherwise it may say live out for a value that is dead (live_check_absent_pred)."
  },
  {
   "property": "C90",
   "status": "proved",
   "theorems": [
    "Verif.Props.Flt.fc_get_max_spec",
    "Verif.Props.Flt.fc_get_small_spec",
    "Verif.Props.Flt.fc_get_epsilon_spec"
   ],
   "note": ""
  },
  {
   "property": "C91",
   "status": "proved",
   "theorems": [
    "Verif.Props.SsaCons.construction_right",
    "Verif.Props.SsaCons.phi_arity",
    "Verif.Props.SsaCons.skip_final",
    "Verif.Props.SsaCons.store_phis_kept",
    "Verif.Props.SsaCons.exchange_assertion_fails"
   ],
   "note": "The graph is right for all front ends that only assign nodes which were defined or read before on each run. The assertion in exchange about Phi nodes of memory does not hold for all of them (exchange_assertion_fails, finding 35)."
  },
  {
   "property": "C92",
   "status": "proved",
   "theorems": [
    "Verif.Props.SsaCons.get_terminates",
    "Verif.Props.SsaCons.mature_terminates",
    "Verif.Props.SsaCons.get_fuel",
    "Verif.Props.SsaCons.tryRemove_bound",
    "Verif.Props.SsaCons.get_unbounded"
   ],
   "note": "The hypothesis on chains is necessary: get_unbounded, finding 34."
  },
  {
   "property": "C93",
   "status": "proved",
   "theorems": [
    "Verif.Props.BackendImm.riscv_const",
    "Verif.Props.BackendImm.riscv_const_short",
    "Verif.Props.BackendImm.riscv_frame_addr",
    "Verif.Props.BackendImm.riscv_load_store",
    "Verif.Props.BackendImm.riscv_incsp",
    "Verif.Props.BackendImm.riscv_prologue",
    "Verif.Props.BackendImm.riscv_shift",
    "Verif.Props.BackendImm.riscv_sat_inc"
   ],
   "note": "Stack pointer changes: all offsets of an int except the smallest, whose negation overflows. Prologue: frames up to 2 GB."
  },
  {
   "property": "C94",
   "status": "proved",
   "theorems": [
    "Verif.Props.BackendImm.mips_const",
    "Verif.Props.BackendImm.mips_add",
    "Verif.Props.BackendImm.mips_logic",
    "Verif.Props.BackendImm.mips_sat_inc",
    "Verif.Props.BackendImm.sparc_const",
    "Verif.Props.BackendImm.sparc_base_offset",
    "Verif.Props.BackendImm.sparc_incsp",
    "Verif.Props.BackendImm.sparc_add",
    "Verif.Props.BackendImm.sparc_bitop_const"
   ],
   "note": ""
  },
  {
   "property": "C95",
   "status": "proved",
   "theorems": [
    "Verif.Props.BackendImm.arm_vals",
    "Verif.Props.BackendImm.arm_const",
    "Verif.Props.BackendImm.arm_emit",
    "Verif.Props.BackendImm.arm_try_encode",
    "Verif.Props.BackendImm.arm_single_mov_encoded",
    "Verif.Props.BackendImm.arm_try_encode_incomplete",
    "Verif.Props.BackendImm.arm_add_imm",
    "Verif.Props.BackendImm.arm_and_imm",
    "Verif.Props.BackendImm.arm_cmp",
    "Verif.Props.BackendImm.arm_zero_ext",
    "Verif.Props.BackendImm.arm_sign_ext"
   ],
   "note": "Operands with wrapped bytes are not found (arm_try_encode_incomplete), which only costs an instruction."
  },
  {
   "property": "C96",
   "status": "partial",
   "theorems": [
    "Verif.Props.BackendImm.arm_frame_addr",
    "Verif.Props.BackendImm.arm_incsp_partial",
    "Verif.Props.BackendImm.arm_incsp_undefined",
    "Verif.Props.BackendImm.arm_valid_offset",
    "Verif.Props.BackendImm.arm_load_store_partial",
    "Verif.Props.BackendImm.arm_load_store_negative"
   ],
   "note": "False as stated: negative offsets of loads and stores that do not fit are subtracted instead of added (arm_load_store_negative, finding 36); stack pointer changes that are no multiple of four and larger than 255 have undefined behaviour (arm_incsp_undefined, finding 37). The rest is proved."
  },
  {
   "property": "C97",
   "status": "proved",
   "theorems": [
    "Verif.Props.BackendImm.arm_add64",
    "Verif.Props.BackendImm.arm_sub64",
    "Verif.Props.BackendImm.arm_minus64",
    "Verif.Props.BackendImm.arm_mul64",
    "Verif.Props.BackendImm.sparc_add64",
    "Verif.Props.BackendImm.sparc_sub64",
    "Verif.Props.BackendImm.sparc_minus64"
   ],
   "note": ""
  },
  {
   "property": "C98",
   "status": "partial",
   "theorems": [
    "Verif.Props.Sched.schedule_order_partial",
    "Verif.Props.Sched.schedule_order_wrong"
   ],
   "note": "Proved for up to 2^17 + 1 insertions into a block. Beyond that the sum of two time steps may exceed 32 bits and the order becomes wrong (schedule_order_wrong, finding 38), so the bound is needed."
  },
  {
   "property": "C99",
   "status": "proved",
   "theorems": [
    "Verif.Props.LiveSets.live_sets_exact",
    "Verif.Props.LiveSets.live_sets_changes",
    "Verif.Props.LiveSets.live_sets_compare"
   ],
   "note": "Graphs without Bad control flow predecessors, strict SSA form for removal and update."
  },
  {
   "property": "C100",
   "status": "partial",
   "theorems": [
    "Verif.Props.Interfere.values_interfere_iff",
    "Verif.Props.Interfere.value_live_after_iff",
    "Verif.Props.Interfere.live_before_exact",
    "Verif.Props.Interfere.flags_of_sets",
    "Verif.Props.Interfere.memory_interfere_partial",
    "Verif.Props.Interfere.projections_interfere_wrong",
    "Verif.Props.Interfere.projections_never_interfere",
    "Verif.Props.Interfere.memory_interfere_wrong"
   ],
   "note": "Exact for values of different instructions. Two values of one instruction never interfere for be_values_interfere, though they may be live together (finding 39). be_memory_values_interfere is right without Syncs and wrong with them (finding 40)."
  },
  {
   "property": "C101",
   "status": "partial",
   "theorems": [
    "Verif.Props.Heights.heights_exact",
    "Verif.Props.Heights.reachable_exact",
    "Verif.Props.Heights.heights_queries",
    "Verif.Props.Heights.recompute_partial",
    "Verif.Props.Heights.recompute_wrong"
   ],
   "note": "heights_recompute_block resets the counter of searches, after which questions about other blocks are answered wrong (recompute_wrong, finding 41). Everything else is proved."
  },
  {
   "property": "C102",
   "status": "proved",
   "theorems": [
    "Verif.Props.Perm.lower_perm"
   ],
   "note": "The destinations are different and a register that is read twice is not written; the example at the end shows that this is needed."
  },
  {
   "property": "C103",
   "status": "partial",
   "theorems": [
    "Verif.Props.Alias.no_alias_partial",
    "Verif.Props.Alias.alias_symm_partial",
    "Verif.Props.Alias.addressInfo_total",
    "Verif.Props.Alias.baseAddr_total",
    "Verif.Props.Alias.negative_wrong",
    "Verif.Props.Alias.array_wrong",
    "Verif.Props.Alias.arith_wrong",
    "Verif.Props.Alias.second_name_wrong",
    "Verif.Props.Alias.const_index_wrong",
    "Verif.Props.Alias.const_member_wrong",
    "Verif.Props.Alias.pointer_part_wrong",
    "Verif.Props.Alias.order_wrong",
    "Verif.Props.Alias.sure_wrong"
   ],
   "note": "The claim is false for the code: seven kinds of wrong answers are proved (findings 42 to 48). no_alias_partial proves the claim when these are excluded."
  },
  {
   "property": "C104",
   "status": "proved",
   "theorems": [
    "Verif.Props.Usage.taken_sound",
    "Verif.Props.Usage.write_sound",
    "Verif.Props.Usage.read_sound",
    "Verif.Props.Usage.variadic_wrong"
   ],
   "note": "For the flags that the analysis returns; it runs into an assertion for addresses passed as variable arguments (variadic_wrong, finding 49). The flag reinterpret_cast is not modelled."
  },
  {
   "property": "C105",
   "status": "proved",
   "theorems": [
    "Verif.Props.Chordal.color_valid",
    "Verif.Props.Chordal.color_keeps",
    "Verif.Props.Chordal.color_interfere",
    "Verif.Props.Chordal.color_succeeds",
    "Verif.Props.Chordal.scan_exact",
    "Verif.Props.Chordal.unused_needed"
   ],
   "note": "Without handle_constraints; color_valid allows registers that are fixed before. unused_needed shows that color_succeeds needs the hypothesis that each value is used."
  },
  {
   "property": "C106",
   "status": "proved",
   "theorems": [
    "Verif.Props.SsaRecon.use_reached",
    "Verif.Props.SsaRecon.phi_reached",
    "Verif.Props.SsaRecon.new_phis",
    "Verif.Props.SsaRecon.reconstruct_succeeds"
   ],
   "note": "The dominance frontiers and immediate dominators are those of C84-C86."
  },
  {
   "property": "C107",
   "status": "partial",
   "theorems": [
    "Verif.Props.dca_expr_partial",
    "Verif.Props.dca_shrs_wrong",
    "Verif.Props.dca_terminates",
    "Verif.Props.observed_whole",
    "Verif.Props.occult_partial"
   ],
   "note": "Refuted for arithmetic shifts to the right by a count that is not constant; Confirm nodes only with operands that matter completely; sizes of shifted values are powers of two."
  },
  {
   "property": "C108",
   "status": "partial",
   "theorems": [
    "Verif.Props.enc_mod_am_roundtrip",
    "Verif.Props.enc_binop_partial",
    "Verif.Props.enc_binop_mem_partial",
    "Verif.Props.enc_shiftop_partial",
    "Verif.Props.enc_shiftop_mem_partial",
    "Verif.Props.enc_shd_correct",
    "Verif.Props.enc_unop_partial",
    "Verif.Props.enc_unop_mem_correct",
    "Verif.Props.enc_0f_unop_reg_correct",
    "Verif.Props.enc_conv_i2i_correct",
    "Verif.Props.enc_popcnt_correct",
    "Verif.Props.enc_moves_correct",
    "Verif.Props.enc_short_correct",
    "Verif.Props.enc_load_store_partial",
    "Verif.Props.enc_bt_correct",
    "Verif.Props.enc_test_partial",
    "Verif.Props.enc_push_partial",
    "Verif.Props.enc_call_correct",
    "Verif.Props.enc_return_correct",
    "Verif.Props.enc_incsp_correct",
    "Verif.Props.enc_copybi_correct",
    "Verif.Props.enc_jumps_correct",
    "Verif.Props.enc_cmovcc_correct",
    "Verif.Props.enc_ia32_jcc_correct",
    "Verif.Props.enc_setcc_correct",
    "Verif.Props.enc_minus64_correct",
    "Verif.Props.enc_fbinop_partial",
    "Verif.Props.enc_x87_partial",
    "Verif.Props.enc_nops_correct",
    "Verif.Props.enc_test_wrong",
    "Verif.Props.enc_high_byte_wrong",
    "Verif.Props.enc_size_ignored",
    "Verif.Props.enc_shiftop_mem_wrong",
    "Verif.Props.enc_segment_ignored",
    "Verif.Props.enc_imm_panics",
    "Verif.Props.enc_fst_panics",
    "Verif.Props.enc_fbinop_wrong"
   ],
   "note": "Refuted for: test with an immediate, high bytes, sizes of Not and shifts, immediate counts of shifts of memory, the segment gs, immediate operands of IMulImm and Push, stores of the x87 unit, reversed x87 operands. Proved for all other operands. Calls of absolute addresses, switch jumps, inline assembler and SSE are not covered."
  },
  {
   "property": "C109",
   "status": "partial",
   "theorems": [
    "Verif.Props.jit_layout",
    "Verif.Props.jit_memory_contents",
    "Verif.Props.jit_memory_references",
    "Verif.Props.jit_memory_written_partial",
    "Verif.Props.jit_memory_padding_wrong",
    "Verif.Props.jit_asm_correct",
    "Verif.Props.jit_fragment_number_wrong",
    "Verif.Props.jit_offset_wrong"
   ],
   "note": "Proved for fragments below 64 KiB and up to 65536 fragments: the layout and the text in full; in memory whatever is written is right, and the function is written if no padding is needed. Refuted for padding in memory (be_jit_emit_memory then writes outside of the buffer for every such function), for offsets and for numbers of fragments of more than 16 bits. Pointers of 32 bits."
  },
  {
   "property": "C110",
   "status": "partial",
   "theorems": [
    "Verif.Props.X86Cond.cc_of_relation",
    "Verif.Props.X86Cond.cc_sign_needs_zero",
    "Verif.Props.X86Cond.cc_of_relation_float",
    "Verif.Props.X86Cond.cc_of_relation_defined",
    "Verif.Props.X86Cond.cc_negate_correct",
    "Verif.Props.X86Cond.cc_invert_int",
    "Verif.Props.X86Cond.cc_invert_sign_wrong",
    "Verif.Props.X86Cond.cc_invert_float",
    "Verif.Props.X86Cond.widen_sound",
    "Verif.Props.X86Cond.compare_correct",
    "Verif.Props.X86Cond.compare_permuted_zero_wrong",
    "Verif.Props.X86Cond.compare_float_correct",
    "Verif.Props.X86Cond.test_correct",
    "Verif.Props.X86Cond.compare_wide",
    "Verif.Props.X86Cond.bit_test_correct_partial",
    "Verif.Props.X86Cond.bit_test_narrow_wrong",
    "Verif.Props.X86Cond.const_condition",
    "Verif.Props.X86Cond.compare_jump",
    "Verif.Props.X86Cond.replace_flags_partial",
    "Verif.Props.X86Cond.replace_flags_size_wrong",
    "Verif.Props.X86Cond.replace_flags_carry_wrong",
    "Verif.Props.X86Cond.remove_test_correct",
    "Verif.Props.X86Cond.flags_after_arith",
    "Verif.Props.X86Cond.remove_test_mul_permuted_wrong",
    "Verif.Props.X86Cond.cmp_zero_test",
    "Verif.Props.X86Cond.sbb_by_adc",
    "Verif.Props.X86Cond.sub_by_adc",
    "Verif.Props.X86Cond.sub_to_neg_add_partial",
    "Verif.Props.X86Cond.sub_to_neg_add_wrong"
   ],
   "note": "Proved in full: the tables, exchanges of operands, tests, wider comparisons, superfluous tests, the carry variants of a replaced subtraction. Refuted: neg and add for the least negative number, reuse of flags of another size or by adc/sbb, the carry after a multiplication with exchanged operands, bit tests of narrow modes."
  },
  {
   "property": "C111",
   "status": "partial",
   "theorems": [
    "Verif.Props.UpperBits.upper_bits_clean_partial",
    "Verif.Props.UpperBits.clean_register_is_value_partial",
    "Verif.Props.UpperBits.register_holds_value_partial",
    "Verif.Props.UpperBits.widening_extends_partial",
    "Verif.Props.UpperBits.simple_expressions",
    "Verif.Props.UpperBits.skip_downconv_register",
    "Verif.Props.UpperBits.float_mask_refuted",
    "Verif.Props.UpperBits.float_widening_refuted",
    "Verif.Props.UpperBits.arithmetic_shift_refuted",
    "Verif.Props.UpperBits.narrow_shift_by_31_refuted",
    "Verif.Props.UpperBits.narrow_sext_refuted",
    "Verif.Props.UpperBits.large_amount_refuted"
   ],
   "note": "Proved in full for expressions without conversions from floating point, arithmetic shifts and constant logical shifts, and for all others under the conditions `good` and `askable`. Refuted without them: a number converted from floating point is called clean in every mode, an arithmetic shift is called clean for unsigned numbers, two patterns of gen_Shrs ignore the width."
  },
  {
   "property": "C112",
   "status": "partial",
   "theorems": [
    "Verif.Props.Ia32Patterns.mux_const",
    "Verif.Props.Ia32Patterns.mux_const_low",
    "Verif.Props.Ia32Patterns.rotl_or",
    "Verif.Props.Ia32Patterns.rotl_add_partial",
    "Verif.Props.Ia32Patterns.rotl_add_refuted",
    "Verif.Props.Ia32Patterns.rotl_narrow_refuted",
    "Verif.Props.Ia32Patterns.match64_correct",
    "Verif.Props.Ia32Patterns.match64_lower_dw",
    "Verif.Props.Ia32Patterns.match64_zero_refuted",
    "Verif.Props.Ia32Patterns.match64_narrow_refuted",
    "Verif.Props.Ia32Patterns.shld_to_shrd",
    "Verif.Props.Ia32Patterns.doz_correct",
    "Verif.Props.Ia32Patterns.doz_choice_partial",
    "Verif.Props.Ia32Patterns.doz_signed_refuted",
    "Verif.Props.Ia32Patterns.doz_narrow_refuted",
    "Verif.Props.Ia32Patterns.sat_inc_correct",
    "Verif.Props.Ia32Patterns.emit_minus64_partial",
    "Verif.Props.Ia32Patterns.emit_minus64_refuted",
    "Verif.Props.Ia32Patterns.enc_minus64_partial",
    "Verif.Props.Ia32Patterns.enc_minus64_refuted",
    "Verif.Props.Ia32Patterns.short_logic",
    "Verif.Props.Ia32Patterns.short_test",
    "Verif.Props.Ia32Patterns.short_lea",
    "Verif.Props.Ia32Patterns.short_rol_partial",
    "Verif.Props.Ia32Patterns.short_rol_refuted",
    "Verif.Props.Ia32Patterns.ffs_correct",
    "Verif.Props.Ia32Patterns.clz_correct",
    "Verif.Props.Ia32Patterns.parity_correct",
    "Verif.Props.Ia32Patterns.bswap_correct",
    "Verif.Props.Ia32Patterns.float_minmax_partial",
    "Verif.Props.Ia32Patterns.float_minmax_exchanged_refuted",
    "Verif.Props.Ia32Patterns.float_minmax_right_refuted",
    "Verif.Props.Ia32Patterns.float_minmax_zero_refuted",
    "Verif.Props.Ia32Patterns.float_minmax_panics",
    "Verif.Props.Ia32Patterns.float_minmax_allowed"
   ],
   "note": "Proved in full: constants, double shifts with proper constants, saturating increment, short logical instructions, tests and address computations, builtins. Refuted and kept as partial: rotations written as a sum with amount 0 and in narrow modes, the difference or zero for signed or narrow numbers, two register assignments of the 64 bit negation, 16 bit rotations by other counts than 8, minimum and maximum with a NaN or zeros of both signs."
  },
  {
   "property": "C113",
   "status": "partial",
   "theorems": [
    "Verif.Props.Ia32Stack.store_to_push_partial",
    "Verif.Props.Ia32Stack.narrow_to_push_partial",
    "Verif.Props.Ia32Stack.stack_pointer_stored_not_pushed",
    "Verif.Props.Ia32Stack.overlapping_stores_exchanged",
    "Verif.Props.Ia32Stack.load_to_pop_partial",
    "Verif.Props.Ia32Stack.dead_load_survives",
    "Verif.Props.Ia32Stack.combine_moves",
    "Verif.Props.Ia32Stack.small_move"
   ],
   "note": "Under what the rest of the backend has to guarantee: stores that are not ordered by memory do not overlap, the stack pointer itself is not the stored value, a loaded value is used before its register is loaded again. Without each of them the claim is refuted. Shorter stores become pushes of four bytes; then memory differs only in bytes of the new stack area that no store writes."
  },
  {
   "property": "C114",
   "status": "partial",
   "theorems": [
    "Verif.Props.BeFlags.tests_see_their_flags_partial",
    "Verif.Props.BeFlags.operands_before_uses",
    "Verif.Props.BeFlags.exact_copy_reads_memory_again"
   ],
   "note": "The tests need that a memory operand of the producer is loaded before the producer is copied, as in the ia32 backend, or that producers have no memory operands. With exact_copy, which amd64, arm and sparc use, the claim is refuted for a comparison with memory; amd64 has those."
  },
  {
   "property": "C115",
   "status": "partial",
   "theorems": [
    "Verif.Props.X87.stack_code_correct_partial",
    "Verif.Props.X87.block_code_correct",
    "Verif.Props.X87.dead_registers_removed",
    "Verif.Props.X87.shuffle_correct",
    "Verif.Props.X87.cycles_fit_partial",
    "Verif.Props.X87.four_cycles",
    "Verif.Props.X87.mark_behind_row"
   ],
   "note": "Left out: inline assembler, calls, returns, constants that are loaded again. The mark behind a cycle of eight places is written behind its row of cycle_idx; the memory model has no such outcome, the negation is proved."
  },
  {
   "property": "C116",
   "status": "partial",
   "theorems": [
    "Verif.Props.TailRec.tail_recursion_correct_partial",
    "Verif.Props.TailRec.variants_sound_partial",
    "Verif.Props.TailRec.unused_result_kept",
    "Verif.Props.TailRec.different_uses_kept",
    "Verif.Props.TailRec.sub_is_wrong",
    "Verif.Props.TailRec.twice_is_wrong",
    "Verif.Props.TailRec.twice_sum_is_wrong",
    "Verif.Props.TailRec.other_is_wrong",
    "Verif.Props.TailRec.float_is_wrong"
   ],
   "note": "The code refutes the claim for values that subtract from the bare result, use it twice, use it below other operations beside an Add or Mul, and for floating point numbers; the negation is proved for each, the theorem holds for all others. check_lifetime_of_locals is left out: local variables do not occur."
  },
  {
   "property": "C117",
   "status": "proved",
   "theorems": [
    "Verif.Props.cdep_right",
    "Verif.Props.unique_cdep_right",
    "Verif.Props.multiple_cdep_right",
    "Verif.Props.dependent_on_branch"
   ],
   "note": "On top of the computation of postdominators (C87), which is part of the model."
  },
  {
   "property": "C118",
   "status": "partial",
   "theorems": [
    "Verif.Props.ConvOpt.conv_transform_right",
    "Verif.Props.ConvOpt.conv_opt_right",
    "Verif.Props.ConvOpt.conv_opt_does_not_add",
    "Verif.Props.ConvOpt.middle_conv_partial",
    "Verif.Props.ConvOpt.int_int_float_wrong",
    "Verif.Props.ConvOpt.float_int_int_wrong",
    "Verif.Props.ConvOpt.int_float_float_wrong",
    "Verif.Props.ConvOpt.float_float_int_wrong"
   ],
   "note": "Moving conversions is proved for integer modes. The rule for the middle conversion is wrong in four cases with floating point modes, each shown with a value; outside of these it is proved."
  },
  {
   "property": "C119",
   "status": "partial",
   "theorems": [
    "Verif.Props.Setsort.add_sets_right",
    "Verif.Props.Setsort.rebuild_poly_right",
    "Verif.Props.Setsort.add_rebuilt_right",
    "Verif.Props.Setsort.or_sets_right",
    "Verif.Props.Setsort.and_sets_right",
    "Verif.Props.Setsort.eor_sets_partial",
    "Verif.Props.Setsort.eor_two_edges_wrong",
    "Verif.Props.Setsort.sub_same_wrong"
   ],
   "note": "Proved for sums, And and Or. For Eor the code is wrong if a node inside the tree is used twice by the tree, shown with a graph; proved if such nodes have an odd number of edges. Sums rely on differences of a node and itself having been replaced. Cycles (second_walk) and pointers are not modelled."
  },
  {
   "property": "C120",
   "status": "partial",
   "theorems": [
    "Verif.Props.EorEquality.walk_equality_right",
    "Verif.Props.EorEquality.replace_leaves_one",
    "Verif.Props.EorEquality.replace_available_partial",
    "Verif.Props.EorEquality.replace_not_available",
    "Verif.Props.EorEquality.chaining_right",
    "Verif.Props.EorEquality.chain_moves"
   ],
   "note": "Values, the remaining operand, and chains are proved. Availability is refuted in general, and proved if a and b are defined in the same block or the one put in is defined no later (constants)."
  },
  {
   "property": "C121",
   "status": "partial",
   "theorems": [
    "Verif.Props.LowerCopyB.small_copy_partial",
    "Verif.Props.LowerCopyB.accesses_aligned",
    "Verif.Props.LowerCopyB.alignment_panics",
    "Verif.Props.LowerCopyB.overlap_wrong",
    "Verif.Props.LowerCopyB.lowering_total",
    "Verif.Props.LowerCopyB.alloc_size_partial",
    "Verif.Props.LowerCopyB.alloc_size_wraps"
   ],
   "note": "The copy is proved for all sizes if the widest access has a mode and the destination does not begin inside of the source; a type with an alignment above 8 stops the compiler. Rounding is proved if the rounded size is representable; otherwise it becomes 0."
  },
  {
   "property": "C122",
   "status": "partial",
   "theorems": [
    "Verif.Props.LowerModeB.mode_b_values_partial",
    "Verif.Props.LowerModeB.mode_b_values_exist",
    "Verif.Props.LowerModeB.compare_gives_boolean",
    "Verif.Props.LowerModeB.use_above_definition"
   ],
   "note": "Values and completeness are proved for every run that ends; placement is refuted by a loop in which the user of a lowered And goes to the upper block and the And to the lower one. Termination is not proved."
  },
  {
   "property": "C123",
   "status": "partial",
   "theorems": [
    "Verif.Props.Intrinsics.strlen_right_partial",
    "Verif.Props.Intrinsics.strlen_unknown_wrong",
    "Verif.Props.Intrinsics.strcmp_right_partial",
    "Verif.Props.Intrinsics.map_strcmp_right_partial",
    "Verif.Props.Intrinsics.strcmp_signed_wrong",
    "Verif.Props.Intrinsics.strcmp_empty_wrong",
    "Verif.Props.Intrinsics.strcmp_modes_wrong",
    "Verif.Props.Intrinsics.strcmp_same",
    "Verif.Props.Intrinsics.copy_dropped_right",
    "Verif.Props.Intrinsics.memcmp_dropped_right",
    "Verif.Props.Intrinsics.abs_right",
    "Verif.Props.Intrinsics.even_arg_right_partial",
    "Verif.Props.Intrinsics.even_unsigned_wrong"
   ],
   "note": "strlen is right if all elements are constants; strcmp if both arrays have one mode and no negative element; even functions if the negated operand is not an unsigned integer below a conversion. The full claims are refuted by witnesses."
  },
  {
   "property": "C124",
   "status": "partial",
   "theorems": [
    "Verif.Props.Hungarian.solve_minimal",
    "Verif.Props.Hungarian.solve_maximal",
    "Verif.Props.Hungarian.solve_code",
    "Verif.Props.Hungarian.solve_ends",
    "Verif.Props.Hungarian.build_spec",
    "Verif.Props.Hungarian.normal_assignment",
    "Verif.Props.Hungarian.threshold_partial",
    "Verif.Props.Hungarian.threshold_wrong",
    "Verif.Props.Hungarian.remove_wrong",
    "Verif.Props.Hungarian.normal_without_edge"
   ],
   "note": "Termination, success, optimality and the cost are proved in full (integers without overflow). The threshold and the removal of missing edges are refuted by witnesses."
  },
  {
   "property": "C125",
   "status": "proved",
   "theorems": [
    "Verif.Props.Garbage.mark_iff",
    "Verif.Props.Garbage.collect_segments",
    "Verif.Props.Garbage.collect_graphs",
    "Verif.Props.Garbage.nothing_dangles",
    "Verif.Props.Garbage.inUse_same",
    "Verif.Props.Garbage.collect_again",
    "Verif.Props.Garbage.collect_ends"
   ],
   "note": "In full for the modelled walk; visited counters are a list of marks, an initializer is the list of its constants, and references that are not in nodes (overwritten members, types) are not followed by the code and not counted as use."
  },
  {
   "property": "C126",
   "status": "proved",
   "theorems": [
    "Verif.Props.Returns.nReturns_same",
    "Verif.Props.Returns.nReturns_done",
    "Verif.Props.Returns.nReturns_ends",
    "Verif.Props.Returns.onePhi_spec"
   ],
   "note": "In full for the modelled parts. Assumed: the start block has no predecessors, a Return is in a block of its own with at most one Return, and Returns of one function have the same number of operands."
  },
  {
   "property": "C127",
   "status": "partial",
   "theorems": [
    "Verif.Props.Builtins.lower_right_partial",
    "Verif.Props.Builtins.popcount_widened",
    "Verif.Props.Builtins.clz_widened",
    "Verif.Props.Builtins.lower_defined",
    "Verif.Props.Builtins.clz_wrong",
    "Verif.Props.Builtins.popcount_wrong"
   ],
   "note": "In full for ffs, ctz, parity, bswap. popcount of a widened negative number and clz of a widened number that is not negative are refuted by witnesses; what they return instead is proved exactly."
  },
  {
   "property": "C128",
   "status": "partial",
   "theorems": [
    "Verif.Props.GaussJordan.solve_partial",
    "Verif.Props.GaussJordan.solve_int_partial",
    "Verif.Props.GaussJordan.solve_regular",
    "Verif.Props.GaussJordan.solve_wrong",
    "Verif.Props.GaussJordan.singular_unnoticed",
    "Verif.Props.GaussJordan.regular_rejected"
   ],
   "note": "Proved over rational numbers for exact sums in the back substitution, and for the code if all terms of these sums are integers. In general the sums of type int are refuted by a witness; so is the detection of singular matrices. That no division by 0 happens for regular matrices is proved in full."
  },
  {
   "property": "C129",
   "status": "proved",
   "theorems": [
    "Verif.Props.ListHead.init_spec",
    "Verif.Props.ListHead.add_spec",
    "Verif.Props.ListHead.addTail_spec",
    "Verif.Props.ListHead.rawDel_spec",
    "Verif.Props.ListHead.del_spec",
    "Verif.Props.ListHead.delInit_spec",
    "Verif.Props.ListHead.move_same",
    "Verif.Props.ListHead.move_other",
    "Verif.Props.ListHead.empty_iff",
    "Verif.Props.ListHead.splice_spec",
    "Verif.Props.ListHead.rawAdd_other",
    "Verif.Props.ListHead.forEach_spec"
   ],
   "note": "In full. Preconditions: a new node is in no list, lists that are joined are disjoint. After list_splice the old head is not a list any more, as in the code."
  },
  {
   "property": "C130",
   "status": "partial",
   "theorems": [
    "Verif.Props.GaussSeidel.new_spec",
    "Verif.Props.GaussSeidel.set_spec",
    "Verif.Props.GaussSeidel.step_iff",
    "Verif.Props.GaussSeidel.nEntries_wrong"
   ],
   "note": "Entries and steps in full (rational numbers, diagonal not 0 as asserted). The number of entries is refuted by a witness."
  }
 ]
}
