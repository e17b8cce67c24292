{
 "claims": [
  {
   "property": "C01",
   "status": "proved",
   "theorems": [
    "Baa.C01_zero",
    "Baa.C01_ones",
    "Baa.C01_from_u64",
    "Baa.C01_from_u64_release",
    "Baa.C01_from_u64_debug_rejects",
    "Baa.C01_from_bool"
   ],
   "note": ""
  },
  {
   "property": "C02",
   "status": "proved",
   "theorems": [
    "Baa.C02_from_i64_release",
    "Baa.C02_from_i64",
    "Baa.C02_from_i64_debug_rejects"
   ],
   "note": ""
  },
  {
   "property": "C03",
   "status": "proved",
   "theorems": [
    "Baa.C03_to_u64",
    "Baa.C03_to_u64_value"
   ],
   "note": ""
  },
  {
   "property": "C04",
   "status": "partial",
   "theorems": [
    "Baa.C04_to_i64_partial",
    "Baa.C04_refuted",
    "Baa.C04_to_i64_exact"
   ],
   "note": "False of the code: negative values of width > 64 that is not a multiple of 64 convert to None (C04_refuted). Proved exactly for all other values; the behaviour in the remaining cases is Baa.toI64_wide. Exact for every value: C04_to_i64_exact."
  },
  {
   "property": "C05",
   "status": "partial",
   "theorems": [
    "Baa.C05_u64_round_trip",
    "Baa.C05_i64_round_trip_partial",
    "Baa.C05_refuted",
    "Baa.C05_negative_lost"
   ],
   "note": "Unsigned round trip proved. Signed round trip is false of the code for negative values of width > 64 not a multiple of 64 (C05_refuted), proved otherwise."
  },
  {
   "property": "C06",
   "status": "proved",
   "theorems": [
    "Baa.C06_add",
    "Baa.C06_add_toNat"
   ],
   "note": ""
  },
  {
   "property": "C07",
   "status": "proved",
   "theorems": [
    "Baa.C07_sub"
   ],
   "note": ""
  },
  {
   "property": "C08",
   "status": "proved",
   "theorems": [
    "Baa.C08_negate",
    "Baa.C08_negate_add",
    "Baa.C08_negate_negate"
   ],
   "note": ""
  },
  {
   "property": "C09",
   "status": "partial",
   "theorems": [
    "Baa.C09_mul_partial",
    "Baa.C09_mul_wide_panics",
    "Baa.C09_refuted"
   ],
   "note": "Multiplication wider than 64 bits is todo!() in the code (C09_mul_wide_panics, C09_refuted); proved for widths 1..64."
  },
  {
   "property": "C10",
   "status": "proved",
   "theorems": [
    "Baa.C10_and",
    "Baa.C10_or",
    "Baa.C10_xor",
    "Baa.C10_bits"
   ],
   "note": ""
  },
  {
   "property": "C11",
   "status": "proved",
   "theorems": [
    "Baa.C11_not",
    "Baa.C11_not_not"
   ],
   "note": ""
  },
  {
   "property": "C12",
   "status": "partial",
   "theorems": [
    "Baa.C12_shift_left_exact",
    "Baa.C12_shift_left_partial",
    "Baa.C12_refuted"
   ],
   "note": "False of the code: shifting left by a positive multiple of 64 does not mask the unused bits (C12_refuted). C12_shift_left_exact states the exact result for all inputs."
  },
  {
   "property": "C13",
   "status": "proved",
   "theorems": [
    "Baa.C13_shift_right",
    "Baa.C13_shift_right_toNat"
   ],
   "note": ""
  },
  {
   "property": "C14",
   "status": "proved",
   "theorems": [
    "Baa.C14_arithmetic_shift_right",
    "Baa.C14_arithmetic_shift_right_toInt"
   ],
   "note": ""
  },
  {
   "property": "C15",
   "status": "proved",
   "theorems": [
    "Baa.C15_is_equal",
    "Baa.C15_is_not_equal",
    "Baa.C15_eq_owned",
    "Baa.C15_eq_ref"
   ],
   "note": ""
  },
  {
   "property": "C16",
   "status": "proved",
   "theorems": [
    "Baa.C16_is_greater",
    "Baa.C16_is_less"
   ],
   "note": ""
  },
  {
   "property": "C17",
   "status": "partial",
   "theorems": [
    "Baa.C17_is_greater_or_equal_partial",
    "Baa.C17_is_less_or_equal_partial",
    "Baa.C17_wide_self_false",
    "Baa.C17_refuted",
    "Baa.C17_exact"
   ],
   "note": "False of the code for equal operands wider than 64 bits (C17_wide_self_false, C17_refuted). Proved for distinct operands or widths 1..64. Exact for all inputs: C17_exact."
  },
  {
   "property": "C18",
   "status": "proved",
   "theorems": [
    "Baa.C18_is_greater_signed",
    "Baa.C18_is_greater_or_equal_signed",
    "Baa.C18_is_less_signed",
    "Baa.C18_is_less_or_equal_signed"
   ],
   "note": ""
  },
  {
   "property": "C19",
   "status": "proved",
   "theorems": [
    "Baa.C19_slice",
    "Baa.C19_slice_bit"
   ],
   "note": ""
  },
  {
   "property": "C20",
   "status": "partial",
   "theorems": [
    "Baa.C20_slice_release",
    "Baa.C20_slice_msb_partial",
    "Baa.C20_slice_msb_eq_width",
    "Baa.C20_refuted"
   ],
   "note": "False of the code for msb = width (C20_slice_msb_eq_width, C20_refuted); proved for msb > width. Release builds: C20_slice_release."
  },
  {
   "property": "C21",
   "status": "partial",
   "theorems": [
    "Baa.C21_zero_width_panics",
    "Baa.C21_concat_partial",
    "Baa.C21_concat_toNat_partial",
    "Baa.C21_refuted"
   ],
   "note": "False of the code when one operand has width 0 and the result is at most 64 bits (panics, C21_refuted); proved for all other widths. That it panics for all of them: C21_zero_width_panics."
  },
  {
   "property": "C22",
   "status": "partial",
   "theorems": [
    "Baa.C22_zero_width_panics",
    "Baa.C22_zero_extend_partial",
    "Baa.C22_refuted"
   ],
   "note": "False of the code for width 0 sources and results of at most 64 bits (panics, C22_refuted); proved for all other widths. That it panics for all of them: C22_zero_width_panics."
  },
  {
   "property": "C23",
   "status": "proved",
   "theorems": [
    "Baa.C23_sign_extend"
   ],
   "note": ""
  },
  {
   "property": "C24",
   "status": "proved",
   "theorems": [
    "Baa.C24_is_bit_set",
    "Baa.C24_set_bit",
    "Baa.C24_clear_bit"
   ],
   "note": ""
  },
  {
   "property": "C25",
   "status": "proved",
   "theorems": [
    "Baa.C25_is_zero",
    "Baa.C25_is_negative",
    "Baa.C25_is_tru",
    "Baa.C25_is_fals",
    "Baa.C25_to_bool"
   ],
   "note": ""
  },
  {
   "property": "C26",
   "status": "proved",
   "theorems": [
    "Baa.C26_assign",
    "Baa.C26_clear",
    "Baa.C26_assign_ones",
    "Baa.C26_assign_from_u64",
    "Baa.C26_assign_from_i64",
    "Baa.C26_assign_constructs"
   ],
   "note": ""
  },
  {
   "property": "C27",
   "status": "partial",
   "theorems": [
    "Baa.C27_closure_partial",
    "Baa.C27_same_meaning_same_value_partial",
    "Baa.C27_refuted",
    "Baa.C27_mul_refuted",
    "Baa.C27_safe_partial"
   ],
   "note": "Expressions of arbitrary size over all operations, comparisons and conditionals. False of the code because of mul wider than 64 bits (C27_mul_refuted) and shift_left by multiples of 64 (C27_refuted). C27_closure_partial covers expressions without those (Supported); C27_safe_partial also covers expressions that go through left shifts by multiples of 64 as long as the stray bits do not reach an operation that looks at them (Safe; Supported implies Safe)."
  },
  {
   "property": "C28",
   "status": "proved",
   "theorems": [
    "Baa.C28_debug_release_agree",
    "Baa.C28_converse_false"
   ],
   "note": ""
  },
  {
   "property": "C29",
   "status": "proved",
   "theorems": [
    "Baa.C29_mixed_widths_panic",
    "Baa.C29_array_widths_panic"
   ],
   "note": ""
  },
  {
   "property": "C30",
   "status": "proved",
   "theorems": [
    "Baa.C30_to_bit_str",
    "Baa.C30_to_bit_str_value"
   ],
   "note": ""
  },
  {
   "property": "C31",
   "status": "proved",
   "theorems": [
    "Baa.C31_to_hex_str",
    "Baa.C31_to_hex_str_width_zero"
   ],
   "note": ""
  },
  {
   "property": "C32",
   "status": "partial",
   "theorems": [
    "Baa.C32_huge_width_debug_panics",
    "Baa.C32_to_dec_str_partial",
    "Baa.C32_to_dec_str_wide_panics",
    "Baa.C32_refuted"
   ],
   "note": "False of the code for values of 2^128 and more (todo!(), C32_to_dec_str_wide_panics, C32_refuted) and for debug builds with widths above 2^32/3 (overflow of a capacity hint). Proved for all values below 2^128. C32_huge_width_debug_panics: all of them panic."
  },
  {
   "property": "C33",
   "status": "partial",
   "theorems": [
    "Baa.C33_width_one",
    "Baa.C33_exact",
    "Baa.C33_to_bit_str_signed_partial",
    "Baa.C33_min_value",
    "Baa.C33_refuted"
   ],
   "note": "False of the code for width 1 and for the smallest value -2^(w-1) (printed as -000..., C33_min_value, C33_refuted) unless w = 64k+1. Proved for all other values. Width 1: C33_width_one. C33_exact: the text printed for every value and width."
  },
  {
   "property": "C34",
   "status": "partial",
   "theorems": [
    "Baa.C34_exact",
    "Baa.C34_to_hex_str_signed_partial",
    "Baa.C34_min_value",
    "Baa.C34_refuted"
   ],
   "note": "False of the code for width 1 and for the smallest value when w-1 is a multiple of 4 (C34_min_value, C34_refuted). Proved for all other values. Width 1: C33_width_one. C34_exact: the text printed for every value and width."
  },
  {
   "property": "C35",
   "status": "proved",
   "theorems": [
    "Baa.C35_from_bit_str",
    "Baa.C35_error",
    "Baa.C35_accepted"
   ],
   "note": "C35_error says which error; C35_accepted covers strings whose width does not fit into 32 bits."
  },
  {
   "property": "C36",
   "status": "proved",
   "theorems": [
    "Baa.C36_from_hex_str",
    "Baa.C36_error",
    "Baa.C36_accepted"
   ],
   "note": "C36_error says which error; C36_accepted covers strings whose width does not fit into 32 bits."
  },
  {
   "property": "C37",
   "status": "partial",
   "theorems": [
    "Baa.C37_from_str_radix_small_partial",
    "Baa.C37_from_str_radix_bin_partial",
    "Baa.C37_from_str_radix_hex_partial",
    "Baa.C37_hex_too_long_panics",
    "Baa.C37_negative_reduced",
    "Baa.C37_overflow_accepted",
    "Baa.C37_dec_wide_panics",
    "Baa.C37_refuted",
    "Baa.C37_empty_is_zero",
    "Baa.C37_width_zero",
    "Baa.C37_sign_only",
    "Baa.C37_unsupported_radix_panics",
    "Baa.C37_bin_malformed",
    "Baa.C37_hex_malformed",
    "Baa.C37_hex_overflow_accepted",
    "Baa.C37_small_malformed",
    "Baa.C37_small_sign_only",
    "Baa.C37_bad_radix_panics",
    "Baa.C37_hex_too_long_malformed",
    "Baa.C37_total",
    "Baa.C37_huge_rejected",
    "Baa.C37_accepted"
   ],
   "note": "False of the code: the width is not checked for widths up to 128 (C37_overflow_accepted, C37_refuted), decimal above 128 bits is todo!() (C37_dec_wide_panics), too long hexadecimal numerals panic (C37_hex_too_long_panics). Proved: widths 1..128 in every radix, binary and hexadecimal of any width. Remaining cases: C37_empty_is_zero, C37_width_zero, C37_sign_only, C37_unsupported_radix_panics, C37_bin_malformed, C37_hex_malformed, C37_hex_overflow_accepted. Malformed input at all widths: C37_small_malformed, C37_small_sign_only, C37_bad_radix_panics, C37_bin_malformed, C37_hex_malformed, C37_hex_too_long_malformed. The outcome of every parse (any string, radix and width; value stored, error or panic): parseOutcome and C37_total; strings too long for the 32-bit digit count are never accepted (C37_huge_rejected; exact outcome: C136); whatever is accepted is accepted according to parseOutcome (C37_accepted)."
  },
  {
   "property": "C38",
   "status": "proved",
   "theorems": [
    "Baa.C38_bit_str_round_trip",
    "Baa.C38_hex_str_round_trip",
    "Baa.C38_dec_str_round_trip",
    "Baa.C38_width_zero"
   ],
   "note": ""
  },
  {
   "property": "C39",
   "status": "partial",
   "theorems": [
    "Baa.C39_assign_from_str_small_partial",
    "Baa.C39_assign_from_str_bin_partial",
    "Baa.C39_assign_from_str_hex_partial",
    "Baa.C39_stale_words",
    "Baa.C39_refuted",
    "Baa.C39_exact"
   ],
   "note": "False of the code above 128 bits: strings that do not reach the top word leave the old upper words (C39_stale_words, C39_refuted). Proved for widths up to 128 and for wide strings that reach the top word. Exact for all well-formed numerals: C39_exact."
  },
  {
   "property": "C40",
   "status": "proved",
   "theorems": [
    "Baa.C40_to_bytes_le",
    "Baa.C40_from_bytes_le",
    "Baa.C40_from_bytes_le_too_long",
    "Baa.C40_from_bytes_le_width_zero",
    "Baa.C40_round_trip",
    "Baa.C40_bytes_first"
   ],
   "note": ""
  },
  {
   "property": "C41",
   "status": "proved",
   "theorems": [
    "Baa.C41_to_big_uint",
    "Baa.C41_from_big_uint",
    "Baa.C41_of_big_uint"
   ],
   "note": ""
  },
  {
   "property": "C42",
   "status": "proved",
   "theorems": [
    "Baa.C42_to_big_int",
    "Baa.C42_from_big_int",
    "Baa.C42_from_big_int_width_zero",
    "Baa.C42_of_big_int",
    "Baa.C42_round_trip"
   ],
   "note": ""
  },
  {
   "property": "C43",
   "status": "partial",
   "theorems": [
    "Baa.C43_to_unsigned_fixed_point_partial",
    "Baa.C43_to_signed_fixed_point_partial",
    "Baa.C43_refuted",
    "Baa.C43_release_wrong_denominator",
    "Baa.C43_wide_fraction_debug",
    "Baa.C43_release_exact"
   ],
   "note": "False of the code for fraction widths of 64 and more: debug panics (C43_refuted), release returns a wrong denominator (C43_release_wrong_denominator). Proved for fraction widths below 64. All debug builds: C43_wide_fraction_debug. All release results: C43_release_exact."
  },
  {
   "property": "C44",
   "status": "proved",
   "theorems": [
    "Baa.C44_get_ref",
    "Baa.C44_get_mut_ref",
    "Baa.C44_get_ref_pair"
   ],
   "note": ""
  },
  {
   "property": "C45",
   "status": "proved",
   "theorems": [
    "Baa.C45_get_mut_ref_pair",
    "Baa.C45_get_mut_ref_triple",
    "Baa.C45_write",
    "Baa.C45_assign_from",
    "Baa.C45_assign_at"
   ],
   "note": ""
  },
  {
   "property": "C46",
   "status": "proved",
   "theorems": [
    "Baa.C46_read_back"
   ],
   "note": ""
  },
  {
   "property": "C47",
   "status": "proved",
   "theorems": [
    "Baa.C47_unique"
   ],
   "note": ""
  },
  {
   "property": "C48",
   "status": "partial",
   "theorems": [
    "Baa.C48_is_zero_one_partial",
    "Baa.C48_wide",
    "Baa.C48_refuted"
   ],
   "note": "Proved for widths up to 64. False above: is_zero/is_one only compare the index with 0/1, and wide values never get these indices (C48_refuted, C48_wide)."
  },
  {
   "property": "C49",
   "status": "partial",
   "theorems": [
    "Baa.C49_exact",
    "Baa.C49_dense_partial",
    "Baa.C49_dense_created",
    "Baa.C49_long_bit_arrays",
    "Baa.C49_refuted"
   ],
   "note": "Proved for all histories, all widths except data width 0 and 1-bit data with an index of 32 bits or more. Those two shapes can be created but every select panics (C49_long_bit_arrays); C49_refuted gives the witness (32-bit index, 1-bit data). C49_exact: readable everywhere or nowhere, and which shapes are which."
  },
  {
   "property": "C50",
   "status": "partial",
   "theorems": [
    "Baa.C50_exact",
    "Baa.C50_wide_store",
    "Baa.C50_sparse_partial",
    "Baa.C50_sparse_sound",
    "Baa.C50_wide_index_panics",
    "Baa.C50_zero_width_panics",
    "Baa.C50_refuted"
   ],
   "note": "Proved for all histories with index width <= 64 and data width > 0. For wider indices reading a non-default element panics (C50_wide_index_panics; Borrow for BitVecValue is todo!()); whatever is returned is right for all widths (C50_sparse_sound). C50_refuted gives the witness. C50_exact and C50_wide_store: exactly which reads and writes work at all widths."
  },
  {
   "property": "C51",
   "status": "partial",
   "theorems": [
    "Baa.C51_equivalent_partial",
    "Baa.C51_refuted"
   ],
   "note": "Same exclusions as C49; C51_refuted gives the witness."
  },
  {
   "property": "C52",
   "status": "partial",
   "theorems": [
    "Baa.C52_make_dense_partial",
    "Baa.C52_wide_debug_panics",
    "Baa.C52_make_dense_sound",
    "Baa.C52_refuted",
    "Baa.C52_exact"
   ],
   "note": "Proved for data of up to 64 bits in both build modes and for wider data in release builds. In a debug build the conversion of wide data panics as soon as one element differs from the default (C52_wide_debug_panics), because the scratch index has the data width. C52_refuted gives the witness. C52_exact: exactly when the conversion succeeds."
  },
  {
   "property": "C53",
   "status": "partial",
   "theorems": [
    "Baa.C53_to_sparse_partial",
    "Baa.C53_sparse_unchanged",
    "Baa.C53_u8_panics",
    "Baa.C53_to_sparse_sound",
    "Baa.C53_refuted",
    "Baa.C53_exact"
   ],
   "note": "Proved except for 2- to 8-bit data with an element of 8 or more, where the conversion panics (C53_u8_panics: the counter array has u8::BITS = 8 slots instead of 256) and for the unreadable shapes of C49. C53_refuted gives the witness. C53_exact: exactly when the conversion succeeds."
  },
  {
   "property": "C54",
   "status": "proved",
   "theorems": [
    "Baa.C54_dense_equal",
    "Baa.C54_different_types"
   ],
   "note": ""
  },
  {
   "property": "C55",
   "status": "partial",
   "theorems": [
    "Baa.C55_sparse_equal_partial",
    "Baa.C55_sparse_equal_reads_partial",
    "Baa.C55_equal_sound",
    "Baa.C55_refuted"
   ],
   "note": "Proved for arrays with equal defaults; with different defaults the answer is always Some(false), even if every element was overwritten so that all selects agree (C55_refuted). Some(true) is always right (C55_equal_sound)."
  },
  {
   "property": "C56",
   "status": "partial",
   "theorems": [
    "Baa.C56_mixed_equal_partial",
    "Baa.C56_wide_debug_panics",
    "Baa.C56_refuted",
    "Baa.C56_exact"
   ],
   "note": "Same exclusions as C52; C56_wide_debug_panics and C56_refuted. C56_exact: panics exactly when the conversion does, otherwise right."
  },
  {
   "property": "C57",
   "status": "partial",
   "theorems": [
    "Baa.C57_entries_partial",
    "Baa.C57_refuted",
    "Baa.C57_no_index"
   ],
   "note": "Proved for all index widths except 0, where listing the only entry panics (C57_refuted). Index width 0 exactly: C57_no_index."
  },
  {
   "property": "C58",
   "status": "partial",
   "theorems": [
    "Baa.C58_long_bool_exact",
    "Baa.C58_u8_slice",
    "Baa.C58_u64_slice",
    "Baa.C58_bool_slice_partial",
    "Baa.C58_long_bool_slice",
    "Baa.C58_refuted"
   ],
   "note": "Bytes and 64-bit words: proved for all slices. Booleans: proved up to 2^31 elements; longer slices cannot be converted or the result cannot be read (C58_long_bool_slice, C58_refuted). Long boolean slices exactly: C58_long_bool_exact."
  },
  {
   "property": "C59",
   "status": "partial",
   "theorems": [
    "Baa.C59_exact",
    "Baa.C59_guard_partial",
    "Baa.C59_refuted"
   ],
   "note": "Proved for data of up to 64 bits. For wider data the guard counts words instead of bytes, so up to 8 GiB pass (C59_refuted: 2^26 elements of 1024 bits). C59_exact: exactly which dense arrays a debug build creates."
  },
  {
   "property": "C60",
   "status": "proved",
   "theorems": [
    "Baa.C60_ord_total",
    "Baa.C60_eq_ord_hash",
    "Baa.C60_hash_owned_ref",
    "Baa.C60_cmp_narrow"
   ],
   "note": ""
  },
  {
   "property": "C61",
   "status": "proved",
   "theorems": [
    "Baa.C61_concat_slices",
    "Baa.C61_slice_concat",
    "Baa.C61_slice_zero_extend",
    "Baa.C61_slice_sign_extend",
    "Baa.C61_slice_slice",
    "Baa.C61_concat_assoc"
   ],
   "note": ""
  },
  {
   "property": "C62",
   "status": "proved",
   "theorems": [
    "Baa.C62_value_conversion",
    "Baa.C62_value_eq"
   ],
   "note": ""
  },
  {
   "property": "C63",
   "status": "proved",
   "theorems": [
    "Baa.C63_debug"
   ],
   "note": ""
  },
  {
   "property": "C64",
   "status": "proved",
   "theorems": [
    "Baa.C64_mask",
    "Baa.C64_mask_zero",
    "Baa.C64_mask_panics"
   ],
   "note": ""
  },
  {
   "property": "C65",
   "status": "proved",
   "theorems": [
    "Baa.C65_add_comm",
    "Baa.C65_add_assoc",
    "Baa.C65_add_zero",
    "Baa.C65_add_sub_cancel",
    "Baa.C65_sub_eq_add_neg",
    "Baa.C65_negate_eq_not_add_one"
   ],
   "note": ""
  },
  {
   "property": "C66",
   "status": "proved",
   "theorems": [
    "Baa.C66_mul_comm",
    "Baa.C66_mul_assoc",
    "Baa.C66_mul_add",
    "Baa.C66_mul_one"
   ],
   "note": "Wider operands panic (C09)."
  },
  {
   "property": "C67",
   "status": "proved",
   "theorems": [
    "Baa.C67_comm",
    "Baa.C67_de_morgan",
    "Baa.C67_xor_cancel",
    "Baa.C67_assoc",
    "Baa.C67_distribute",
    "Baa.C67_lattice",
    "Baa.C67_complement"
   ],
   "note": ""
  },
  {
   "property": "C68",
   "status": "proved",
   "theorems": [
    "Baa.C68_trichotomy",
    "Baa.C68_trichotomy_signed",
    "Baa.C68_transitive",
    "Baa.C68_signed_total_order",
    "Baa.C68_highest_bit"
   ],
   "note": ""
  },
  {
   "property": "C69",
   "status": "proved",
   "theorems": [
    "Baa.C69_shift_zero",
    "Baa.C69_shift_shift",
    "Baa.C69_shift_slice"
   ],
   "note": ""
  },
  {
   "property": "C70",
   "status": "proved",
   "theorems": [
    "Baa.C70_program"
   ],
   "note": ""
  },
  {
   "property": "C71",
   "status": "proved",
   "theorems": [
    "Baa.C71_unsigned",
    "Baa.C71_signed",
    "Baa.C71_constructors",
    "Baa.C71_signed_constructors"
   ],
   "note": ""
  },
  {
   "property": "C72",
   "status": "partial",
   "theorems": [
    "Baa.C72_any_history_partial",
    "Baa.C72_refuted",
    "Baa.C72_read_over_write",
    "Baa.C72_last_write_wins",
    "Baa.C72_writes_commute",
    "Baa.C72_write_back"
   ],
   "note": "Proved for all histories and all shapes that can be read at all (Usable); the excluded shapes are those of C49/C50, where select panics (C72_refuted)."
  },
  {
   "property": "C73",
   "status": "partial",
   "theorems": [
    "Baa.C73_transitive_exact",
    "Baa.C73_reflexive",
    "Baa.C73_symmetric",
    "Baa.C73_transitive_partial",
    "Baa.C73_equal_sound",
    "Baa.C73_store_congruent",
    "Baa.C73_refuted"
   ],
   "note": "Reflexivity and symmetry proved for all arrays; transitivity proved within one representation. It fails across representations: two sparse arrays with different defaults can both equal a dense array and yet differ from each other (C73_refuted). C73_equal_sound: == never relates arrays with different elements. C73_transitive_exact: the only way transitivity fails."
  },
  {
   "property": "C74",
   "status": "partial",
   "theorems": [
    "Baa.C74_error_keeps_value_partial",
    "Baa.C74_error_keeps_shape",
    "Baa.C74_too_long",
    "Baa.C74_refuted",
    "Baa.C74_exact"
   ],
   "note": "False of the code above 128 bits: words already parsed stay in the destination (C74_refuted). Proved up to 128 bits; above, the width and the number of words are kept. What a failed wide parse leaves behind, exactly: C74_exact."
  },
  {
   "property": "C75",
   "status": "partial",
   "theorems": [
    "Baa.C75_bit_str",
    "Baa.C75_hex_str",
    "Baa.C75_hex_str_signed",
    "Baa.C75_bit_str_signed_partial",
    "Baa.C75_refuted"
   ],
   "note": "False of the code for negative binary numerals whose number of digits is a multiple of 64: 64 zeros too many are printed (C75_refuted). Proved for all other numerals; the exact text is proved for these too."
  },
  {
   "property": "C76",
   "status": "proved",
   "theorems": [
    "Baa.C76_concat",
    "Baa.C76_slice",
    "Baa.C76_zero_extend",
    "Baa.C76_sign_extend",
    "Baa.C76_shift_right",
    "Baa.C76_arithmetic_shift_right",
    "Baa.C76_shift_left",
    "Baa.C76_not",
    "Baa.C76_bitwise",
    "Baa.C76_is_bit_set",
    "Baa.C76_is_negative",
    "Baa.C76_compare",
    "Baa.C76_compare_signed"
   ],
   "note": ""
  },
  {
   "property": "C77",
   "status": "partial",
   "theorems": [
    "Baa.C77_add_partial",
    "Baa.C77_sub_partial",
    "Baa.C77_negate_partial",
    "Baa.C77_mul_partial",
    "Baa.C77_not_partial",
    "Baa.C77_slice_partial",
    "Baa.C77_shift_right_partial",
    "Baa.C77_arithmetic_shift_right_partial",
    "Baa.C77_is_bit_set_partial",
    "Baa.C77_is_negative_partial",
    "Baa.C77_to_bit_str_partial",
    "Baa.C77_shift_left_partial",
    "Baa.C77_and_partial",
    "Baa.C77_or_partial",
    "Baa.C77_xor_partial",
    "Baa.C77_compare_raw",
    "Baa.C77_refuted"
   ],
   "note": "False of the code (C77_refuted): comparisons, to_u64, to_big_uint, hexadecimal and byte output, concat, the extensions and the amount of a shift look at the bits above the width. Proved for add, sub, mul, negate, not, slice, the right shifts, is_bit_set, is_negative and to_bit_str; and, or, xor, shift_left pass stray bits on but get the bits below the width right; C77_compare_raw says what the comparisons compare."
  },
  {
   "property": "C78",
   "status": "partial",
   "theorems": [
    "Baa.C78_most_frequent_partial",
    "Baa.C78_default_occurs",
    "Baa.C78_fewest_entries_partial",
    "Baa.C78_refuted",
    "Baa.C78_ties",
    "Baa.C78_exact"
   ],
   "note": "False of the code (C78_refuted): the search for the default stops once 2^20 different elements have been counted, so a later, more frequent element is missed. Proved whenever the array has at most 2^20 different elements (C78_most_frequent_partial, C78_fewest_entries_partial); the default is always an element of the array (C78_default_occurs); C78_ties says which of several most frequent elements is taken for data of up to 8 bits. C78_exact: for data wider than 8 bits the possible defaults, over all hash orders, are exactly the most frequent ones of the elements looked at before more than 2^20 different ones have been seen."
  },
  {
   "property": "C79",
   "status": "partial",
   "theorems": [
    "Baa.C79_select_store",
    "Baa.C79_make_dense",
    "Baa.C79_is_equal",
    "Baa.C79_entries",
    "Baa.C79_to_sparse_partial",
    "Baa.C79_any_most_frequent",
    "Baa.C79_refuted"
   ],
   "note": "False of the code (C79_refuted): for data wider than 8 bits, when several elements are most frequent, the default depends on hash order, and sparse arrays with different defaults are unequal. Proved for select, store, make_dense, is_equal, == and entry listings, and for the conversion to a sparse array when the most frequent element is unique or the data has up to 8 bits; C79_any_most_frequent shows that otherwise every most frequent element is the outcome of some order."
  },
  {
   "property": "C80",
   "status": "proved",
   "theorems": [
    "Baa.C80_store",
    "Baa.C80_grows",
    "Baa.C80_again",
    "Baa.C80_debug_text"
   ],
   "note": "Proved for histories of any length: exact content of the word store, growth by appending, idempotence, debug text."
  },
  {
   "property": "C81",
   "status": "partial",
   "theorems": [
    "Baa.C81_index",
    "Baa.C81_read_back_partial",
    "Baa.C81_wrong",
    "Baa.C81_refuted"
   ],
   "note": "False of the code (C81_refuted): `len() as WordIndex` truncates, so after 2^32 words the next number gets the index of zero (C81_wrong). Proved as long as the different interned words fit into 2^32 (C81_read_back_partial); C81_index gives the exact index, the position modulo 2^32, for every history."
  },
  {
   "property": "C82",
   "status": "partial",
   "theorems": [
    "Baa.C82_sources",
    "Baa.C82_supported_partial",
    "Baa.C82_panics",
    "Baa.C82_comparison_wrong",
    "Baa.C82_refuted"
   ],
   "note": "False of the code (C82_refuted): arithmetic, shifts, not and signed comparisons panic on 0-bit values (C82_panics) and >=, <= are false (C82_comparison_wrong). C82_supported_partial lists the operations that work; C82_sources shows where such values come from."
  },
  {
   "property": "C83",
   "status": "proved",
   "theorems": [
    "Baa.C83_bit_vec",
    "Baa.C83_bit_vec_forms",
    "Baa.C83_dense",
    "Baa.C83_sparse",
    "Baa.C83_bit_vec_document",
    "Baa.C83_dense_document",
    "Baa.C83_sparse_document"
   ],
   "note": "Proved for bit-vectors, dense and sparse arrays of the modelled serde document format. The C83_*_document theorems give the documents that are written, from the mathematical value alone."
  },
  {
   "property": "C84",
   "status": "partial",
   "theorems": [
    "Baa.C84_canonical_partial",
    "Baa.C84_accepts",
    "Baa.C84_refuted"
   ],
   "note": "False of the code (C84_refuted): the derived Deserialize does not validate. C84_accepts gives the exact set of values that can be read; C84_canonical_partial covers documents that the library wrote itself."
  },
  {
   "property": "C85",
   "status": "partial",
   "theorems": [
    "Baa.C85_dense_partial",
    "Baa.C85_sparse_partial",
    "Baa.C85_short",
    "Baa.C85_refuted",
    "Baa.C85_default_entry_unequal",
    "Baa.C85_accepts"
   ],
   "note": "False of the code (C85_refuted): the derived Deserialize does not compare the storage with the declared widths. C85_dense_partial and C85_sparse_partial: complete documents with elements in range are read as the arrays they describe (sparse: last entry wins). C85_accepts gives the exact set of arrays that can be read, C85_short and C85_default_entry_unequal two consequences."
  },
  {
   "property": "C86",
   "status": "proved",
   "theorems": [
    "Baa.C86_computation",
    "Baa.C86_modes",
    "Baa.C86_correct_iff",
    "Baa.C86_result_unique"
   ],
   "note": "Specification: Expr.raw, a function on natural numbers. C86_correct_iff says exactly when a computation gives the mathematical result of C27; C86_modes: both build modes agree. Outside the quantifier: leaves of width 0 (C82) or with the wrong number of words, slices out of range (C20)."
  },
  {
   "property": "C87",
   "status": "proved",
   "theorems": [
    "Baa.C87_to_u64",
    "Baa.C87_is_zero",
    "Baa.C87_bools",
    "Baa.C87_bits",
    "Baa.C87_to_i64",
    "Baa.C87_compare",
    "Baa.C87_compare_signed",
    "Baa.C87_to_bit_str",
    "Baa.C87_to_hex_str",
    "Baa.C87_to_dec_str",
    "Baa.C87_to_bytes_le",
    "Baa.C87_to_big_uint",
    "Baa.C87_to_big_int",
    "Baa.C87_to_bit_str_signed",
    "Baa.C87_to_hex_str_signed",
    "Baa.C87_signed_text_width_one",
    "Baa.C87_to_unsigned_fixed_point",
    "Baa.C87_to_signed_fixed_point",
    "Baa.C87_mask_msb",
    "Baa.C87_set_clear_bit",
    "Baa.C87_truthful_iff"
   ],
   "note": "One theorem per observer, for values that may have bits above the width (Raw a w N). Text of width 0 and fixed-point fractions of 64 bits and more are the subject of C82 and C43."
  },
  {
   "property": "C88",
   "status": "proved",
   "theorems": [
    "Baa.C88_assign_total",
    "Baa.C88_fresh",
    "Baa.C88_reuse"
   ],
   "note": "Specification: assignOutcome. C88_fresh and C88_reuse relate it to the specification parseOutcome of from_str_radix (C37_total)."
  },
  {
   "property": "C89",
   "status": "proved",
   "theorems": [
    "Baa.C89_new",
    "Baa.C89_select",
    "Baa.C89_equal",
    "Baa.C89_read_back"
   ],
   "note": "Specification: cellCount, reached, kept, shown, cellsAfter (a memory of numbers). NoWrap excludes only wide indices whose word offset overflows 64 bits in a release build; an example shows the wrap-around. C89_new, C89_select, C89_equal, C89_read_back."
  },
  {
   "property": "C90",
   "status": "proved",
   "theorems": [
    "Baa.C90_program",
    "Baa.C90_peek_poke",
    "Baa.C90_build_modes"
   ],
   "note": "Specification: peek, poke, Instr.number, Step.number, programNumber, all on natural numbers. C90_program (outcome of every program), C90_peek_poke (the specification's memory behaves like a memory), C90_build_modes."
  },
  {
   "property": "C91",
   "status": "proved",
   "theorems": [
    "Baa.C91_history",
    "Baa.C91_equal",
    "Baa.C91_dense_deterministic"
   ],
   "note": "Specification: DensePanics, Densified, SparsePanics, Picked, sparsified, Next, Runs, EqualSpec. C91_history (outcome of every history), C91_equal (comparisons), C91_dense_deterministic. Restricted to widths whose dense storage is addressable, as in C89."
  },
  {
   "property": "C92",
   "status": "proved",
   "theorems": [
    "Baa.C92_operation",
    "Baa.C92_comparison",
    "Baa.C92_normal_form",
    "Baa.C92_same_words"
   ],
   "note": "Specification: MixedOp.number and MixedCmp.answer, on natural numbers. C92_operation, C92_comparison, C92_normal_form, C92_same_words. Surprising cases are shown as examples: a release build answers that the 100-bit 5 is not greater than the 8-bit 3."
  },
  {
   "property": "C93",
   "status": "proved",
   "theorems": [
    "Baa.C93_index",
    "Baa.C93_dense_data",
    "Baa.C93_sparse_data",
    "Baa.C93_history",
    "Baa.C93_wide_history"
   ],
   "note": "Release builds only; debug builds panic (C29). C93_history excludes, through NoWrap, indices for which the position of a multi-word element wraps around in 64 bits, as C89 does. Sparse arrays with an index of more than 64 bits are not covered."
  },
  {
   "property": "C94",
   "status": "proved",
   "theorems": [
    "Baa.C94_history",
    "Baa.C94_equal"
   ],
   "note": "C94_history, C94_equal. This removes the restriction on positions (NoWrap) of C89 and C93. An example shows a store that spreads over two elements in a release build."
  },
  {
   "property": "C95",
   "status": "proved",
   "theorems": [
    "Baa.C95_in_place",
    "Baa.C95_binary",
    "Baa.C95_shapes",
    "Baa.C95_built",
    "Baa.C95_buffer",
    "Baa.C95_dense"
   ],
   "note": "C95_built (all value-returning functions), C95_in_place, C95_binary and C95_shapes (widths), C95_buffer, C95_dense. No hypotheses on the operands except that widths of arrays and slice positions are u32 values. Sparse arrays of wide data return the stored value itself, so they are not listed in Built."
  },
  {
   "property": "C96",
   "status": "proved",
   "theorems": [
    "Baa.C96_narrow",
    "Baa.C96_widen",
    "Baa.C96_exact",
    "Baa.C96_extend_twice"
   ],
   "note": "C96_narrow, C96_widen, C96_exact, C96_extend_twice: stated about the calls, both sides return and return the same value."
  },
  {
   "property": "C97",
   "status": "proved",
   "theorems": [
    "Baa.C97_less_is_borrow",
    "Baa.C97_less_signed_is_sign",
    "Baa.C97_equal_is_zero",
    "Baa.C97_signed_by_flip",
    "Baa.C97_negative"
   ],
   "note": "C97_less_is_borrow, C97_less_signed_is_sign, C97_equal_is_zero, C97_signed_by_flip, C97_negative."
  },
  {
   "property": "C98",
   "status": "proved",
   "theorems": [
    "Baa.C98_history",
    "Baa.C98_store",
    "Baa.C98_select",
    "Baa.C98_entries",
    "Baa.C98_equal"
   ],
   "note": "C98_history, C98_store, C98_select, C98_entries, C98_equal."
  },
  {
   "property": "C99",
   "status": "proved",
   "theorems": [
    "Baa.C99_double",
    "Baa.C99_mul_power",
    "Baa.C99_left_right",
    "Baa.C99_right_left",
    "Baa.C99_left_concat",
    "Baa.C99_left_left"
   ],
   "note": ""
  },
  {
   "property": "C100",
   "status": "proved",
   "theorems": [
    "Baa.C100_extend",
    "Baa.C100_concat",
    "Baa.C100_not",
    "Baa.C100_injective"
   ],
   "note": ""
  },
  {
   "property": "C101",
   "status": "proved",
   "theorems": [
    "Baa.C101_program"
   ],
   "note": "C101_program: simulation theorem by induction on the number of commands. The excluded commands are the ones that are wrong in the code: wide mul and wide shift_left (C09, C12), is_greater_or_equal (C17), conversions that panic (C52, C53) and comparisons of two sparse arrays (C55)."
  },
  {
   "property": "C102",
   "status": "proved",
   "theorems": [
    "Baa.C102_bits",
    "Baa.C102_hex",
    "Baa.C102_dec",
    "Baa.C102_bytes"
   ],
   "note": "C102_bits, C102_hex and C102_bytes link is_less and is_equal with the dictionary order textLess of the outputs; C102_dec does the same with shortLess (length first) and needs no bound because it speaks about texts that were produced."
  },
  {
   "property": "C103",
   "status": "proved",
   "theorems": [
    "Baa.C103_zero_extend",
    "Baa.C103_sign_extend",
    "Baa.C103_concat",
    "Baa.C103_slice"
   ],
   "note": "C103_slice, C103_zero_extend, C103_sign_extend, C103_concat: Gives (call) (outcome) with the outcome functions sliceOutcome, zeroExtendOutcome, signExtendOutcome, concatOutcome over widths and numbers. The formulas show results with stray bits in release builds, e.g. zero_extend of an 8-bit value by 2^32-4."
  },
  {
   "property": "C104",
   "status": "proved",
   "theorems": [
    "Baa.C104_operation",
    "Baa.C104_comparison",
    "Baa.C104_test",
    "Baa.C104_unary",
    "Baa.C104_term",
    "Baa.C104_result",
    "Baa.C104_equal"
   ],
   "note": "C104_term: Gives (t.run m) (t.predict m) for every Term; C104_operation, C104_comparison, C104_unary, C104_test are the single steps; C104_result and C104_equal say that the prediction determines the value. Extends C86 (legal computations), C92 (positive widths, release) and C103."
  },
  {
   "property": "C105",
   "status": "proved",
   "theorems": [
    "Baa.C105_operation",
    "Baa.C105_comparison",
    "Baa.C105_test",
    "Baa.C105_zero_extend",
    "Baa.C105_sign_extend",
    "Baa.C105_concat",
    "Baa.C105_slice",
    "Baa.C105_unary",
    "Baa.C105_term",
    "Baa.C105_result",
    "Baa.C105_equal",
    "Baa.C105_matches"
   ],
   "note": "C105_term: Makes (t.run m) (t.foresee m) for every Term whose leaves have 32-bit widths and any words; C105_operation, C105_comparison, C105_unary, C105_test, C105_slice, C105_zero_extend, C105_sign_extend and C105_concat are the single steps; C105_result and C105_equal say that the prediction determines the value; C105_matches: agrees with C104 on values of the right size. The prediction is in SpecMalformed.lean."
  },
  {
   "property": "C106",
   "status": "proved",
   "theorems": [
    "Baa.C106_to_u64",
    "Baa.C106_to_bool",
    "Baa.C106_to_i64",
    "Baa.C106_to_bit_str",
    "Baa.C106_to_hex_str",
    "Baa.C106_to_dec_str",
    "Baa.C106_to_bit_str_signed",
    "Baa.C106_to_hex_str_signed",
    "Baa.C106_to_bytes_le",
    "Baa.C106_to_big_uint",
    "Baa.C106_to_big_int",
    "Baa.C106_to_unsigned_fixed_point",
    "Baa.C106_to_signed_fixed_point",
    "Baa.C106_assign_from_u64",
    "Baa.C106_assign_from_i64"
   ],
   "note": "C106_to_u64, _to_bool, _to_i64, _to_bit_str, _to_hex_str, _to_dec_str, _to_bit_str_signed, _to_hex_str_signed, _to_bytes_le, _to_big_uint, _to_big_int, _to_unsigned_fixed_point, _to_signed_fixed_point, _assign_from_u64, _assign_from_i64. The table is SpecObserve.lean; assignment from text is C107."
  },
  {
   "property": "C107",
   "status": "proved",
   "theorems": [
    "Baa.C107_assign_from_str_radix",
    "Baa.C107_matches"
   ],
   "note": "C107_assign_from_str_radix: LeavesIn a (assign_from_str_radix a s radix) (a.shape.parse m radix s); C107_matches: agrees with C88 on values of the right size. The table is SpecParse.lean. Strings with 2^32 or more binary digits (2^30 hexadecimal digits) for destinations of more than two words are in C136."
  },
  {
   "property": "C108",
   "status": "proved",
   "theorems": [
    "Baa.C108_index",
    "Baa.C108_owned",
    "Baa.C108_ref",
    "Baa.C108_mut_ref",
    "Baa.C108_kinds",
    "Baa.C108_array",
    "Baa.C108_value",
    "Baa.C108_error",
    "Baa.C108_pretty_index",
    "Baa.C108_pretty_index_inj",
    "Baa.C108_pretty_value",
    "Baa.C108_pretty_value_inj",
    "Baa.C108_pretty_error"
   ],
   "note": "C108_owned, C108_ref, C108_mut_ref, C108_kinds, C108_index, C108_array, C108_value, C108_error for {:?}; C108_pretty_index, C108_pretty_index_inj, C108_pretty_value, C108_pretty_value_inj, C108_pretty_error for {:#?} of the derived instances (the other instances ignore the alternate flag)."
  },
  {
   "property": "C109",
   "status": "proved",
   "theorems": [
    "Baa.C109_bit_vectors",
    "Baa.C109_signed_text",
    "Baa.C109_parse",
    "Baa.C109_views",
    "Baa.C109_from_slices",
    "Baa.C109_new_dense",
    "Baa.C109_select_store",
    "Baa.C109_convert",
    "Baa.C109_equal",
    "Baa.C109_programs",
    "Baa.C109_index_width_32",
    "Baa.C109_p64",
    "Baa.C109_p64_text",
    "Baa.C109_p64_slices"
   ],
   "note": "C109_bit_vectors (no hypotheses), C109_signed_text, C109_parse, C109_views, C109_from_slices, C109_new_dense, C109_select_store, C109_convert, C109_equal, C109_programs. C109_p64, C109_p64_text and C109_p64_slices: with 64-bit pointers the functions are those of the rest of the model for all arguments. C109_index_width_32 shows that the bound on the index width is needed. Both targets see the same hash-table behaviour; that it does not matter is C79. Allocation failure is not modelled."
  },
  {
   "property": "C110",
   "status": "proved",
   "theorems": [
    "Baa.C110_history",
    "Baa.C110_default",
    "Baa.C110_equal",
    "Baa.C110_uniform"
   ],
   "note": "C110_history, C110_default, C110_equal. Dense arrays of wide data must fit into the address space (2^60 words). C110_uniform supports the model of the comparison of hash maps: in a debug build the compared entries always have equal numbers of words. Sparse arrays with an index of more than 64 bits are left out, because their lookups are unimplemented (C50)."
  },
  {
   "property": "C111",
   "status": "proved",
   "theorems": [
    "Baa.C111_history",
    "Baa.C111_equal",
    "Baa.C111_entries",
    "Baa.C111_order"
   ],
   "note": "C111_history, C111_equal, C111_entries, C111_order. A dense array of wide data must fit into the address space (2^60 words), both with the words of the default and with the words that the width needs. The index has at most 64 bits, because other sparse arrays cannot be made dense."
  },
  {
   "property": "C112",
   "status": "proved",
   "theorems": [
    "Baa.C112_program",
    "Baa.C112_unique",
    "Baa.C112_builds"
   ],
   "note": "C112_program: simulation of the device (calls of the library) by the specification in Spec/Devices.lean, by induction on the number of steps, from C105, C106, C107, C110, C111, C114 and C115; C112_unique: without conversions and comparisons of arrays and without long sparse arrays there is exactly one predicted outcome, for all hash tables; C112_builds: debug and release builds. Creating a dense array that does not fit into the address space, or converting to one, leaves the scope of the prediction."
  },
  {
   "property": "C113",
   "status": "proved",
   "theorems": [
    "Baa.C113_stored",
    "Baa.C113_accepts",
    "Baa.C113_rejects",
    "Baa.C113_read_back",
    "Baa.C113_read_short",
    "Baa.C113_same_value",
    "Baa.C113_unique",
    "Baa.C113_is_zero_one",
    "Baa.C113_empty_shares"
   ],
   "note": "C113_accepts and C113_rejects decide acceptance and give the store, the indices and the debug text; C113_stored: the words of each value are in the store at its position; C113_read_back, C113_read_short, C113_same_value: what an index reads back as; C113_unique, C113_is_zero_one: identity of indices; C113_empty_shares: values without words share an index with the next new value, which is why C113_unique asks for words."
  },
  {
   "property": "C114",
   "status": "proved",
   "theorems": [
    "Baa.C114_history",
    "Baa.C114_entries",
    "Baa.C114_select",
    "Baa.C114_equal",
    "Baa.C114_mixed"
   ],
   "note": "C114_history decides histories in both directions; C114_entries gives default and entries; C114_select decides reads; C114_equal decides comparisons; C114_mixed is the comparison with a dense array. Generalises C98 from values with the words their width needs to all values."
  },
  {
   "property": "C115",
   "status": "proved",
   "theorems": [
    "Baa.C115_history",
    "Baa.C115_select",
    "Baa.C115_entries",
    "Baa.C115_equal"
   ],
   "note": "C115_history decides histories in both directions; C115_select, C115_entries and C115_equal give the observations afterwards. Together with C110, C111 and C114 this covers arrays of all index widths."
  },
  {
   "property": "C116",
   "status": "proved",
   "theorems": [
    "Baa.C116_exact",
    "Baa.C116_panics",
    "Baa.C116_safe"
   ],
   "note": "C116_exact is the converse of C112_program; C116_panics and C116_safe decide panics. For a dense array that does not fit into the address space (Upshot.outside) nothing is said. Behaviours of hash tables are those of HashEnv: any permutation of the entries, any set of stored keys that contains an equal one; a particular implementation may not show all of them."
  },
  {
   "property": "C117",
   "status": "proved",
   "theorems": [
    "Baa.C117_select",
    "Baa.C117_history",
    "Baa.C117_equal",
    "Baa.C117_default",
    "Baa.C117_entries"
   ],
   "note": "C117_select, C117_history, C117_equal and C117_entries give soundness (every execution is predicted) and exactness (every prediction is attained). The account of an array (ArrayValue.account) is its content with words read as numbers and hash tables as partial functions. C85_accepts says which arrays documents give. Comparing a dense with a sparse array and conversions are not part of this claim."
  },
  {
   "property": "C118",
   "status": "proved",
   "theorems": [
    "Baa.C118_make_dense",
    "Baa.C118_to_sparse",
    "Baa.C118_history",
    "Baa.C118_room",
    "Baa.C118_equal"
   ],
   "note": "C118_make_dense, C118_to_sparse, C118_history and C118_equal give soundness (every execution is predicted) and exactness (every prediction is attained). C118_room shows that the hypothesis about room holds for every history if indices and data have at most 64 bits and the storage is dense or a table of numbers. Together with C117 this covers every operation on arrays from documents."
  },
  {
   "property": "C119",
   "status": "proved",
   "theorems": [
    "Baa.C119_program",
    "Baa.C119_exact",
    "Baa.C119_panics",
    "Baa.C119_states",
    "Baa.C119_builds"
   ],
   "note": "C119_program is soundness, C119_exact is exactness, C119_panics and C119_states state both as equivalences. The state of the specification is a function of the state of the program (widths, word counts and numbers of registers, accounts of arrays as in C117), so that nothing about the arrays is lost. C119_builds relates the two build modes."
  },
  {
   "property": "C120",
   "status": "proved",
   "theorems": [
    "Baa.C120_listing",
    "Baa.C120_failure",
    "Baa.C120_legal",
    "Baa.C120_documents"
   ],
   "note": "C120_listing and C120_failure relate calls to the whole listing for every sparse array, C120_legal is for arrays made by the interface (together with C57), C120_documents is soundness and exactness for arrays from documents, including calls after a caught panic."
  },
  {
   "property": "C121",
   "status": "proved",
   "theorems": [
    "Baa.C121_values_agree",
    "Baa.C121_arrays_agree",
    "Baa.C121_interner_agrees",
    "Baa.C121_arrays",
    "Baa.C121_interner",
    "Baa.C121_unchanged",
    "Baa.C121_ones",
    "Baa.C121_u64",
    "Baa.C121_i64",
    "Baa.C121_parse",
    "Baa.C121_sized"
   ],
   "note": "C121_values_agree, C121_arrays_agree and C121_interner_agrees show that the step-by-step programs compute what the functions of the model compute and panic in the same cases. C121_arrays, C121_interner, C121_unchanged, C121_ones, C121_u64, C121_i64, C121_parse say what is left; C121_sized is for values of the right size. Numerals with 2^32 or more digits are excluded for radix 2 and 16 above 128 bits; for them see C137."
  },
  {
   "property": "C122",
   "status": "proved",
   "theorems": [
    "Baa.C122_agrees",
    "Baa.C122_program",
    "Baa.C122_exact",
    "Baa.C122_states",
    "Baa.C122_unguarded",
    "Baa.C122_guarded"
   ],
   "note": "C122_program is soundness, C122_exact exactness, C122_states both for reachable states, C122_agrees that commands do what they do in C119 and panic in the same cases, C122_unguarded and C122_guarded the two extreme cases. As in C112 and C119, dense arrays that do not fit into the address space are outside of the prediction, and so are numerals with 2^32 digits."
  },
  {
   "property": "C123",
   "status": "proved",
   "theorems": [
    "Baa.C123_size",
    "Baa.C123_left",
    "Baa.C123_neighbours",
    "Baa.C123_client"
   ],
   "note": "C123_client is the equivalence, C123_neighbours and C123_left say what a single panic leaves, C123_size that no operation in place changes the size. The statement about the value itself after a panic is for widths below 2^32 and numerals of less than 2^32 digits (others: C137)."
  },
  {
   "property": "C124",
   "status": "proved",
   "theorems": [
    "Baa.C124_default_profiles",
    "Baa.C124_fewer_checks",
    "Baa.C124_two_switches",
    "Baa.C124_debug_result",
    "Baa.C124_release_result",
    "Baa.C124_programs",
    "Baa.C124_program_results",
    "Baa.C124_mixed_widths_panic",
    "Baa.C124_array_widths_panic",
    "Baa.C124_reading"
   ],
   "note": "Every function whose behaviour depends on a switch is in Model/Profiles.lean once more with the two switches as parameters; C124_default_profiles ties it to the rest of the model."
  },
  {
   "property": "C125",
   "status": "proved",
   "theorems": [
    "Baa.C125_client"
   ],
   "note": "is_zero and is_one miss 0 and 1 of more than 64 bits (C48), so the table answers the same. Beyond 2^32 words indices are wrong (C81)."
  },
  {
   "property": "C126",
   "status": "partial",
   "theorems": [
    "Baa.C126_bit_vec",
    "Baa.C126_dense",
    "Baa.C126_sparse_document",
    "Baa.C126_written_partial",
    "Baa.C126_writable",
    "Baa.C126_refuted",
    "Baa.C126_sparse",
    "Baa.C126_key",
    "Baa.C126_sparse_elsewhere",
    "Baa.C126_bit_vec_forms",
    "Baa.C126_bit_vec_accepts",
    "Baa.C126_accepts"
   ],
   "note": "False for sparse arrays with an index of more than 64 bits: the keys of their table are structs, which such a format rejects. Proved for indices of up to 64 bits (C126_written_partial), refuted (C126_refuted), and the writable arrays are characterised exactly: index of up to 64 bits, or every element is the default (C126_writable). Whatever was written is read back (C126_bit_vec, C126_dense, C126_sparse), what is written is spelled out (C126_bit_vec, C126_sparse_document), C126_key says what a key is, C126_sparse_elsewhere and C126_bit_vec_forms what other documents are accepted, and C126_accepts which arrays documents from elsewhere can yield."
  },
  {
   "property": "C127",
   "status": "partial",
   "theorems": [
    "Baa.Tests.C127_from_to_bit_str",
    "Baa.Tests.C127_to_from_decimal_str",
    "Baa.Tests.C127_mul",
    "Baa.Tests.C127_shift_left",
    "Baa.C127_passes_partial",
    "Baa.C127_short",
    "Baa.C127_refuted"
   ],
   "note": "False for four tests (C127_refuted); the other 24 pass on all arguments (C127_passes_partial). For the four, C127_shift_left, C127_mul, C127_from_to_bit_str and C127_to_from_decimal_str say exactly on which arguments they pass: a left shift by a multiple of 64 leaves digits above the width that the test checks for, multiplication is not implemented above 64 bits (the test is ignored in the repository), signed numerals with a multiple of 64 digits are printed with 64 digits too many, decimal text is not implemented above 128 bits. C127_short: on texts as short as the generators draw them all tests that are not ignored pass."
  },
  {
   "property": "C128",
   "status": "proved",
   "theorems": [
    "Baa.C128_same_width",
    "Baa.C128_other_width",
    "Baa.C128_by_number",
    "Baa.C128_sorting",
    "Baa.C128_search"
   ],
   "note": "C128_same_width and C128_other_width describe the order exactly, C128_by_number says for which widths it is numerical. C128_sorting and C128_search hold for arbitrary values, also for those with bits above the width."
  },
  {
   "property": "C129",
   "status": "partial",
   "theorems": [
    "Baa.C129_loading_partial",
    "Baa.C129_refuted",
    "Baa.C129_exact",
    "Baa.C129_accepted",
    "Baa.C129_round_trip"
   ],
   "note": "False of the code (C129_refuted): the indices of a table with more than 64 index bits are entered into a hash table, and comparing two indices of the same width with different numbers of words violates a debug assertion. C129_loading_partial: no panic in release builds and for documents without such indices. C129_exact: the exact condition; the panic never has to occur, and whatever is read is what C83 to C85 say. C129_accepted states the condition on the array that is read, C129_round_trip covers documents that the library wrote."
  },
  {
   "property": "C130",
   "status": "proved",
   "theorems": [
    "Baa.C130_sorting",
    "Baa.C130_predictable",
    "Baa.C130_contents",
    "Baa.C130_order",
    "Baa.C130_narrow",
    "Baa.C130_increasing"
   ],
   "note": "C130_sorting: exactly one sorted sequence; C130_predictable: any sparse array, also from documents, two hash orders; C130_contents: two arrays; C130_order, C130_narrow, C130_increasing: the order. The listing itself can panic (C57, C120); the theorems speak about listings that are obtained."
  },
  {
   "property": "C131",
   "status": "proved",
   "theorems": [
    "Baa.C131_binary",
    "Baa.C131_hexadecimal",
    "Baa.C131_decimal"
   ],
   "note": "C131_binary, C131_hexadecimal, C131_decimal (both halves). At self-chosen width: C38."
  },
  {
   "property": "C132",
   "status": "partial",
   "theorems": [
    "Baa.C132_binary",
    "Baa.C132_hexadecimal",
    "Baa.C132_width_one",
    "Baa.C132_read_back_partial",
    "Baa.C132_refuted"
   ],
   "note": "False of the code (C132_refuted): the smallest value is read as 0, in binary unless w = 64k+1, in hexadecimal if w-1 is a multiple of 4; binary texts of every value are rejected with ExceedsWidth for w = 64k+1 above 128; at width 1 everything is read as 0 (C132_width_one). Proved for all other values. C132_binary, C132_hexadecimal: the exact result for every value and width above 1."
  },
  {
   "property": "C133",
   "status": "proved",
   "theorems": [
    "Baa.C133_slice",
    "Baa.C133_concat",
    "Baa.C133_carry",
    "Baa.C133_signed_overflow",
    "Baa.C133_add",
    "Baa.C133_sub",
    "Baa.C133_negate"
   ],
   "note": "C133_slice, C133_concat, C133_carry, C133_signed_overflow, C133_add, C133_sub, C133_negate. Comparison of concatenations: C100."
  },
  {
   "property": "C134",
   "status": "partial",
   "theorems": [
    "Baa.C134_rotate",
    "Baa.C134_rotate_partial",
    "Baa.C134_refuted"
   ],
   "note": "False of the code for multiples of 64 (C134_refuted), a consequence of C12: the result can have bits above its width. Proved for all other amounts. C134_rotate: for every amount, mask_msb of the result is the rotated value, and exactly when the result already is."
  },
  {
   "property": "C135",
   "status": "proved",
   "theorems": [
    "Baa.C135_multiply",
    "Baa.C135_mul",
    "Baa.C135_divide",
    "Baa.C135_divide_multiply"
   ],
   "note": "C135_multiply, C135_mul, C135_divide, C135_divide_multiply. The loops are programs of a user, written in Spec/Algorithms.lean."
  },
  {
   "property": "C136",
   "status": "proved",
   "theorems": [
    "Baa.C136_huge",
    "Baa.C136_every_text",
    "Baa.C136_assign",
    "Baa.C136_from_str_radix",
    "Baa.C136_wellformed_bin",
    "Baa.C136_wellformed_hex"
   ],
   "note": "Specification: Spec/HugeText.lean (hugeInto, parseEvery). C136_every_text (any destination; completes C107), C136_assign (completes C88), C136_from_str_radix (completes C37), C136_huge, C136_wellformed_bin, C136_wellformed_hex."
  },
  {
   "property": "C137",
   "status": "proved",
   "theorems": [
    "Baa.C137_huge",
    "Baa.C137_every_text",
    "Baa.C137_sized",
    "Baa.C137_changed"
   ],
   "note": "Specification: Spec/HugeLeft.lean (hugeLeft, Shape.leftEvery). C137_every_text (any destination; completes C121_parse), C137_huge, C137_sized (right number of words), C137_changed (a value of 129 bits that is changed)."
  },
  {
   "property": "C138",
   "status": "proved",
   "theorems": [
    "Baa.C138_bytes_concat",
    "Baa.C138_bytes_slice",
    "Baa.C138_bytes_zero_extend",
    "Baa.C138_bytes_sign_extend",
    "Baa.C138_bytes_shift_right",
    "Baa.C138_bytes_shift_left",
    "Baa.C138_bytes_not",
    "Baa.C138_bytes_bitwise",
    "Baa.C138_hex_concat",
    "Baa.C138_hex_slice",
    "Baa.C138_hex_zero_extend",
    "Baa.C138_hex_sign_extend",
    "Baa.C138_hex_shift_right",
    "Baa.C138_hex_shift_left",
    "Baa.C138_hex_not",
    "Baa.C138_hex_bitwise",
    "Baa.C138_hex_of_bytes",
    "Baa.C138_bits_of_hex"
   ],
   "note": "Specification: Spec/Chunks.lean (hexOfByte, bitsOfHex, nibbleText, nibbleOf). The texts and bytes alone appear in the statements, as in C76."
  },
  {
   "property": "C139",
   "status": "proved",
   "theorems": [
    "Baa.C139_bits_concat",
    "Baa.C139_hex_concat",
    "Baa.C139_zeros",
    "Baa.C139_bytes_concat",
    "Baa.C139_narrow",
    "Baa.C139_widen",
    "Baa.C139_widen_signed"
   ],
   "note": "The statements are about the calls alone: both sides return the same value."
  },
  {
   "property": "C140",
   "status": "proved",
   "theorems": [
    "Baa.C140_unpack_pack",
    "Baa.C140_pack_unpack",
    "Baa.C140_set_field"
   ],
   "note": "Specification: Spec/Fields.lean (packFields, unpackFields, setField: programs over the calls)."
  },
  {
   "property": "C141",
   "status": "proved",
   "theorems": [
    "Baa.C141_cells",
    "Baa.C141_wide",
    "Baa.C141_same_elements",
    "Baa.C141_other_order"
   ],
   "note": "Specification: Spec/Memory.lean (storeCells, loadCells, storeWide, loadWide: programs over the calls; updates: what the cells should be)."
  },
  {
   "property": "C142",
   "status": "proved",
   "theorems": [
    "Baa.C142_signed_division",
    "Baa.C142_floor_division",
    "Baa.C142_shift"
   ],
   "note": "Specification: Spec/SignedDivision.lean (signedDivision, floorDivision: programs over the calls); the numbers are Lean's Int.tdiv, Int.tmod, Int.fdiv, Int.fmod."
  },
  {
   "property": "C143",
   "status": "proved",
   "theorems": [
    "Baa.C143_eval",
    "Baa.C143_independent"
   ],
   "note": "Specification: Spec/Smt.lean (SmtTerm, denote, eval). Equality of arrays is a loop over all 2^iw indices; is_equal is not used because of C55. Terms with 2^32 - 1 bits, and arrays with an index above 64 bits, are not covered (see C98 for long indices)."
  },
  {
   "property": "C144",
   "status": "proved",
   "theorems": [
    "Baa.C144_simulation",
    "Baa.C144_one_run",
    "Baa.C144_independent"
   ],
   "note": "Specification: Spec/Simulation.lean (ClockedSystem, IsRun as equations, simulate). Same widths as C143. Initial values are terms over the first inputs."
  },
  {
   "property": "C145",
   "status": "proved",
   "theorems": [
    "Baa.C145_add_overflows",
    "Baa.C145_sub_overflows",
    "Baa.C145_add_overflows_signed",
    "Baa.C145_sub_overflows_signed",
    "Baa.C145_negate_overflows",
    "Baa.C145_mul_overflows",
    "Baa.C145_mul_overflows_signed",
    "Baa.C145_add_saturating",
    "Baa.C145_sub_saturating",
    "Baa.C145_add_saturating_signed",
    "Baa.C145_sub_saturating_signed"
   ],
   "note": "Specification: Spec/Overflow.lean (the procedures, clampSigned); what overflow means is BitVec.uaddOverflow, saddOverflow, usubOverflow, ssubOverflow, negOverflow, umulOverflow and smulOverflow of Lean's core library. The library's own mul is not used because it fails above 64 bits (C09)."
  },
  {
   "property": "C146",
   "status": "proved",
   "theorems": [
    "Baa.C146_pop_count",
    "Baa.C146_clear_lowest",
    "Baa.C146_isolate_lowest",
    "Baa.C146_pop_count_fast",
    "Baa.C146_is_power_of_two",
    "Baa.C146_highest_one",
    "Baa.C146_lowest_one",
    "Baa.C146_reverse"
   ],
   "note": "Specification: Spec/BitScan.lean (the loops, onesOf counts positions), Nat.log2, divisibility, BitVec.reverse. The loop that removes ones takes a bound on the number of rounds; any bound from the number of ones up, such as the width (onesOf_le), gives the same result."
  },
  {
   "property": "C147",
   "status": "proved",
   "theorems": [
    "Baa.C147_fill",
    "Baa.C147_copy",
    "Baa.C147_move_up",
    "Baa.C147_move_down",
    "Baa.C147_move"
   ],
   "note": "Specification: Spec/Blocks.lean (the loops; blockFrom is the resulting function)."
  },
  {
   "property": "C148",
   "status": "proved",
   "theorems": [
    "Baa.C148_queue"
   ],
   "note": "Specification: Spec/Queue.lean (queueRun is the bounded list, ArrayQueue.run the implementation)."
  },
  {
   "property": "C149",
   "status": "proved",
   "theorems": [
    "Baa.C149_add_by_carries",
    "Baa.C149_add_by_or",
    "Baa.C149_or_by_add",
    "Baa.C149_disjoint",
    "Baa.C149_sub_by_borrows",
    "Baa.C149_sub_by_not",
    "Baa.C149_not_by_negate",
    "Baa.C149_average_down",
    "Baa.C149_average_up",
    "Baa.C149_absolute",
    "Baa.C149_choose",
    "Baa.C149_gray_step",
    "Baa.C149_ungray"
   ],
   "note": "Specification: Spec/Tricks.lean (the call sequences). Identities are equations between the outcomes of calls; averages and absolute values are stated with natural numbers."
  },
  {
   "property": "C150",
   "status": "proved",
   "theorems": [
    "Baa.C150_print",
    "Baa.C150_agrees",
    "Baa.C150_parse",
    "Baa.C150_round_trip"
   ],
   "note": "Specification: Spec/Decimal.lean (the loops), IsDecimal (Spec/Text.lean) and digitsVal (Spec.lean). Division is the long division of C135."
  },
  {
   "property": "C151",
   "status": "proved",
   "theorems": [
    "Baa.C151_range",
    "Baa.C151_add",
    "Baa.C151_sub",
    "Baa.C151_negate",
    "Baa.C151_less",
    "Baa.C151_widen",
    "Baa.C151_refine",
    "Baa.C151_round",
    "Baa.C151_mul"
   ],
   "note": "Specification: Spec/FixedPoint.lean (rational numbers of Lean's core library). Wider values are outside the claim because to_signed_fixed_point returns nothing for most of them (C43)."
  },
  {
   "property": "C152",
   "status": "proved",
   "theorems": [
    "Baa.C152_range",
    "Baa.C152_add",
    "Baa.C152_sub",
    "Baa.C152_less",
    "Baa.C152_widen",
    "Baa.C152_refine",
    "Baa.C152_round",
    "Baa.C152_mul"
   ],
   "note": "Specification: Spec/FixedPoint.lean. A numerator of more than 64 bits is not read at all (C43)."
  },
  {
   "property": "C153",
   "status": "proved",
   "theorems": [
    "Baa.C153_gcd",
    "Baa.C153_mul_mod",
    "Baa.C153_pow_mod",
    "Baa.C153_square_root"
   ],
   "note": "Specification: Spec/Numbers.lean (the programs). Multiplication and division are those of C135."
  },
  {
   "property": "C154",
   "status": "proved",
   "theorems": [
    "Baa.C154_cache"
   ],
   "note": "Specification: Spec/Cache.lean (the cache, and memRun for the memory)."
  },
  {
   "property": "C155",
   "status": "proved",
   "theorems": [
    "Baa.C155_remainder",
    "Baa.C155_burst",
    "Baa.C155_linear",
    "Baa.C155_bound_is_sharp",
    "Baa.C155_even_generator"
   ],
   "note": "Specification: Spec/Checksum.lean (the check, messageNumber, polyTimes). The CRC-8 check value 0xf4 is computed in the model beside the theorem."
  },
  {
   "property": "C156",
   "status": "proved",
   "theorems": [
    "Baa.C156_sort",
    "Baa.C156_search"
   ],
   "note": "Specification: Spec/Sorting.lean (the programs, and cellsFrom for the range)."
  },
  {
   "property": "C157",
   "status": "proved",
   "theorems": [
    "Baa.C157_hamming",
    "Baa.C157_three_errors"
   ],
   "note": "Specification: Spec/Hamming.lean (the code)."
  },
  {
   "property": "C158",
   "status": "proved",
   "theorems": [
    "Baa.C158_add",
    "Baa.C158_sub"
   ],
   "note": "Specification: Spec/Limbs.lean (the programs, limbsNumber) and Spec/Sorting.lean (cellsFrom)."
  },
  {
   "property": "C159",
   "status": "proved",
   "theorems": [
    "Baa.C159_compile",
    "Baa.C159_height_matters"
   ],
   "note": "Specification: Spec/StackMachine.lean (expressions, their value, the translation and the machine)."
  },
  {
   "property": "C160",
   "status": "proved",
   "theorems": [
    "Baa.C160_sets",
    "Baa.C160_within_matters"
   ],
   "note": "Specification: Spec/BitSets.lean (commands, their implementation and their meaning for sets)."
  },
  {
   "property": "C161",
   "status": "proved",
   "theorems": [
    "Baa.C161_hash_table",
    "Baa.C161_low_bits"
   ],
   "note": "Specification: Spec/HashTable.lean (the table, and a map with limited room). Starts from a table with no cell in use."
  },
  {
   "property": "C162",
   "status": "proved",
   "theorems": [
    "Baa.C162_adder",
    "Baa.C162_subtractor",
    "Baa.C162_comparator",
    "Baa.C162_shifter",
    "Baa.C162_multiplier"
   ],
   "note": "Specification: Spec/Circuits.lean (the circuits)."
  },
  {
   "property": "C163",
   "status": "proved",
   "theorems": [
    "Baa.C163_multiply"
   ],
   "note": "Specification: Spec/LongProducts.lean (the algorithm) and limbsNumber of Spec/Limbs.lean."
  },
  {
   "property": "C164",
   "status": "proved",
   "theorems": [
    "Baa.C164_divide",
    "Baa.C164_digits"
   ],
   "note": "Specification: Spec/LongQuotients.lean (the algorithm, baseDigits) and limbsNumber of Spec/Limbs.lean."
  },
  {
   "property": "C165",
   "status": "proved",
   "theorems": [
    "Baa.C165_distinct",
    "Baa.C165_reverse",
    "Baa.C165_reverse_twice",
    "Baa.C165_append",
    "Baa.C165_count",
    "Baa.C165_circle"
   ],
   "note": "Specification: Spec/Links.lean (Chain says which cells a list has; the programs)."
  },
  {
   "property": "C166",
   "status": "proved",
   "theorems": [
    "Baa.C166_search",
    "Baa.C166_invariant"
   ],
   "note": "Specification: Spec/Reachability.lean (Reaches; the search)."
  },
  {
   "property": "C167",
   "status": "proved",
   "theorems": [
    "Baa.C167_allocator",
    "Baa.C167_all_cells"
   ],
   "note": "Specification: Spec/Allocator.lean (FairAnswers says which answers a client may get; the program), Chain of Spec/Links.lean."
  },
  {
   "property": "C168",
   "status": "proved",
   "theorems": [
    "Baa.C168_not",
    "Baa.C168_and",
    "Baa.C168_or",
    "Baa.C168_xor",
    "Baa.C168_add",
    "Baa.C168_sub"
   ],
   "note": "Specification: Spec/UnknownBits.lean (Matches, BestPair; the programs)."
  },
  {
   "property": "C169",
   "status": "proved",
   "theorems": [
    "Baa.C169_run",
    "Baa.C169_sound",
    "Baa.C169_constant"
   ],
   "note": "Specification: Spec/UnknownTerms.lean (terms, their values, the two programs), Matches of Spec/UnknownBits.lean."
  },
  {
   "property": "C170",
   "status": "proved",
   "theorems": [
    "Baa.C170_add",
    "Baa.C170_read",
    "Baa.C170_sums"
   ],
   "note": "Specification: Spec/PrefixSums.lean (sums of ranges, the two loops, the sum of what is added). The cell zero is not used."
  },
  {
   "property": "C171",
   "status": "proved",
   "theorems": [
    "Baa.C171_transactions"
   ],
   "note": "Specification: Spec/Journal.lean (requests, the programs, what the requests mean, when the journal has room)."
  },
  {
   "property": "C172",
   "status": "proved",
   "theorems": [
    "Baa.C172_sets"
   ],
   "note": "Specification: Spec/DisjointSets.lean (chains of pairs, the programs)."
  }
 ]
}