{
 "claims": [
  {
   "property": "C01",
   "status": "proved",
   "theorems": [
    "BN.C01_eq_structural",
    "BN.C01_ne_is_not_eq",
    "BN.C01_eq_equivalence"
   ],
   "note": ""
  },
  {
   "property": "C02",
   "status": "proved",
   "theorems": [
    "BN.C02_eq_iff_value"
   ],
   "note": ""
  },
  {
   "property": "C03",
   "status": "proved",
   "theorems": [
    "BN.C03_ge_le_nonneg"
   ],
   "note": ""
  },
  {
   "property": "C04",
   "status": "partial",
   "theorems": [
    "BN.C04_refuted",
    "BN.C04_gt_partial",
    "BN.C04_gt_iff"
   ],
   "note": "Refuted by the code: C04_refuted gives two positive numbers with a > b and b > a both true. C04_gt_partial is the part that holds (no false negatives, exact for equal-length single digits / different lengths). C04_gt_iff: exactly when the answer is right."
  },
  {
   "property": "C05",
   "status": "proved",
   "theorems": [
    "BN.C05_gt_lt_meaning",
    "BN.C05_no_false_negatives"
   ],
   "note": ""
  },
  {
   "property": "C06",
   "status": "partial",
   "theorems": [
    "BN.C06_refuted",
    "BN.C06_order_partial"
   ],
   "note": "Refuted by the code (C06_refuted). C06_order_partial: the order laws hold for >= and <=."
  },
  {
   "property": "C07",
   "status": "partial",
   "theorems": [
    "BN.C07_refuted",
    "BN.C07_negative_partial",
    "BN.C07_exact"
   ],
   "note": "Refuted by the code (C07_refuted: -5 > -5). C07_negative_partial is what holds, C07_exact the exact answers of all four operators."
  },
  {
   "property": "C08",
   "status": "proved",
   "theorems": [
    "BN.C08_opposite_signs",
    "BN.C08_zero_signs"
   ],
   "note": ""
  },
  {
   "property": "C09",
   "status": "proved",
   "theorems": [
    "BN.C09_add_exact",
    "BN.C09_add_same_sign"
   ],
   "note": ""
  },
  {
   "property": "C10",
   "status": "proved",
   "theorems": [
    "BN.C10_add_ub_iff",
    "BN.C10_add_ub",
    "BN.C10_any_environment"
   ],
   "note": ""
  },
  {
   "property": "C11",
   "status": "proved",
   "theorems": [
    "BN.C11_add",
    "BN.C11_sub",
    "BN.C11_mul",
    "BN.C11_div"
   ],
   "note": ""
  },
  {
   "property": "C12",
   "status": "proved",
   "theorems": [
    "BN.C12_add_is_copy_then_assign",
    "BN.C12_add_exact",
    "BN.C12_add_comm",
    "BN.C12_add_comm_same_sign",
    "BN.C12_add_assoc",
    "BN.C12_add_assoc_defined"
   ],
   "note": ""
  },
  {
   "property": "C13",
   "status": "proved",
   "theorems": [
    "BN.C13_self_add_doubles",
    "BN.C13_self_add_eq_copy_add"
   ],
   "note": ""
  },
  {
   "property": "C14",
   "status": "proved",
   "theorems": [
    "BN.C14_accumulate",
    "BN.C14_accumulate_same_sign"
   ],
   "note": ""
  },
  {
   "property": "C15",
   "status": "proved",
   "theorems": [
    "BN.C15_sub_same_sign_exact",
    "BN.C15_sub_same_sign_ub_iff"
   ],
   "note": ""
  },
  {
   "property": "C16",
   "status": "partial",
   "theorems": [
    "BN.C16_refuted",
    "BN.C16_sub_opposite_partial"
   ],
   "note": "Refuted by the code (C16_refuted: 5 - (-3) = 2). C16_sub_opposite_partial states when it is right; C17 gives the exact result."
  },
  {
   "property": "C17",
   "status": "proved",
   "theorems": [
    "BN.C17_sub_opposite_sign",
    "BN.C17_sub_opposite_exact_iff"
   ],
   "note": ""
  },
  {
   "property": "C18",
   "status": "proved",
   "theorems": [
    "BN.C18_self_sub"
   ],
   "note": ""
  },
  {
   "property": "C19",
   "status": "proved",
   "theorems": [
    "BN.C19_add_sub_cancel"
   ],
   "note": ""
  },
  {
   "property": "C20",
   "status": "proved",
   "theorems": [
    "BN.C20_absSub_contract"
   ],
   "note": ""
  },
  {
   "property": "C21",
   "status": "proved",
   "theorems": [
    "BN.C21_absAdd_contract"
   ],
   "note": ""
  },
  {
   "property": "C22",
   "status": "proved",
   "theorems": [
    "BN.C22_convolution",
    "BN.C22_columns_are_product",
    "BN.C22_exact_product"
   ],
   "note": ""
  },
  {
   "property": "C23",
   "status": "proved",
   "theorems": [
    "BN.C23_exact_if_near"
   ],
   "note": ""
  },
  {
   "property": "C24",
   "status": "proved",
   "theorems": [
    "BN.C24_exact_general",
    "BN.C24_base10",
    "BN.C24_base16",
    "BN.C24_base8",
    "BN.C24_base2"
   ],
   "note": ""
  },
  {
   "property": "C25",
   "status": "partial",
   "theorems": [
    "BN.C25_lowp_ub",
    "BN.C25_medp_ub",
    "BN.C25_highp_even",
    "BN.C25_highp_odd_wrong",
    "BN.C25_highp_silent",
    "BN.C25_highp_ub",
    "BN.C25_refuted",
    "BN.C25_lowp_partial",
    "BN.C25_medp_partial",
    "BN.C25_highp_partial",
    "BN.C25_highp_single_partial",
    "BN.C25_lowp_lengths_partial",
    "BN.C25_medp_lengths_partial",
    "BN.C25_highp_lengths"
   ],
   "note": "Refuted by the code for all three native digit types (C25_refuted; C25_highp_odd_wrong: with 32-bit digits no odd product of two digits of 2^54 or more is ever right; C25_highp_silent: up to 2^63 such a product always returns, with an error of at most 2^54, so nothing warns the caller; both where every result is a double, Ieee.NoExcess). C25_highp_ub: some products convert a number out of range, excess precision or not. The _partial theorems state when products of native digits are exact; for 8- and 16-bit digits C68 is the exact criterion. C25_lowp_lengths_partial, C25_medp_lengths_partial: all products of p by q digits are right exactly when one factor has at most one digit; C25_highp_lengths: with 32-bit digits not even those of one by one digit. All are about operations satisfying the stated IEEE-754 laws (Ieee)."
  },
  {
   "property": "C26",
   "status": "partial",
   "theorems": [
    "BN.C26_zero_times_zero_diverges",
    "BN.C26_refuted",
    "BN.C26_terminates_partial"
   ],
   "note": "Refuted by the code (C26_refuted, C26_zero_times_zero_diverges: endless recursion). C26_terminates_partial: terminates whenever one operand has a digit."
  },
  {
   "property": "C27",
   "status": "proved",
   "theorems": [
    "BN.C27_nextPow2",
    "BN.C27_nextPow2_zero",
    "BN.C27_nextPow2_above",
    "BN.C27_nextPow2_any",
    "BN.C27_nextPow2_wraps",
    "BN.C27_isPow2",
    "BN.C27_table_length"
   ],
   "note": ""
  },
  {
   "property": "C28",
   "status": "proved",
   "theorems": [
    "BN.C28_naive_exact",
    "BN.C28_presets"
   ],
   "note": ""
  },
  {
   "property": "C29",
   "status": "partial",
   "theorems": [
    "BN.C29_native_columns",
    "BN.C29_ub_iff",
    "BN.C29_refuted",
    "BN.C29_native_partial",
    "BN.C29_right_iff"
   ],
   "note": "Refuted by the code for all three native digit types (C29_refuted). C29_native_columns gives the exact digits returned (columns modulo the base, carries lost), C29_ub_iff when 16-bit digits are undefined behaviour, C29_native_partial when the product is right, C29_right_iff that it is right in no other case."
  },
  {
   "property": "C30",
   "status": "proved",
   "theorems": [
    "BN.C30_sign"
   ],
   "note": ""
  },
  {
   "property": "C31",
   "status": "proved",
   "theorems": [
    "BN.C31_div_exact",
    "BN.C31_div_mod",
    "BN.C31_div_operator"
   ],
   "note": ""
  },
  {
   "property": "C32",
   "status": "partial",
   "theorems": [
    "BN.C32_self_division_is_zero",
    "BN.C32_refuted",
    "BN.C32_self_division_partial"
   ],
   "note": "Refuted by the code (C32_refuted: 7 / 7 = 0; C32_self_division_is_zero for every magnitude above 1). C32_self_division_partial: +-1."
  },
  {
   "property": "C33",
   "status": "partial",
   "theorems": [
    "BN.C33_div_by_digit_zero",
    "BN.C33_div_by_empty_never_returns",
    "BN.C33_div_by_empty_diverges",
    "BN.C33_div_by_empty_native",
    "BN.C33_refuted",
    "BN.C33_div_by_zero_partial"
   ],
   "note": "Refuted by the code for the zero without digits (C33_refuted, C33_div_by_empty_diverges). C33_div_by_zero_partial: the one-digit zero gives infinity."
  },
  {
   "property": "C34",
   "status": "partial",
   "theorems": [
    "BN.C34_native_division_ub",
    "BN.C34_refuted",
    "BN.C34_native_partial"
   ],
   "note": "Refuted by the code (C34_refuted: 6 / 2 is undefined behaviour for the default type; C34_native_division_ub in general). C34_native_partial is what holds."
  },
  {
   "property": "C35",
   "status": "proved",
   "theorems": [
    "BN.C35_div_by_one",
    "BN.C35_div_of_zero",
    "BN.C35_div_of_smaller"
   ],
   "note": ""
  },
  {
   "property": "C36",
   "status": "proved",
   "theorems": [
    "BN.C36_predicates",
    "BN.C36_predicates_separate"
   ],
   "note": ""
  },
  {
   "property": "C37",
   "status": "proved",
   "theorems": [
    "BN.C37_setDescriptor",
    "BN.C37_setDescriptor_cases"
   ],
   "note": ""
  },
  {
   "property": "C38",
   "status": "partial",
   "theorems": [
    "BN.C38_refuted",
    "BN.C38_left_special_partial"
   ],
   "note": "Refuted by the code (C38_refuted: infinity + 5 is the finite 0). C38_left_special_partial: with a NaN or infinite left operand the result is finite exactly when the right operand is; C39 states what happens otherwise."
  },
  {
   "property": "C39",
   "status": "proved",
   "theorems": [
    "BN.C39_left_special",
    "BN.C39_left_special_self",
    "BN.C39_add_right_special",
    "BN.C39_sub_right_special",
    "BN.C39_mul_right_special",
    "BN.C39_div_right_special"
   ],
   "note": ""
  },
  {
   "property": "C40",
   "status": "proved",
   "theorems": [
    "BN.C40_throw_leaves_infinity",
    "BN.C40_throw_leaves_infinity_self",
    "BN.C40_no_throw",
    "BN.C40_add",
    "BN.C40_sub",
    "BN.C40_div",
    "BN.C40_mul"
   ],
   "note": ""
  },
  {
   "property": "C41",
   "status": "proved",
   "theorems": [
    "BN.C41_subscript_read",
    "BN.C41_subscript_write",
    "BN.C41_subscript_value"
   ],
   "note": ""
  },
  {
   "property": "C42",
   "status": "proved",
   "theorems": [
    "BN.C42_push_values",
    "BN.C42_pop_undoes_push",
    "BN.C42_pop_empty_ub"
   ],
   "note": ""
  },
  {
   "property": "C43",
   "status": "partial",
   "theorems": [
    "BN.C43_refuted",
    "BN.C43_doc_partial"
   ],
   "note": "Refuted: push_front/push_back act at the opposite ends to their documentation (C43_refuted); C43_doc_partial: the documentation is right for objects with no digits."
  },
  {
   "property": "C44",
   "status": "proved",
   "theorems": [
    "BN.C44_resize",
    "BN.C44_fill"
   ],
   "note": ""
  },
  {
   "property": "C45",
   "status": "proved",
   "theorems": [
    "BN.C45_construct",
    "BN.C45_construct_eq",
    "BN.C45_construct_eq_value"
   ],
   "note": ""
  },
  {
   "property": "C46",
   "status": "proved",
   "theorems": [
    "BN.C46_copy",
    "BN.C46_copy_fail",
    "BN.C46_move",
    "BN.C46_clear"
   ],
   "note": ""
  },
  {
   "property": "C47",
   "status": "proved",
   "theorems": [
    "BN.C47_numeral",
    "BN.C47_decimal",
    "BN.C47_octal",
    "BN.C47_text_determines_value",
    "BN.C47_special_text_distinct"
   ],
   "note": ""
  },
  {
   "property": "C48",
   "status": "partial",
   "theorems": [
    "BN.C48_wide_iff",
    "BN.C48_bytes_iff",
    "BN.C48_refuted_base16",
    "BN.C48_refuted_native",
    "BN.C48_refuted_lowp",
    "BN.C48_small_base_partial",
    "BN.C48_bytes_partial"
   ],
   "note": "Refuted by the code (C48_refuted_base16, C48_refuted_native, C48_refuted_lowp). C48_small_base_partial: unambiguous for bases up to 10; C48_bytes_partial: unambiguous for 8-bit digits and bases up to 45. C48_wide_iff, C48_bytes_iff: exactly these bases."
  },
  {
   "property": "C49",
   "status": "proved",
   "theorems": [
    "BN.C49_add",
    "BN.C49_sub",
    "BN.C49_mul",
    "BN.C49_bitwise",
    "BN.C49_unary",
    "BN.C49_compound"
   ],
   "note": ""
  },
  {
   "property": "C50",
   "status": "proved",
   "theorems": [
    "BN.C50_div_mod",
    "BN.C50_mul_ub_iff",
    "BN.C50_shr",
    "BN.C50_shl"
   ],
   "note": ""
  },
  {
   "property": "C51",
   "status": "proved",
   "theorems": [
    "BN.C51_comparisons"
   ],
   "note": ""
  },
  {
   "property": "C52",
   "status": "proved",
   "theorems": [
    "BN.C52_inc_dec",
    "BN.C52_inc_dec_cancel"
   ],
   "note": ""
  },
  {
   "property": "C53",
   "status": "proved",
   "theorems": [
    "BN.C53_instances",
    "BN.C53_limits",
    "BN.C53_presets_supported"
   ],
   "note": ""
  },
  {
   "property": "C54",
   "status": "proved",
   "theorems": [
    "BN.C54_assert_true",
    "BN.C54_assert_false"
   ],
   "note": ""
  },
  {
   "property": "C55",
   "status": "proved",
   "theorems": [
    "BN.C55_digits_in_range",
    "BN.C55_from_start"
   ],
   "note": ""
  },
  {
   "property": "C56",
   "status": "partial",
   "theorems": [
    "BN.C56_debug_throws_iff",
    "BN.C56_refuted",
    "BN.C56_debug_partial"
   ],
   "note": "Refuted by the code (C56_refuted: 21 - 19 throws in debug builds). C56_debug_throws_iff is the exact condition, C56_debug_partial what holds."
  },
  {
   "property": "C57",
   "status": "proved",
   "theorems": [
    "BN.C57_debug_release_agree"
   ],
   "note": ""
  },
  {
   "property": "C58",
   "status": "proved",
   "theorems": [
    "BN.C58_add_terminates",
    "BN.C58_sub_terminates",
    "BN.C58_div_terminates",
    "BN.C58_budget_irrelevant",
    "BN.C58_one_outcome"
   ],
   "note": ""
  },
  {
   "property": "C59",
   "status": "proved",
   "theorems": [
    "BN.C59_well_formed"
   ],
   "note": ""
  },
  {
   "property": "C60",
   "status": "partial",
   "theorems": [
    "BN.C60_refuted",
    "BN.C60_copy_assign_partial",
    "BN.C60_binary_throw_keeps"
   ],
   "note": "Refuted by the code: the descriptor is assigned before the digits, so a failed copy leaves the old digits under the new sign (C60_refuted). C60_copy_assign_partial: all-or-nothing when the descriptors agree, and the exact state otherwise; C60_binary_throw_keeps: x = a op b leaves x alone when it throws."
  },
  {
   "property": "C61",
   "status": "partial",
   "theorems": [
    "BN.C61_roundtrip_ascii",
    "BN.C61_roundtrip_partial",
    "BN.C61_any_allocator_partial",
    "BN.C61_refuted",
    "BN.C61_refuted_empty"
   ],
   "note": "Refuted by the code: C61_refuted (the UTF-8 text C3 A9 comes back as C3 A8 FF), C61_refuted_empty. C61_roundtrip_ascii gives the exact output for every ASCII text below 2^25 characters, C61_roundtrip_partial the part of the claim that holds (non-empty, not ending in NUL); C61_any_allocator_partial: with any allocator such a text or an exception; products under the Ieee laws."
  },
  {
   "property": "C62",
   "status": "partial",
   "theorems": [
    "BN.C62_padding_keeps_value",
    "BN.C62_eq_padded",
    "BN.C62_order_padded",
    "BN.C62_sub_padded",
    "BN.C62_div_padded",
    "BN.C62_refuted",
    "BN.C62_add_partial",
    "BN.C62_mul_partial"
   ],
   "note": "Refuted by the code (C62_refuted: 05 > 7, 05 - 7 = 98, 05 / 2 = 52). C62_eq_padded, C62_order_padded, C62_sub_padded, C62_div_padded are the exact results with one leading zero; C62_add_partial and C62_mul_partial are what holds."
  },
  {
   "property": "C63",
   "status": "partial",
   "theorems": [
    "BN.C63_iff",
    "BN.C63_arithmetic_test_partial",
    "BN.C63_unit",
    "BN.C63_refuted"
   ],
   "note": "Refuted by the code (C63_refuted: a = 1, b = 3 ends with a = 0, because 3 / 3 = 0; C63_unit for a = 1 and every b > 1). C63_arithmetic_test_partial: unchanged for every other a, b (up to 2^24 digits in the product). C63_iff: both together."
  },
  {
   "property": "C64",
   "status": "proved",
   "theorems": [
    "BN.C64_programs",
    "BN.C64_base10",
    "BN.C64_base16",
    "BN.C64_base8",
    "BN.C64_base2"
   ],
   "note": ""
  },
  {
   "property": "C65",
   "status": "partial",
   "theorems": [
    "BN.C65_refuted",
    "BN.C65_integer_test_partial"
   ],
   "note": "Refuted by the code (C65_refuted: operand 0 divides by zero). C65_integer_test_partial: the program is free of undefined behaviour exactly when both operands are in 1..31, and then prints the stated results."
  },
  {
   "property": "C66",
   "status": "partial",
   "theorems": [
    "BN.C66_read_back_partial",
    "BN.C66_read_back_byte_partial",
    "BN.C66_refuted",
    "BN.C66_adjacent",
    "BN.C66_numerals",
    "BN.C66_no_numeral"
   ],
   "note": "Refuted by the code for 8-bit types (C66_refuted: the byte 32 is skipped as white space). C66_read_back_partial: wider types; C66_read_back_byte_partial: bytes that are not white space; C66_adjacent: two numbers written without a separator do not read back."
  },
  {
   "property": "C67",
   "status": "proved",
   "theorems": [
    "BN.C67_base2_ub",
    "BN.C67_base8_ub",
    "BN.C67_base2",
    "BN.C67_base8"
   ],
   "note": ""
  },
  {
   "property": "C68",
   "status": "proved",
   "theorems": [
    "BN.C68_general",
    "BN.C68_lowp",
    "BN.C68_medp",
    "BN.C68_base2",
    "BN.C68_base8",
    "BN.C68_base256",
    "BN.C68_returned_is_right"
   ],
   "note": ""
  },
  {
   "property": "C69",
   "status": "proved",
   "theorems": [
    "BN.C69_div_rounds"
   ],
   "note": ""
  },
  {
   "property": "C70",
   "status": "proved",
   "theorems": [
    "BN.C70_debug_or_throw",
    "BN.C70_never_differ",
    "BN.C70_sub_throws_iff",
    "BN.C70_add_throws_iff",
    "BN.C70_self",
    "BN.C70_div_differs"
   ],
   "note": ""
  },
  {
   "property": "C71",
   "status": "proved",
   "theorems": [
    "BN.C71_debug_run_predicts_release"
   ],
   "note": ""
  },
  {
   "property": "C72",
   "status": "proved",
   "theorems": [
    "BN.C72_mul_comm",
    "BN.C72_mul_assoc",
    "BN.C72_mul_one",
    "BN.C72_mul_zero",
    "BN.C72_mul_empty",
    "BN.C72_distrib"
   ],
   "note": ""
  },
  {
   "property": "C73",
   "status": "partial",
   "theorems": [
    "BN.C73_remainder_partial",
    "BN.C73_equal",
    "BN.C73_refuted",
    "BN.C73_empty_ub"
   ],
   "note": "Refuted by the code (C73_refuted: 7 - (7/7)*7 = 7; C73_equal for all equal magnitudes above 1). C73_remainder_partial: all other operands; C73_empty_ub: a zero dividend without digits is read out of bounds. Products under the Ieee laws."
  },
  {
   "property": "C74",
   "status": "partial",
   "theorems": [
    "BN.C74_gcd_partial",
    "BN.C74_equal_diverges",
    "BN.C74_refuted",
    "BN.C74_empty_ub"
   ],
   "note": "Refuted by the code (C74_refuted: the loop never ends for 6 and 6; C74_equal_diverges for all equal numbers above 1). C74_gcd_partial: the greatest common divisor for all other pairs with digits; C74_empty_ub: out of bounds for a first number without digits. Products under the Ieee laws."
  },
  {
   "property": "C75",
   "status": "proved",
   "theorems": [
    "BN.C75_fft_is_dft",
    "BN.C75_ifft_is_inverse_dft",
    "BN.C75_round_trip",
    "BN.C75_convolute"
   ],
   "note": "Over the reals (exactOps), with DFT defined as the textbook sum; C77 is the double-precision version."
  },
  {
   "property": "C76",
   "status": "partial",
   "theorems": [
    "BN.C76_any_length_partial",
    "BN.C76_empty_diverges",
    "BN.C76_odd_last_ignored",
    "BN.C76_refuted",
    "BN.C76_right_iff"
   ],
   "note": "Refuted by the code (C76_refuted: for every odd length above 1 some list is not transformed; C76_empty_diverges: endless recursion on the empty list; C76_odd_last_ignored: the last of an odd number of cells is never used). C76_any_length_partial: terminates in bounds for every non-empty list, right for powers of two. C76_right_iff: a length is transformed right for all lists exactly if it is a power of two."
  },
  {
   "property": "C77",
   "status": "proved",
   "theorems": [
    "BN.C77_fft_error",
    "BN.C77_round_trip_error"
   ],
   "note": "About operations satisfying the stated IEEE-754 laws (Ieee)."
  },
  {
   "property": "C78",
   "status": "proved",
   "theorems": [
    "BN.C78_read",
    "BN.C78_print_then_read",
    "BN.C78_read_then_print",
    "BN.C78_canonical_text"
   ],
   "note": "The reader is a model of client code (no operator>> exists); allocations succeed."
  },
  {
   "property": "C79",
   "status": "proved",
   "theorems": [
    "BN.C79_horner",
    "BN.C79_zero_differs"
   ],
   "note": "Products under the Ieee laws; C79_zero_differs: for the text 0 the loop leaves a zero digit and the constructor none."
  },
  {
   "property": "C80",
   "status": "partial",
   "theorems": [
    "BN.C80_product_quotient_partial",
    "BN.C80_unit_factor_lost",
    "BN.C80_refuted"
   ],
   "note": "Refuted by the code (C80_refuted: (1*7)/7 = 0; C80_unit_factor_lost for all factors of magnitude one). C80_product_quotient_partial: all other operands; products under the Ieee laws."
  },
  {
   "property": "C81",
   "status": "proved",
   "theorems": [
    "BN.C81_power",
    "BN.C81_zero_power_diverges"
   ],
   "note": "Products under the Ieee laws."
  },
  {
   "property": "C82",
   "status": "proved",
   "theorems": [
    "BN.C82_sign_of_difference"
   ],
   "note": "Release builds; allocations succeed."
  },
  {
   "property": "C83",
   "status": "partial",
   "theorems": [
    "BN.C83_half_partial",
    "BN.C83_program",
    "BN.C83_refuted"
   ],
   "note": "Refuted by the code (C83_refuted: all four differences printed for each base are wrong; C83_program gives all values of the program). C83_half_partial: everything but the differences for all opposite-sign operands, and the exact wrong value of the differences."
  },
  {
   "property": "C84",
   "status": "proved",
   "theorems": [
    "BN.C84_product",
    "BN.C84_order_irrelevant"
   ],
   "note": "Products under the Ieee laws; allocations succeed."
  },
  {
   "property": "C85",
   "status": "proved",
   "theorems": [
    "BN.C85_fibonacci"
   ],
   "note": "Allocations succeed."
  },
  {
   "property": "C86",
   "status": "partial",
   "theorems": [
    "BN.C86_step_one_partial",
    "BN.C86_terminates",
    "BN.C86_refuted",
    "BN.C86_with_ge"
   ],
   "note": "Refuted by the code (C86_refuted: counting to 29 in tens ends at 100). C86_step_one_partial: right for step 1; C86_terminates: the loop always ends and never too early; C86_with_ge: with !(i >= bound) the claim holds for all steps."
  },
  {
   "property": "C87",
   "status": "partial",
   "theorems": [
    "BN.C87_max_iff",
    "BN.C87_max_refuted",
    "BN.C87_max_partial",
    "BN.C87_max_ge"
   ],
   "note": "Refuted by the code (C87_max_refuted: max(21, 19) = 19). C87_max_partial: right when the second argument is not the smaller one, or the lengths differ or are at most one; C87_max_ge: (a >= b) ? a : b is always right. C87_max_iff: exactly when std::max is right."
  },
  {
   "property": "C88",
   "status": "partial",
   "theorems": [
    "BN.C88_sort_le",
    "BN.C88_sort_lt_refuted",
    "BN.C88_sort_lt_partial"
   ],
   "note": "Refuted for < (C88_sort_lt_refuted: 21, 19 is left unsorted). C88_sort_le: with <= the claim holds for all lists; C88_sort_lt_partial: with < for lists in which different numbers have different lengths or one digit."
  },
  {
   "property": "C89",
   "status": "partial",
   "theorems": [
    "BN.C89_sqrt_partial",
    "BN.C89_zero",
    "BN.C89_one_two",
    "BN.C89_refuted"
   ],
   "note": "Refuted by the code for 1 and 2 (C89_refuted: both give 0 because 2/2 = 0). C89_sqrt_partial: all m >= 3, every custom base; C89_zero: zero; C89_one_two: 1 and 2 give 0 for every supported digit type, so exactly these two are wrong."
  },
  {
   "property": "C90",
   "status": "partial",
   "theorems": [
    "BN.C90_value",
    "BN.C90_convert_partial",
    "BN.C90_refuted"
   ],
   "note": "Refuted by the code whenever the numeral of x to base d begins with the digits 1, 0 (C90_refuted). C90_convert_partial: all other x; C90_value: the loop always ends and the digits always represent x. Products under the Ieee laws."
  },
  {
   "property": "C91",
   "status": "proved",
   "theorems": [
    "BN.C91_negate",
    "BN.C91_add_sub",
    "BN.C91_mul_div",
    "BN.C91_subtract_by_negation"
   ],
   "note": "Allocations succeed and release builds for C91_subtract_by_negation only."
  },
  {
   "property": "C92",
   "status": "partial",
   "theorems": [
    "BN.C92_nested_division_partial",
    "BN.C92_refuted"
   ],
   "note": "Refuted by the code (C92_refuted: 7 / 2 / 3 = 0 but 7 / 6 = 1). C92_nested_division_partial: both sides always return, and they agree exactly when not |a| / |b| = |c| >= 2 with |a| different from |b c|. Products under the Ieee laws."
  },
  {
   "property": "C93",
   "status": "partial",
   "theorems": [
    "BN.C93_mul_base",
    "BN.C93_div_base_partial",
    "BN.C93_rem_base_partial",
    "BN.C93_refuted"
   ],
   "note": "Refuted by the code (C93_refuted: 10 / 10 = 0 but pop_front() leaves 1). C93_mul_base: the product in full; C93_div_base_partial, C93_rem_base_partial: all numbers other than the base itself. Products under the Ieee laws."
  },
  {
   "property": "C94",
   "status": "proved",
   "theorems": [
    "BN.C94_factorial"
   ],
   "note": "Products under the Ieee laws; allocations succeed."
  },
  {
   "property": "C95",
   "status": "proved",
   "theorems": [
    "BN.C95_prime"
   ],
   "note": "Products under the Ieee laws; release builds; allocations succeed."
  },
  {
   "property": "C96",
   "status": "partial",
   "theorems": [
    "BN.C96_powMod_partial",
    "BN.C96_divisible",
    "BN.C96_multiple",
    "BN.C96_refuted"
   ],
   "note": "Refuted by the code when the modulus divides the power (C96_refuted: 2^3 mod 8 is returned as 8). C96_powMod_partial: exact whenever m does not divide x^e, all exponents. C96_divisible: otherwise 0, m, an out-of-bounds read or no return; C96_multiple: which of the last two happens when m divides x. Products under the Ieee laws; release builds."
  },
  {
   "property": "C97",
   "status": "proved",
   "theorems": [
    "BN.C97_state",
    "BN.C97_numeral",
    "BN.C97_hex",
    "BN.C97_text_determines_value"
   ],
   "note": "Formatting of one integer or string by the standard library (num_put without a locale) is modelled in Model/Format. Digits of an 8-bit type are written as raw characters, see C48."
  },
  {
   "property": "C98",
   "status": "partial",
   "theorems": [
    "BN.C98_only_first_piece",
    "BN.C98_width_partial",
    "BN.C98_length",
    "BN.C98_refuted"
   ],
   "note": "Refuted by the code: the width is used up by the first piece written, so setw(5) << 12 gives six characters (C98_refuted). C98_only_first_piece and C98_length give the exact text and its length for every number; C98_width_partial: numbers of at most one digit, NAN and infinities are padded as asked for."
  },
  {
   "property": "C99",
   "status": "partial",
   "theorems": [
    "BN.C99_prefixes",
    "BN.C99_showbase_partial",
    "BN.C99_refuted",
    "BN.C99_every_format"
   ],
   "note": "Refuted by the code: the prefix is written before every digit, 0x12 prints as 0x10x2 (C99_refuted). C99_prefixes gives the exact text for every number; C99_showbase_partial: single-digit numbers."
  },
  {
   "property": "C100",
   "status": "partial",
   "theorems": [
    "BN.C100_compound",
    "BN.C100_binary",
    "BN.C100_containers",
    "BN.C100_comparisons",
    "BN.C100_std_partial",
    "BN.C100_subscript",
    "BN.C100_refuted"
   ],
   "note": "Refuted by the code for operator[], which throws an enumerator (C100_refuted, exact condition in C100_subscript). Everything else: C100_std_partial with the exact types in C100_compound, C100_binary, C100_containers, C100_comparisons."
  },
  {
   "property": "C101",
   "status": "proved",
   "theorems": [
    "BN.C101_div_throws_iff",
    "BN.C101_quiet_cases"
   ],
   "note": "Allocations succeed."
  },
  {
   "property": "C102",
   "status": "partial",
   "theorems": [
    "BN.C102_special_rank",
    "BN.C102_minus_infinity_partial",
    "BN.C102_special_eq",
    "BN.C102_refuted"
   ],
   "note": "Refuted by the code (C102_refuted: plus infinity < 5, NaN == NaN, NaN <= 5, minus infinity >= plus infinity). C102_special_rank and C102_special_eq give the exact answer of every operator; C102_minus_infinity_partial is what holds."
  },
  {
   "property": "C103",
   "status": "partial",
   "theorems": [
    "BN.C103_lcm_product_partial",
    "BN.C103_lcm_quotient",
    "BN.C103_refuted"
   ],
   "note": "Refuted by the code (C103_refuted: a / g * b gives 0 for 2 and 4; equal numbers never return). C103_lcm_product_partial: a * b / g is right for all different numbers; C103_lcm_quotient: the exact value of a / g * b. Products under the Ieee laws; release builds."
  },
  {
   "property": "C104",
   "status": "partial",
   "theorems": [
    "BN.C104_bisect_partial",
    "BN.C104_sqrt",
    "BN.C104_zero_diverges",
    "BN.C104_refuted",
    "BN.C104_zero_iff",
    "BN.C104_zero_monotone",
    "BN.C104_sqrt_zero"
   ],
   "note": "Refuted by the code for lower end 0 (C104_refuted, C104_zero_diverges: (0 + 2) / 2 is 0). C104_bisect_partial: all intervals above zero, arbitrary tests; C104_sqrt: the square root of every positive number. C104_zero_iff: with lower end 0 it never ends exactly if the halvings of the upper end reach two and all answer no, and is right otherwise; C104_zero_monotone: for monotone tests exactly if the upper end begins with 10 in binary and two answers no; C104_sqrt_zero: the square root from 0 hangs for 1 and 3 only. Products under the Ieee laws; release builds."
  },
  {
   "property": "C105",
   "status": "proved",
   "theorems": [
    "BN.C105_size",
    "BN.C105_monotone",
    "BN.C105_sum",
    "BN.C105_difference",
    "BN.C105_product",
    "BN.C105_quotient"
   ],
   "note": "Products under the Ieee laws; differences and quotients in release builds; allocations succeed."
  },
  {
   "property": "C106",
   "status": "proved",
   "theorems": [
    "BN.C106_more_memory",
    "BN.C106_results_persist",
    "BN.C106_add_storage",
    "BN.C106_sub_storage",
    "BN.C106_mul_storage",
    "BN.C106_div_storage",
    "BN.C106_add_throws_iff",
    "BN.C106_empty_divisor"
   ],
   "note": "The allocator answers by size only (a predicate of the number of elements)."
  },
  {
   "property": "C107",
   "status": "proved",
   "theorems": [
    "BN.C107_more_memory_same_objects",
    "BN.C107_failures_matter"
   ],
   "note": "C107_failures_matter shows that the hypothesis cannot be dropped."
  },
  {
   "property": "C108",
   "status": "proved",
   "theorems": [
    "BN.C108_products_agree",
    "BN.C108_programs_agree"
   ],
   "note": "The platform enters through the Ieee laws; both platforms may differ in everything else."
  },
  {
   "property": "C109",
   "status": "proved",
   "theorems": [
    "BN.C109_any_environment",
    "BN.C109_results_agree",
    "BN.C109_no_return"
   ],
   "note": "The allocator answers by size only (a predicate of the number of elements)."
  },
  {
   "property": "C110",
   "status": "proved",
   "theorems": [
    "BN.C110_same_objects",
    "BN.C110_programs"
   ],
   "note": "Composition of C64, C71 and C107: the hypothesis that no statement throws is the only one on the environments."
  },
  {
   "property": "C111",
   "status": "proved",
   "theorems": [
    "BN.C111_one_answer_per_size",
    "BN.C111_any_moment",
    "BN.C111_outcomes",
    "BN.C111_storage"
   ],
   "note": "Model/Moments gives every request of an operator surroundings of its own, including the temporaries of the Fourier transform; C111_one_answer_per_size ties it to the operators of the rest of the model."
  },
  {
   "property": "C112",
   "status": "proved",
   "theorems": [
    "BN.C112_same_objects",
    "BN.C112_programs"
   ],
   "note": "As C110, over Model/Moments."
  },
  {
   "property": "C113",
   "status": "proved",
   "theorems": [
    "BN.C113_rounding",
    "BN.C113_overflow",
    "BN.C113_invalid",
    "BN.C113_infinite",
    "BN.C113_laws",
    "BN.C113_accurate_library",
    "BN.C113_products",
    "BN.C113_programs",
    "BN.C113_transform",
    "BN.C113_default_wrong"
   ],
   "note": "Model/Binary64 defines the format, its arithmetic with infinities, NaN, signed zeros and subnormal numbers; C113_rounding and C113_overflow characterise its rounding independently, C113_invalid and C113_infinite do so for NaN and infinities, C113_laws derives the Ieee laws that the other theorems about products assume, C113_accurate_library shows that accurate libraries exist."
  },
  {
   "property": "C114",
   "status": "proved",
   "theorems": [
    "BN.C114_same_results",
    "BN.C114_compare",
    "BN.C114_assign",
    "BN.C114_binary",
    "BN.C114_sum_exact"
   ],
   "note": "Model/Cost repeats the operators with a count of loop passes, copied and appended elements; C114_same_results ties it to the operators of the rest of the model."
  },
  {
   "property": "C115",
   "status": "proved",
   "theorems": [
    "BN.C115_product",
    "BN.C115_quasilinear"
   ],
   "note": "As C114. Growing a vector counts as one step per element (amortised constant time)."
  },
  {
   "property": "C116",
   "status": "proved",
   "theorems": [
    "BN.C116_subtractions",
    "BN.C116_doublings",
    "BN.C116_at_most_cubic",
    "BN.C116_at_least",
    "BN.C116_cubic",
    "BN.C116_cubic_for_every_length"
   ],
   "note": "As C114. C116_subtractions and C116_doublings are exact counts, C116_at_most_cubic and C116_at_least bound the steps, C116_cubic is the worst case."
  },
  {
   "property": "C117",
   "status": "proved",
   "theorems": [
    "BN.C117_first_too_long",
    "BN.C117_second_too_long",
    "BN.C117_wrapped_index",
    "BN.C117_lengths"
   ],
   "note": "The loop counters of mul_naive are modelled as 32-bit unsigned. C117_lengths is the exact criterion; C117_first_too_long and C117_second_too_long hold for every digit type, build and allocator."
  },
  {
   "property": "C118",
   "status": "proved",
   "theorems": [
    "BN.C118_as_if_alone",
    "BN.C118_same_end",
    "BN.C118_sequential",
    "BN.C118_race"
   ],
   "note": "C118_as_if_alone (threads with branches), C118_same_end, C118_sequential (lists of statements, tied to the sequential programs of C59 and C64); C118_race shows that the condition is needed. Statements are not atomic: they read their operands when they begin and write when they end. The allocator answers of a statement belong to the statement."
  },
  {
   "property": "C119",
   "status": "proved",
   "theorems": [
    "BN.C119_add",
    "BN.C119_repair",
    "BN.C119_beyond"
   ],
   "note": "C119_add is the exact criterion, C119_repair the use of += 0, C119_beyond shows what happens otherwise and that -= and < fail as well."
  },
  {
   "property": "C120",
   "status": "proved",
   "theorems": [
    "BN.C120_swap",
    "BN.C120_permutation",
    "BN.C120_nothing_lost",
    "BN.C120_reverse",
    "BN.C120_rotate",
    "BN.C120_self_move",
    "BN.C120_move_or_copy"
   ],
   "note": "C120_swap is the exchange, C120_permutation and C120_nothing_lost any sequence, C120_reverse and C120_rotate (three reversals) the algorithms; C120_self_move shows that moving a number into itself is not harmless."
  },
  {
   "property": "C121",
   "status": "proved",
   "theorems": [
    "BN.C121_criterion",
    "BN.C121_unique",
    "BN.C121_product",
    "BN.C121_sum",
    "BN.C121_difference",
    "BN.C121_quotient",
    "BN.C121_quotient_zero",
    "BN.C121_quotient_one"
   ],
   "note": "C121_criterion gives the list, C121_unique its uniqueness, C121_product, C121_sum, C121_difference, C121_quotient, C121_quotient_zero and C121_quotient_one count it. A vector is taken to ask for memory at every growing push_back (an allocator for which spare capacity is used instead grants the request, see DESIGN.md)."
  },
  {
   "property": "C122",
   "status": "proved",
   "theorems": [
    "BN.C122_base10_ub",
    "BN.C122_base16_ub",
    "BN.C122_base10",
    "BN.C122_base16",
    "BN.C122_lengths10",
    "BN.C122_lengths16"
   ],
   "note": "Lengths between the two bounds are left open: there the worst-case rounding error exceeds one half, so that neither exactness nor a fault follows from the IEEE 754 laws."
  },
  {
   "property": "C123",
   "status": "proved",
   "theorems": [
    "BN.C123_add",
    "BN.C123_sub",
    "BN.C123_mul"
   ],
   "note": "64-bit BNIntType digits are left out of the statement about products: from squares of 2^53 on the limit is that of the double and not of the digit type (see C25)."
  },
  {
   "property": "C124",
   "status": "proved",
   "theorems": [
    "BN.C124_after_failure",
    "BN.C124_received",
    "BN.C124_good_means_complete",
    "BN.C124_returned_means_complete",
    "BN.C124_sequence",
    "BN.C124_room"
   ],
   "note": "The device is an arbitrary predicate on the characters already written and the next one; buffering between stream and device is not modelled."
  },
  {
   "property": "C125",
   "status": "partial",
   "theorems": [
    "BN.C125_strict_weak_iff",
    "BN.C125_set",
    "BN.C125_set_le",
    "BN.C125_set_lt_partial",
    "BN.C125_lost",
    "BN.C125_refuted",
    "BN.C125_binary_search",
    "BN.C125_search_refuted"
   ],
   "note": "Refuted by the code (C125_refuted: after inserting 21 and 19 the key 19 is not found; C125_lost: the same for every pair of keys of equal sign and length neither of which has all digits at most the other's; C125_search_refuted for binary search). C125_strict_weak_iff: < is a strict weak ordering on a set of keys exactly if there is no such pair; C125_set_lt_partial: then std::set is right. C125_set_le, C125_binary_search: with !(b <= a) as the comparison everything is right for all non-negative numbers without leading zeros. The containers are models of client code."
  },
  {
   "property": "C126",
   "status": "proved",
   "theorems": [
    "BN.C126_add",
    "BN.C126_sub",
    "BN.C126_mul_bytes32",
    "BN.C126_mul_bytes64",
    "BN.C126_mul_words64"
   ],
   "note": "All theorems about native digit types (C09, C15, C29, C31, ...) now also cover the pairs 8/32, 8/64 and 16/64. Division of native digits stays undefined behaviour whatever the double type (C34). With D <= W operator* does not compile (narrowing in braces)."
  },
  {
   "property": "C127",
   "status": "proved",
   "theorems": [
    "BN.C127_test_iff",
    "BN.C127_simulates",
    "BN.C127_one_course",
    "BN.C127_follows",
    "BN.C127_ends_iff",
    "BN.C127_forever",
    "BN.C127_straight",
    "BN.C127_any_environment",
    "BN.C127_structured",
    "BN.C127_computes",
    "BN.C127_presets",
    "BN.C127_triangle"
   ],
   "note": "C127_test_iff: exact condition for each comparison operator. C127_simulates, C127_follows, C127_ends_iff, C127_forever: both directions of the simulation for programs with loops; C127_one_course: programs are deterministic; C127_straight ties the semantics to C64; C127_presets: the four preset types under the Ieee laws; C127_structured and C127_computes: the control flow follows the structure of the program; C127_any_environment: debug builds and scarce memory, as long as nothing throws; C127_triangle: an application."
  },
  {
   "property": "C128",
   "status": "proved",
   "theorems": [
    "BN.C128_erase",
    "BN.C128_insert",
    "BN.C128_push",
    "BN.C128_call",
    "BN.C128_history",
    "BN.C128_amortised"
   ],
   "note": "C128_call, C128_history: every call and every history, each request with an answer of its own. C128_push, C128_insert, C128_erase: exact results and exact conditions. C128_amortised: cost with doubling. Order of events of libstdc++."
  },
  {
   "property": "C129",
   "status": "partial",
   "theorems": [
    "BN.C129_push_move",
    "BN.C129_refuted",
    "BN.C129_lost_iff_partial"
   ],
   "note": "Refuted by the code (C129_refuted): the move constructor is not noexcept, so a full vector first takes over the digits of x and then copies its other numbers; if one of these copies fails, the digits of x are destroyed. C129_push_move: all four outcomes. C129_lost_iff_partial: exactly when a number is lost (never with room in the vector)."
  },
  {
   "property": "C130",
   "status": "proved",
   "theorems": [
    "BN.C130_once_rounded",
    "BN.C130_values_differ",
    "BN.C130_products",
    "BN.C130_programs"
   ],
   "note": "C130_products, C130_programs on binary64 with any contraction; C130_values_differ: the intermediate values do change; C130_once_rounded: the fused operation of the model is the one of the standard. All other theorems under the Ieee laws cover fused evaluation as well (laws mulSub_ok, mulAdd_ok)."
  },
  {
   "property": "C131",
   "status": "proved",
   "theorems": [
    "BN.C131_narrow_products",
    "BN.C131_exact"
   ],
   "note": "C131_narrow_products: for every preset type and base 256, without any assumption on the floating-point arithmetic. C131_exact: with the Ieee laws. mulAssignW_64 ties the parametrised product to the one of the model."
  },
  {
   "property": "C132",
   "status": "proved",
   "theorems": [
    "BN.C132_any_locale",
    "BN.C132_state"
   ],
   "note": "C132_any_locale, C132_state. putL_classic: in the classic locale the output is that of C97 to C99."
  },
  {
   "property": "C133",
   "status": "partial",
   "theorems": [
    "BN.C133_iff_partial",
    "BN.C133_refuted",
    "BN.C133_each_digit"
   ],
   "note": "Refuted by the code (C133_refuted: 1234567 prints without separators), since every digit is printed by itself. C133_iff_partial: exactly the numbers whose numeral fits into the first group print as a built-in integer does. C133_each_digit: in bases above 1000 every digit is grouped by itself."
  },
  {
   "property": "C134",
   "status": "proved",
   "theorems": [
    "BN.C134_values_differ",
    "BN.C134_every_choice",
    "BN.C134_products",
    "BN.C134_programs"
   ],
   "note": "C134_every_choice: a choice at every operation, by how its operands were computed (the product that fft_complex writes twice in one line is taken to be computed alike both times; C155 drops this). C134_products, C134_programs: the same object as on binary64. C134_values_differ shows that the results in between do differ. The exponent range is not bounded there. Library sine and cosine within 4 * 2^-53."
  },
  {
   "property": "C135",
   "status": "proved",
   "theorems": [
    "BN.C135_fft_error",
    "BN.C135_round_trip_error",
    "BN.C135_binary32_rounding",
    "BN.C135_binary32_overflow",
    "BN.C135_binary32_invalid",
    "BN.C135_binary32_infinite",
    "BN.C135_binary32_laws",
    "BN.C135_accurate_library",
    "BN.C135_binary32_fft",
    "BN.C135_binary32_round_trip"
   ],
   "note": "For the laws Laws Format.single (SpecFormat.lean). floatLaws proves them for arithmetic typed as in C++ (floatOps: nearest numbers of 24 or 53 bits, angle in double) with a library accurate to 2^-24; exponents unbounded there. laws32 proves them for IEEE binary32 itself (Model/Binary32: subnormal numbers, infinities, NaN, fused operations); C135_binary32_rounding and C135_binary32_overflow characterise its rounding independently, C135_binary32_invalid and C135_binary32_infinite do so for NaN and infinities, C135_binary32_fft and C135_binary32_round_trip are the bounds there."
  },
  {
   "property": "C136",
   "status": "proved",
   "theorems": [
    "BN.C136_decimal",
    "BN.C136_binary",
    "BN.C136_wide",
    "BN.C136_binary32_decimal",
    "BN.C136_binary32_binary",
    "BN.C136_binary32_wide"
   ],
   "note": "C136_decimal, C136_binary for the laws; C136_wide for floatOps with any cosine and sine. C136_binary32_decimal, C136_binary32_binary and C136_binary32_wide on IEEE binary32 (Model/Binary32)."
  },
  {
   "property": "C137",
   "status": "partial",
   "theorems": [
    "BN.C137_fft_error_partial",
    "BN.C137_refuted"
   ],
   "note": "Refuted by the code (C137_refuted, for every library accurate to 2^-64: the transform of 0, 1, 0, 0 is off by 2^-54 or more), since the constant pi is a double literal. C137_fft_error_partial: the bound of the double transform holds. long double is taken to have 64 bits (x87), exponents unbounded."
  },
  {
   "property": "C138",
   "status": "proved",
   "theorems": [
    "BN.C138_every_mode",
    "BN.C138_products",
    "BN.C138_programs"
   ],
   "note": "C138_every_mode: the real numbers with a rounding mode and a way of rounding (53 bits, 64 bits, both) chosen at every operation by how the operands were computed (equal computations are rounded alike; C153 drops this); library sine and cosine within 8 * 2^-53; exponents unbounded (C152 has the bounded ones). C138_products, C138_programs: for every arithmetic with such results (AnyMode; no fused operations), the same object as on binary64."
  },
  {
   "property": "C139",
   "status": "proved",
   "theorems": [
    "BN.C139_product",
    "BN.C139_quotient",
    "BN.C139_gcd"
   ],
   "note": "C139_product (Supported digit types, digits in range), C139_quotient (well-formed operands, divisor not zero, release builds), C139_gcd (positive numbers without leading zeros, release builds). The client loops are slowMul, slowDiv and slowGcd of Props/Workaround.lean."
  },
  {
   "property": "C140",
   "status": "proved",
   "theorems": [
    "BN.C140_all_or_nothing",
    "BN.C140_skipped",
    "BN.C140_retry",
    "BN.C140_retry_ends",
    "BN.C140_programs",
    "BN.C140_compound"
   ],
   "note": "C140_all_or_nothing, C140_skipped, C140_retry, C140_retry_ends, C140_programs for Repeatable statements (all but x op= y, and x = y between different objects, see C60); C140_compound for x op= y with y another object."
  },
  {
   "property": "C141",
   "status": "partial",
   "theorems": [
    "BN.C141_ceil_partial",
    "BN.C141_ceil_one",
    "BN.C141_round_partial",
    "BN.C141_round_half",
    "BN.C141_half_partial",
    "BN.C141_half_two",
    "BN.C141_refuted"
   ],
   "note": "Refuted by the code (C141_refuted), since a / a is 0 for a > 1. C141_ceil_partial: right unless a = 1 < b; C141_round_partial: right unless b = 2a; C141_half_partial: right unless a = 2. C141_ceil_one, C141_round_half, C141_half_two: in these cases the result is 0, for every supported digit type."
  },
  {
   "property": "C142",
   "status": "proved",
   "theorems": [
    "BN.C142_fft_error",
    "BN.C142_round_trip_error"
   ],
   "note": "C142_fft_error, C142_round_trip_error for every arithmetic of AnyMode (exponents unbounded, no fused operations (C152 has both), library sine and cosine within 8 * 2^-53), of which modeOps of Props/Rounding.lean is the one with a mode for every operation."
  },
  {
   "property": "C143",
   "status": "partial",
   "theorems": [
    "BN.C143_same_numbers",
    "BN.C143_in_place_partial",
    "BN.C143_no_memory_partial",
    "BN.C143_moves_partial",
    "BN.C143_histories_partial",
    "BN.C143_reserved_partial",
    "BN.C143_sums_partial",
    "BN.C143_differences_partial",
    "BN.C143_refuted"
   ],
   "note": "Refuted by the code (C143_refuted): sums of opposite signs and differences of the same sign in which the other magnitude is larger, and all differences of opposite signs, go through a copy whose storage replaces that of the number. C143_in_place_partial, C143_histories_partial, C143_reserved_partial, C143_no_memory_partial (exactly when a call without memory goes through), C143_moves_partial (exactly when a call moves the digits), C143_sums_partial, C143_differences_partial: true for all other calls. C143_same_numbers: with enough memory the model with storage (Model/Storage.lean) computes the numbers of the other modules."
  },
  {
   "property": "C144",
   "status": "proved",
   "theorems": [
    "BN.C144_add",
    "BN.C144_sub",
    "BN.C144_div"
   ],
   "note": "C144_add, C144_sub (Supported digit types), C144_div (custom bases); Storable: every digit below the number of values of the digit type, which C++ guarantees. The condition 0 < n says that the loop gets a first round. A quotient by a number without digits may not end. With native digit types every division with a quotient is undefined (C34)."
  },
  {
   "property": "C145",
   "status": "proved",
   "theorems": [
    "BN.C145_general",
    "BN.C145_bytes",
    "BN.C145_one_digit",
    "BN.C145_normalise"
   ],
   "note": "RightModulo o L env w x r: the claim for x *= r with column totals compared with 2^w. C145_general for every supported digit type with an unsigned double type and any bound on the digits that the error bound of the transform allows; C145_bytes, C145_normalise and C145_one_digit are instances. Columns are those of the schoolbook product (columnTotal)."
  },
  {
   "property": "C146",
   "status": "proved",
   "theorems": [
    "BN.C146_coefficient",
    "BN.C146_inverse",
    "BN.C146_textbook_wrong"
   ],
   "note": "C146_coefficient, C146_inverse for Preset types with 2*len(m) digits within the exact lengths of products; C146_textbook_wrong for the signed version (opposite-sign subtraction, C16). Products under the Ieee laws."
  },
  {
   "property": "C147",
   "status": "partial",
   "theorems": [
    "BN.C147_expansion_partial",
    "BN.C147_not_multiple",
    "BN.C147_equal",
    "BN.C147_refuted"
   ],
   "note": "Refuted by the code (C147_refuted: the first decimal digit of 1/10 comes out as 0; C147_equal: 1/c is expanded as the digits 0 and c in every base, because a quotient of equal numbers is 0, C32). C147_expansion_partial: right whenever c times a remainder never equals b; C147_not_multiple: so for every b that is not a multiple of c. Products under the Ieee laws."
  },
  {
   "property": "C148",
   "status": "proved",
   "theorems": [
    "BN.C148_less",
    "BN.C148_strict",
    "BN.C148_set",
    "BN.C148_sort",
    "BN.C148_binary_search",
    "BN.C148_minus_zero_wrong"
   ],
   "note": "C148_less: the comparison is a function without environment or allocator. C148_strict, C148_set (over the tree model of C125), C148_sort (over the insertion sort of C88), C148_binary_search. C148_minus_zero_wrong: the exception (such zeros come from x -= x with a negative x, for example)."
  },
  {
   "property": "C149",
   "status": "proved",
   "theorems": [
    "BN.C149_table",
    "BN.C149_values",
    "BN.C149_zero_wrong"
   ],
   "note": "C149_table over a model of the usual hash table (buckets searched front to back; growth as an explicit call that may come at any time); C149_values for Proper numbers (C148); C149_zero_wrong: the zero of 2/23 is not found as Bignum(), with every hash function."
  },
  {
   "property": "C150",
   "status": "proved",
   "theorems": [
    "BN.C150_to",
    "BN.C150_from",
    "BN.C150_round_trip"
   ],
   "note": "Client functions fromLL, toLL over the C++ integer model (Model/CInt.lean); C150_to, C150_from, C150_round_trip for Supported digit types; 65 rounds of the loop suffice."
  },
  {
   "property": "C151",
   "status": "proved",
   "theorems": [
    "BN.C151_operations",
    "BN.C151_programs",
    "BN.C151_safe",
    "BN.C151_any_environment",
    "BN.C151_returned"
   ],
   "note": "The operations are safeAdd, safeSub, safeMul, safeQuo, safeRem of Props/SafeInt.lean over slowMul, slowDiv (C139), less (C148), fromLL (C150). C151_operations: each is exact. C151_programs: same number of rounds, same result or same exception. C151_safe: no undefined behaviour, ends exactly if the integer program ends. C151_any_environment, C151_returned: debug builds and scarce memory."
  },
  {
   "property": "C152",
   "status": "proved",
   "theorems": [
    "BN.C152_modes",
    "BN.C152_zero",
    "BN.C152_zero_fused",
    "BN.C152_operations",
    "BN.C152_nearest",
    "BN.C152_products",
    "BN.C152_programs",
    "BN.C152_fft",
    "BN.C152_round_trip"
   ],
   "note": "directed64 of Model/Directed64.lean: a number is the computation (Work) that led to it, and the mode of each operation is any function of it; so equal computations that the program repeats are rounded alike (C153 drops this). C152_modes, C152_zero, C152_zero_fused, C152_operations: the modes are those of IEEE 754-2008 (4.3, 6.3, 7.4). C152_nearest: with all modes to nearest the operations are those of C113. C152_products, C152_programs, C152_fft, C152_round_trip. Library sine and cosine within 8 * 2^-53 in every mode. No excess precision here (C138 has it, with unbounded exponents)."
  },
  {
   "property": "C153",
   "status": "proved",
   "theorems": [
    "BN.C153_constant",
    "BN.C153_safe",
    "BN.C153_products",
    "BN.C153_programs",
    "BN.C153_fft",
    "BN.C153_round_trip",
    "BN.C153_operations",
    "BN.C153_binary64",
    "BN.C153_binary64_programs"
   ],
   "note": "Model/Clock.lean runs the multiplication with an arithmetic for every moment (operation number); C153_constant: with one arithmetic for all moments it is the model of the other properties. LawfulAt (SpecClock.lean): the laws of one moment, for one meaning of the data. C153_products, C153_programs, C153_fft, C153_round_trip: for all sequences of such arithmetics. C153_operations, C153_binary64: binary64 with a mode, a contraction and a library for each moment (Model/Moment64.lean) is one. C153_safe: no laws at all. An example shows one product computed twice with two results."
  },
  {
   "property": "C154",
   "status": "proved",
   "theorems": [
    "BN.C154_fft",
    "BN.C154_ifft",
    "BN.C154_product",
    "BN.C154_bound",
    "BN.C154_returns"
   ],
   "note": "Counted on the model with a clock (Model/Clock.lean), where each operation, conversion from or to an integer, floor, sine, cosine and change of sign is one tick. C154_fft, C154_ifft: total. C154_product, C154_bound: whenever the product returns (it may fail for want of memory, or by an undefined conversion). C154_returns: under the laws of any rounding mode the preset types do return, with the digits of the product."
  },
  {
   "property": "C155",
   "status": "proved",
   "theorems": [
    "BN.C155_products",
    "BN.C155_programs",
    "BN.C155_fft",
    "BN.C155_round_trip",
    "BN.C155_contraction",
    "BN.C155_excess_lawful",
    "BN.C155_excess"
   ],
   "note": "On the model with a clock of C153. C155_products, C155_programs, C155_fft, C155_round_trip: any sequence of arithmetics under the laws of rounding to nearest (LawfulAt .double). C155_contraction: binary64 with a contraction and a library for each moment. C155_excess_lawful, C155_excess: a way to keep or store each result, both products of a sum, and a contraction for each moment, on real numbers (the exponent range is not bounded there)."
  },
  {
   "property": "C156",
   "status": "proved",
   "theorems": [
    "BN.C156_returned",
    "BN.C156_outcome",
    "BN.C156_product",
    "BN.C156_product_enough",
    "BN.C156_difference",
    "BN.C156_sum_opposite",
    "BN.C156_sum",
    "BN.C156_quotient",
    "BN.C156_binary",
    "BN.C156_binary_product"
   ],
   "note": "On the operators with a count of free bytes (Model/Heap). C156_returned, C156_outcome: all operators. C156_product (exact), C156_product_enough, C156_difference, C156_sum_opposite, C156_sum, C156_quotient: how much suffices. C156_binary, C156_binary_product: the operators with a copy. The amounts for differences, sums and quotients are sufficient, not necessary. Memory is a number of bytes: fragmentation and the overhead of an allocation are not modelled."
  },
  {
   "property": "C157",
   "status": "proved",
   "theorems": [
    "BN.C157_capacity",
    "BN.C157_conserved",
    "BN.C157_programs",
    "BN.C157_well_formed",
    "BN.C157_enough",
    "BN.C157_integers"
   ],
   "note": "On Model/World: the statements of Model/Program with the capacity of each number and a count of free bytes. C157_capacity, C157_conserved (programs that name the first N numbers), C157_programs (and C157_well_formed as an instance), C157_enough, C157_integers. The amount in C157_enough is not given as a formula; C156 gives it for single operators. No fragmentation."
  },
  {
   "property": "C158",
   "status": "proved",
   "theorems": [
    "BN.C158_memory",
    "BN.C158_usual",
    "BN.C158_fibonacci"
   ],
   "note": "On Model/World, release build, a base for which products are exact up to K digits (MulExact, shown for base 10 and others under IEEE arithmetic). C158_memory in general, C158_usual for the common machine, C158_fibonacci for a loop of any length. The amounts are sufficient, not claimed to be least. No fragmentation."
  },
  {
   "property": "C159",
   "status": "proved",
   "theorems": [
    "BN.C159_order",
    "BN.C159_sub",
    "BN.C159_exact",
    "BN.C159_opposite",
    "BN.C159_self"
   ],
   "note": "Custom bases (maxima with 2*max+1 below 2^w), release build, both numbers not empty at once. C159_order, C159_sub (value up to the last borrow), C159_exact, C159_opposite, C159_self. Continues C119, which does sums."
  },
  {
   "property": "C160",
   "status": "proved",
   "theorems": [
    "BN.C160_power",
    "BN.C160_round_trip",
    "BN.C160_keys",
    "BN.C160_zero"
   ],
   "note": "Client programs of C96 (powMod) and C146 (inverse), products under the Ieee laws. C160_power, C160_round_trip (any exponents whose product is 1 modulo p-1 and q-1), C160_keys (key generation included), C160_zero."
  },
  {
   "property": "C161",
   "status": "proved",
   "theorems": [
    "BN.C161_exact",
    "BN.C161_after",
    "BN.C161_digit",
    "BN.C161_wrong",
    "BN.C161_endless"
   ],
   "note": "Continues C119 (sums), C145 (products) and C159 (differences). C161_exact (right quotients), C161_after (0), C161_digit and C161_wrong (single digits), C161_endless (no return)."
  },
  {
   "property": "C162",
   "status": "proved",
   "theorems": [
    "BN.C162_operations",
    "BN.C162_make",
    "BN.C162_unique",
    "BN.C162_programs"
   ],
   "note": "Client class over C151; the rational numbers are those of Mathlib. C162_operations, C162_make (reduction), C162_unique (one object per number), C162_programs (all programs)."
  },
  {
   "property": "C163",
   "status": "proved",
   "theorems": [
    "BN.C163_agree",
    "BN.C163_message",
    "BN.C163_zero"
   ],
   "note": "Client functions over C146 and C160. C163_agree (both keys), C163_message (enciphering and deciphering), C163_zero (the message left out)."
  },
  {
   "property": "C164",
   "status": "partial",
   "theorems": [
    "BN.C164_prime",
    "BN.C164_rejected",
    "BN.C164_textbook_partial",
    "BN.C164_refuted"
   ],
   "note": "Refuted by the code: 33 passes to base 10 (C164_refuted), since 2 / 2 = 0 makes 2 look odd and m - 1 = 2^k is halved once too few. C164_textbook_partial: for odd m and every base no power of which is a multiple of m (all bases if m is square-free, all bases coprime to m otherwise) the answer is exactly the one of the textbook or, for m = 2^k + 1, also true for every square root of one; missing are the other bases, for which a remainder on the way may be zero (C96). C164_prime: no prime is rejected; C164_rejected: what is rejected is composite."
  },
  {
   "property": "C165",
   "status": "proved",
   "theorems": [
    "BN.C165_fibonacci",
    "BN.C165_from_zero"
   ],
   "note": "Client functions; the Fibonacci numbers are those of Mathlib. C165_fibonacci (start at the first bit), C165_from_zero (start at zero). Products under the Ieee laws."
  },
  {
   "property": "C166",
   "status": "partial",
   "theorems": [
    "BN.C166_binomial_partial",
    "BN.C166_whole"
   ],
   "note": "Refuted by the code: n over n is 0 for all n above one (C166_whole), since 1 * 2 / 2 is 0 (C32). C166_binomial_partial: right for all k below n; n over n is the only case missing, and C166_whole settles it. Products under the Ieee laws; the coefficients are those of Mathlib."
  },
  {
   "property": "C167",
   "status": "proved",
   "theorems": [
    "BN.C167_crt"
   ],
   "note": "Client function over C146. Residues are positive numbers or the default-constructed zero. Products under the Ieee laws."
  },
  {
   "property": "C168",
   "status": "partial",
   "theorems": [
    "BN.C168_expansion_partial",
    "BN.C168_equal"
   ],
   "note": "C168_expansion_partial: operands that differ, or 1 and 1. Missing: equal operands above one, for which the claim is false (C168_equal: the loop never ends). Products under the Ieee laws."
  },
  {
   "property": "C169",
   "status": "proved",
   "theorems": [
    "BN.C169_mersenne"
   ],
   "note": "Client function. Both directions of the theorem of Lucas and Lehmer are those of Mathlib. Products under the Ieee laws. It is not settled whether an earlier zero occurs for any p."
  },
  {
   "property": "C170",
   "status": "proved",
   "theorems": [
    "BN.C170_fermat"
   ],
   "note": "Client function over C160. One direction is Mathlib's pepin_primality, the other is proved here by quadratic reciprocity. Products under the Ieee laws."
  },
  {
   "property": "C171",
   "status": "proved",
   "theorems": [
    "BN.C171_horner",
    "BN.C171_zero"
   ],
   "note": "Client function. C171_horner: positive x; C171_zero: x = 0 never ends. Products under the Ieee laws."
  },
  {
   "property": "C172",
   "status": "partial",
   "theorems": [
    "BN.C172_sound",
    "BN.C172_complete_partial",
    "BN.C172_three"
   ],
   "note": "C172_sound: all m. C172_complete_partial: all primes but three; for three the claim is false (C172_three). Nothing else is missing. Lucas' theorem is that of Mathlib. Products under the Ieee laws."
  },
  {
   "property": "C173",
   "status": "proved",
   "theorems": [
    "BN.C173_rounds",
    "BN.C173_endless"
   ],
   "note": "Client function. C173_rounds: the value after any number of rounds. C173_endless: however often the condition has been looked at, the loop has not ended. No floating point."
  },
  {
   "property": "C174",
   "status": "proved",
   "theorems": [
    "BN.C174_logarithm"
   ],
   "note": "Client function; the logarithm is Mathlib's Nat.log. No floating point."
  },
  {
   "property": "C175",
   "status": "proved",
   "theorems": [
    "BN.C175_divisors",
    "BN.C175_perfect"
   ],
   "note": "Client functions; divisors and perfect numbers are those of Mathlib. Products under the Ieee laws."
  },
  {
   "property": "C176",
   "status": "partial",
   "theorems": [
    "BN.C176_sums_partial",
    "BN.C176_one"
   ],
   "note": "C176_sums_partial: all x from two on. Missing: x = 1, for which the claim is false (C176_one). Products under the Ieee laws."
  }
 ]
}