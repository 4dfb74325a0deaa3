import Verif.Props.Addition
import Verif.Props.Algebra
import Verif.Props.AnyEnvironment
import Verif.Props.ArithTest
import Verif.Props.Bases
import Verif.Props.Binary64
import Verif.Props.Binomial
import Verif.Props.Bisect
import Verif.Props.BuiltIn
import Verif.Props.Clients
import Verif.Props.Clock
import Verif.Props.ClockCount
import Verif.Props.ClockNearest
import Verif.Props.Collatz
import Verif.Props.Compare
import Verif.Props.Compress
import Verif.Props.Container
import Verif.Props.ContinuedFractions
import Verif.Props.Control
import Verif.Props.Convert
import Verif.Props.Cost
import Verif.Props.Counters
import Verif.Props.Crt
import Verif.Props.DebugBuild
import Verif.Props.DebugDiv
import Verif.Props.Directed64
import Verif.Props.Division
import Verif.Props.Euclid
import Verif.Props.Exact
import Verif.Props.Exceptions
import Verif.Props.Excess
import Verif.Props.Expansion
import Verif.Props.Fibonacci
import Verif.Props.Format
import Verif.Props.FourierApi
import Verif.Props.Fractions
import Verif.Props.Fused
import Verif.Props.Gauss
import Verif.Props.HashSet
import Verif.Props.Heap
import Verif.Props.History
import Verif.Props.Horner
import Verif.Props.IntClient
import Verif.Props.IntType
import Verif.Props.Inverse
import Verif.Props.KeyExchange
import Verif.Props.Lcm
import Verif.Props.Locale
import Verif.Props.Log
import Verif.Props.Loops
import Verif.Props.LucasLehmer
import Verif.Props.Memory
import Verif.Props.MillerRabin
import Verif.Props.Moments
import Verif.Props.MulColumns
import Verif.Props.MulLong
import Verif.Props.MulNaive
import Verif.Props.MulThreshold
import Verif.Props.Multiplication
import Verif.Props.Multiplication2
import Verif.Props.Narrow
import Verif.Props.NativeLengths
import Verif.Props.NativePairs
import Verif.Props.Negation
import Verif.Props.NumberTheory
import Verif.Props.Object
import Verif.Props.OrderedSet
import Verif.Props.OwnOrder
import Verif.Props.Padding
import Verif.Props.Pepin
import Verif.Props.Perfect
import Verif.Props.Platform
import Verif.Props.Pratt
import Verif.Props.Print
import Verif.Props.RawDiffs
import Verif.Props.RawDigits
import Verif.Props.RawProducts
import Verif.Props.RawQuotients
import Verif.Props.Requests
import Verif.Props.RequestsDiv
import Verif.Props.Retry
import Verif.Props.RoundQ
import Verif.Props.Rounding
import Verif.Props.RoundingFft
import Verif.Props.Rsa
import Verif.Props.SafeInt
import Verif.Props.SafeIntEnv
import Verif.Props.Safety
import Verif.Props.Shift
import Verif.Props.Simulation
import Verif.Props.Single
import Verif.Props.Single32
import Verif.Props.Size
import Verif.Props.Sorting
import Verif.Props.Special
import Verif.Props.SpecialOrder
import Verif.Props.Sqrt
import Verif.Props.Storage
import Verif.Props.Stream
import Verif.Props.Subtraction
import Verif.Props.Swap
import Verif.Props.TextClient
import Verif.Props.Threads
import Verif.Props.Workaround
import Verif.Props.World
import Verif.Props.WorldRoom
/-
Axioms of every property theorem (expected: a subset of propext, Classical.choice, Quot.sound).
-/

#print axioms BN.C01_eq_structural
#print axioms BN.C01_ne_is_not_eq
#print axioms BN.C01_eq_equivalence
#print axioms BN.C02_eq_iff_value
#print axioms BN.C03_ge_le_nonneg
#print axioms BN.C04_refuted
#print axioms BN.C04_gt_partial
#print axioms BN.C04_gt_iff
#print axioms BN.C05_gt_lt_meaning
#print axioms BN.C05_no_false_negatives
#print axioms BN.C06_refuted
#print axioms BN.C06_order_partial
#print axioms BN.C07_refuted
#print axioms BN.C07_negative_partial
#print axioms BN.C07_exact
#print axioms BN.C08_opposite_signs
#print axioms BN.C08_zero_signs
#print axioms BN.C09_add_exact
#print axioms BN.C09_add_same_sign
#print axioms BN.C10_add_ub_iff
#print axioms BN.C10_add_ub
#print axioms BN.C10_any_environment
#print axioms BN.C11_add
#print axioms BN.C11_sub
#print axioms BN.C11_mul
#print axioms BN.C11_div
#print axioms BN.C12_add_is_copy_then_assign
#print axioms BN.C12_add_exact
#print axioms BN.C12_add_comm
#print axioms BN.C12_add_comm_same_sign
#print axioms BN.C12_add_assoc
#print axioms BN.C12_add_assoc_defined
#print axioms BN.C13_self_add_doubles
#print axioms BN.C13_self_add_eq_copy_add
#print axioms BN.C14_accumulate
#print axioms BN.C14_accumulate_same_sign
#print axioms BN.C15_sub_same_sign_exact
#print axioms BN.C15_sub_same_sign_ub_iff
#print axioms BN.C16_refuted
#print axioms BN.C16_sub_opposite_partial
#print axioms BN.C17_sub_opposite_sign
#print axioms BN.C17_sub_opposite_exact_iff
#print axioms BN.C18_self_sub
#print axioms BN.C19_add_sub_cancel
#print axioms BN.C20_absSub_contract
#print axioms BN.C21_absAdd_contract
#print axioms BN.C22_convolution
#print axioms BN.C22_columns_are_product
#print axioms BN.C22_exact_product
#print axioms BN.C23_exact_if_near
#print axioms BN.C24_exact_general
#print axioms BN.C24_base10
#print axioms BN.C24_base16
#print axioms BN.C24_base8
#print axioms BN.C24_base2
#print axioms BN.C25_lowp_ub
#print axioms BN.C25_medp_ub
#print axioms BN.C25_highp_even
#print axioms BN.C25_highp_odd_wrong
#print axioms BN.C25_highp_silent
#print axioms BN.C25_highp_ub
#print axioms BN.C25_refuted
#print axioms BN.C25_lowp_partial
#print axioms BN.C25_medp_partial
#print axioms BN.C25_highp_partial
#print axioms BN.C25_highp_single_partial
#print axioms BN.C25_lowp_lengths_partial
#print axioms BN.C25_medp_lengths_partial
#print axioms BN.C25_highp_lengths
#print axioms BN.C26_zero_times_zero_diverges
#print axioms BN.C26_refuted
#print axioms BN.C26_terminates_partial
#print axioms BN.C27_nextPow2
#print axioms BN.C27_nextPow2_zero
#print axioms BN.C27_nextPow2_above
#print axioms BN.C27_nextPow2_any
#print axioms BN.C27_nextPow2_wraps
#print axioms BN.C27_isPow2
#print axioms BN.C27_table_length
#print axioms BN.C28_naive_exact
#print axioms BN.C28_presets
#print axioms BN.C29_native_columns
#print axioms BN.C29_ub_iff
#print axioms BN.C29_refuted
#print axioms BN.C29_native_partial
#print axioms BN.C29_right_iff
#print axioms BN.C30_sign
#print axioms BN.C31_div_exact
#print axioms BN.C31_div_mod
#print axioms BN.C31_div_operator
#print axioms BN.C32_self_division_is_zero
#print axioms BN.C32_refuted
#print axioms BN.C32_self_division_partial
#print axioms BN.C33_div_by_digit_zero
#print axioms BN.C33_div_by_empty_never_returns
#print axioms BN.C33_div_by_empty_diverges
#print axioms BN.C33_div_by_empty_native
#print axioms BN.C33_refuted
#print axioms BN.C33_div_by_zero_partial
#print axioms BN.C34_native_division_ub
#print axioms BN.C34_refuted
#print axioms BN.C34_native_partial
#print axioms BN.C35_div_by_one
#print axioms BN.C35_div_of_zero
#print axioms BN.C35_div_of_smaller
#print axioms BN.C36_predicates
#print axioms BN.C36_predicates_separate
#print axioms BN.C37_setDescriptor
#print axioms BN.C37_setDescriptor_cases
#print axioms BN.C38_refuted
#print axioms BN.C38_left_special_partial
#print axioms BN.C39_left_special
#print axioms BN.C39_left_special_self
#print axioms BN.C39_add_right_special
#print axioms BN.C39_sub_right_special
#print axioms BN.C39_mul_right_special
#print axioms BN.C39_div_right_special
#print axioms BN.C40_throw_leaves_infinity
#print axioms BN.C40_throw_leaves_infinity_self
#print axioms BN.C40_no_throw
#print axioms BN.C40_add
#print axioms BN.C40_sub
#print axioms BN.C40_div
#print axioms BN.C40_mul
#print axioms BN.C41_subscript_read
#print axioms BN.C41_subscript_write
#print axioms BN.C41_subscript_value
#print axioms BN.C42_push_values
#print axioms BN.C42_pop_undoes_push
#print axioms BN.C42_pop_empty_ub
#print axioms BN.C43_refuted
#print axioms BN.C43_doc_partial
#print axioms BN.C44_resize
#print axioms BN.C44_fill
#print axioms BN.C45_construct
#print axioms BN.C45_construct_eq
#print axioms BN.C45_construct_eq_value
#print axioms BN.C46_copy
#print axioms BN.C46_copy_fail
#print axioms BN.C46_move
#print axioms BN.C46_clear
#print axioms BN.C47_numeral
#print axioms BN.C47_decimal
#print axioms BN.C47_octal
#print axioms BN.C47_text_determines_value
#print axioms BN.C47_special_text_distinct
#print axioms BN.C48_wide_iff
#print axioms BN.C48_bytes_iff
#print axioms BN.C48_refuted_base16
#print axioms BN.C48_refuted_native
#print axioms BN.C48_refuted_lowp
#print axioms BN.C48_small_base_partial
#print axioms BN.C48_bytes_partial
#print axioms BN.C49_add
#print axioms BN.C49_sub
#print axioms BN.C49_mul
#print axioms BN.C49_bitwise
#print axioms BN.C49_unary
#print axioms BN.C49_compound
#print axioms BN.C50_div_mod
#print axioms BN.C50_mul_ub_iff
#print axioms BN.C50_shr
#print axioms BN.C50_shl
#print axioms BN.C51_comparisons
#print axioms BN.C52_inc_dec
#print axioms BN.C52_inc_dec_cancel
#print axioms BN.C53_instances
#print axioms BN.C53_limits
#print axioms BN.C53_presets_supported
#print axioms BN.C54_assert_true
#print axioms BN.C54_assert_false
#print axioms BN.C55_digits_in_range
#print axioms BN.C55_from_start
#print axioms BN.C56_debug_throws_iff
#print axioms BN.C56_refuted
#print axioms BN.C56_debug_partial
#print axioms BN.C57_debug_release_agree
#print axioms BN.C58_add_terminates
#print axioms BN.C58_sub_terminates
#print axioms BN.C58_div_terminates
#print axioms BN.C58_budget_irrelevant
#print axioms BN.C58_one_outcome
#print axioms BN.C59_well_formed
#print axioms BN.C60_refuted
#print axioms BN.C60_copy_assign_partial
#print axioms BN.C60_binary_throw_keeps
#print axioms BN.C61_roundtrip_ascii
#print axioms BN.C61_roundtrip_partial
#print axioms BN.C61_any_allocator_partial
#print axioms BN.C61_refuted
#print axioms BN.C61_refuted_empty
#print axioms BN.C62_padding_keeps_value
#print axioms BN.C62_eq_padded
#print axioms BN.C62_order_padded
#print axioms BN.C62_sub_padded
#print axioms BN.C62_div_padded
#print axioms BN.C62_refuted
#print axioms BN.C62_add_partial
#print axioms BN.C62_mul_partial
#print axioms BN.C63_iff
#print axioms BN.C63_arithmetic_test_partial
#print axioms BN.C63_unit
#print axioms BN.C63_refuted
#print axioms BN.C64_programs
#print axioms BN.C64_base10
#print axioms BN.C64_base16
#print axioms BN.C64_base8
#print axioms BN.C64_base2
#print axioms BN.C65_refuted
#print axioms BN.C65_integer_test_partial
#print axioms BN.C66_read_back_partial
#print axioms BN.C66_read_back_byte_partial
#print axioms BN.C66_refuted
#print axioms BN.C66_adjacent
#print axioms BN.C66_numerals
#print axioms BN.C66_no_numeral
#print axioms BN.C67_base2_ub
#print axioms BN.C67_base8_ub
#print axioms BN.C67_base2
#print axioms BN.C67_base8
#print axioms BN.C68_general
#print axioms BN.C68_lowp
#print axioms BN.C68_medp
#print axioms BN.C68_base2
#print axioms BN.C68_base8
#print axioms BN.C68_base256
#print axioms BN.C68_returned_is_right
#print axioms BN.C69_div_rounds
#print axioms BN.C70_debug_or_throw
#print axioms BN.C70_never_differ
#print axioms BN.C70_sub_throws_iff
#print axioms BN.C70_add_throws_iff
#print axioms BN.C70_self
#print axioms BN.C70_div_differs
#print axioms BN.C71_debug_run_predicts_release
#print axioms BN.C72_mul_comm
#print axioms BN.C72_mul_assoc
#print axioms BN.C72_mul_one
#print axioms BN.C72_mul_zero
#print axioms BN.C72_mul_empty
#print axioms BN.C72_distrib
#print axioms BN.C73_remainder_partial
#print axioms BN.C73_equal
#print axioms BN.C73_refuted
#print axioms BN.C73_empty_ub
#print axioms BN.C74_gcd_partial
#print axioms BN.C74_equal_diverges
#print axioms BN.C74_refuted
#print axioms BN.C74_empty_ub
#print axioms BN.C75_fft_is_dft
#print axioms BN.C75_ifft_is_inverse_dft
#print axioms BN.C75_round_trip
#print axioms BN.C75_convolute
#print axioms BN.C76_any_length_partial
#print axioms BN.C76_empty_diverges
#print axioms BN.C76_odd_last_ignored
#print axioms BN.C76_refuted
#print axioms BN.C76_right_iff
#print axioms BN.C77_fft_error
#print axioms BN.C77_round_trip_error
#print axioms BN.C78_read
#print axioms BN.C78_print_then_read
#print axioms BN.C78_read_then_print
#print axioms BN.C78_canonical_text
#print axioms BN.C79_horner
#print axioms BN.C79_zero_differs
#print axioms BN.C80_product_quotient_partial
#print axioms BN.C80_unit_factor_lost
#print axioms BN.C80_refuted
#print axioms BN.C81_power
#print axioms BN.C81_zero_power_diverges
#print axioms BN.C82_sign_of_difference
#print axioms BN.C83_half_partial
#print axioms BN.C83_program
#print axioms BN.C83_refuted
#print axioms BN.C84_product
#print axioms BN.C84_order_irrelevant
#print axioms BN.C85_fibonacci
#print axioms BN.C86_step_one_partial
#print axioms BN.C86_terminates
#print axioms BN.C86_refuted
#print axioms BN.C86_with_ge
#print axioms BN.C87_max_iff
#print axioms BN.C87_max_refuted
#print axioms BN.C87_max_partial
#print axioms BN.C87_max_ge
#print axioms BN.C88_sort_le
#print axioms BN.C88_sort_lt_refuted
#print axioms BN.C88_sort_lt_partial
#print axioms BN.C89_sqrt_partial
#print axioms BN.C89_zero
#print axioms BN.C89_one_two
#print axioms BN.C89_refuted
#print axioms BN.C90_value
#print axioms BN.C90_convert_partial
#print axioms BN.C90_refuted
#print axioms BN.C91_negate
#print axioms BN.C91_add_sub
#print axioms BN.C91_mul_div
#print axioms BN.C91_subtract_by_negation
#print axioms BN.C92_nested_division_partial
#print axioms BN.C92_refuted
#print axioms BN.C93_mul_base
#print axioms BN.C93_div_base_partial
#print axioms BN.C93_rem_base_partial
#print axioms BN.C93_refuted
#print axioms BN.C94_factorial
#print axioms BN.C95_prime
#print axioms BN.C96_powMod_partial
#print axioms BN.C96_divisible
#print axioms BN.C96_multiple
#print axioms BN.C96_refuted
#print axioms BN.C97_state
#print axioms BN.C97_numeral
#print axioms BN.C97_hex
#print axioms BN.C97_text_determines_value
#print axioms BN.C98_only_first_piece
#print axioms BN.C98_width_partial
#print axioms BN.C98_length
#print axioms BN.C98_refuted
#print axioms BN.C99_prefixes
#print axioms BN.C99_showbase_partial
#print axioms BN.C99_refuted
#print axioms BN.C99_every_format
#print axioms BN.C100_compound
#print axioms BN.C100_binary
#print axioms BN.C100_containers
#print axioms BN.C100_comparisons
#print axioms BN.C100_std_partial
#print axioms BN.C100_subscript
#print axioms BN.C100_refuted
#print axioms BN.C101_div_throws_iff
#print axioms BN.C101_quiet_cases
#print axioms BN.C102_special_rank
#print axioms BN.C102_minus_infinity_partial
#print axioms BN.C102_special_eq
#print axioms BN.C102_refuted
#print axioms BN.C103_lcm_product_partial
#print axioms BN.C103_lcm_quotient
#print axioms BN.C103_refuted
#print axioms BN.C104_bisect_partial
#print axioms BN.C104_sqrt
#print axioms BN.C104_zero_diverges
#print axioms BN.C104_refuted
#print axioms BN.C104_zero_iff
#print axioms BN.C104_zero_monotone
#print axioms BN.C104_sqrt_zero
#print axioms BN.C105_size
#print axioms BN.C105_monotone
#print axioms BN.C105_sum
#print axioms BN.C105_difference
#print axioms BN.C105_product
#print axioms BN.C105_quotient
#print axioms BN.C106_more_memory
#print axioms BN.C106_results_persist
#print axioms BN.C106_add_storage
#print axioms BN.C106_sub_storage
#print axioms BN.C106_mul_storage
#print axioms BN.C106_div_storage
#print axioms BN.C106_add_throws_iff
#print axioms BN.C106_empty_divisor
#print axioms BN.C107_more_memory_same_objects
#print axioms BN.C107_failures_matter
#print axioms BN.C108_products_agree
#print axioms BN.C108_programs_agree
#print axioms BN.C109_any_environment
#print axioms BN.C109_results_agree
#print axioms BN.C109_no_return
#print axioms BN.C110_same_objects
#print axioms BN.C110_programs
#print axioms BN.C111_one_answer_per_size
#print axioms BN.C111_any_moment
#print axioms BN.C111_outcomes
#print axioms BN.C111_storage
#print axioms BN.C112_same_objects
#print axioms BN.C112_programs
#print axioms BN.C113_rounding
#print axioms BN.C113_overflow
#print axioms BN.C113_invalid
#print axioms BN.C113_infinite
#print axioms BN.C113_laws
#print axioms BN.C113_accurate_library
#print axioms BN.C113_products
#print axioms BN.C113_programs
#print axioms BN.C113_transform
#print axioms BN.C113_default_wrong
#print axioms BN.C114_same_results
#print axioms BN.C114_compare
#print axioms BN.C114_assign
#print axioms BN.C114_binary
#print axioms BN.C114_sum_exact
#print axioms BN.C115_product
#print axioms BN.C115_quasilinear
#print axioms BN.C116_subtractions
#print axioms BN.C116_doublings
#print axioms BN.C116_at_most_cubic
#print axioms BN.C116_at_least
#print axioms BN.C116_cubic
#print axioms BN.C116_cubic_for_every_length
#print axioms BN.C117_first_too_long
#print axioms BN.C117_second_too_long
#print axioms BN.C117_wrapped_index
#print axioms BN.C117_lengths
#print axioms BN.C118_as_if_alone
#print axioms BN.C118_same_end
#print axioms BN.C118_sequential
#print axioms BN.C118_race
#print axioms BN.C119_add
#print axioms BN.C119_repair
#print axioms BN.C119_beyond
#print axioms BN.C120_swap
#print axioms BN.C120_permutation
#print axioms BN.C120_nothing_lost
#print axioms BN.C120_reverse
#print axioms BN.C120_rotate
#print axioms BN.C120_self_move
#print axioms BN.C120_move_or_copy
#print axioms BN.C121_criterion
#print axioms BN.C121_unique
#print axioms BN.C121_product
#print axioms BN.C121_sum
#print axioms BN.C121_difference
#print axioms BN.C121_quotient
#print axioms BN.C121_quotient_zero
#print axioms BN.C121_quotient_one
#print axioms BN.C122_base10_ub
#print axioms BN.C122_base16_ub
#print axioms BN.C122_base10
#print axioms BN.C122_base16
#print axioms BN.C122_lengths10
#print axioms BN.C122_lengths16
#print axioms BN.C123_add
#print axioms BN.C123_sub
#print axioms BN.C123_mul
#print axioms BN.C124_after_failure
#print axioms BN.C124_received
#print axioms BN.C124_good_means_complete
#print axioms BN.C124_returned_means_complete
#print axioms BN.C124_sequence
#print axioms BN.C124_room
#print axioms BN.C125_strict_weak_iff
#print axioms BN.C125_set
#print axioms BN.C125_set_le
#print axioms BN.C125_set_lt_partial
#print axioms BN.C125_lost
#print axioms BN.C125_refuted
#print axioms BN.C125_binary_search
#print axioms BN.C125_search_refuted
#print axioms BN.C126_add
#print axioms BN.C126_sub
#print axioms BN.C126_mul_bytes32
#print axioms BN.C126_mul_bytes64
#print axioms BN.C126_mul_words64
#print axioms BN.C127_test_iff
#print axioms BN.C127_simulates
#print axioms BN.C127_one_course
#print axioms BN.C127_follows
#print axioms BN.C127_ends_iff
#print axioms BN.C127_forever
#print axioms BN.C127_straight
#print axioms BN.C127_any_environment
#print axioms BN.C127_structured
#print axioms BN.C127_computes
#print axioms BN.C127_presets
#print axioms BN.C127_triangle
#print axioms BN.C128_erase
#print axioms BN.C128_insert
#print axioms BN.C128_push
#print axioms BN.C128_call
#print axioms BN.C128_history
#print axioms BN.C128_amortised
#print axioms BN.C129_push_move
#print axioms BN.C129_refuted
#print axioms BN.C129_lost_iff_partial
#print axioms BN.C130_once_rounded
#print axioms BN.C130_values_differ
#print axioms BN.C130_products
#print axioms BN.C130_programs
#print axioms BN.C131_narrow_products
#print axioms BN.C131_exact
#print axioms BN.C132_any_locale
#print axioms BN.C132_state
#print axioms BN.C133_iff_partial
#print axioms BN.C133_refuted
#print axioms BN.C133_each_digit
#print axioms BN.C134_values_differ
#print axioms BN.C134_every_choice
#print axioms BN.C134_products
#print axioms BN.C134_programs
#print axioms BN.C135_fft_error
#print axioms BN.C135_round_trip_error
#print axioms BN.C135_binary32_rounding
#print axioms BN.C135_binary32_overflow
#print axioms BN.C135_binary32_invalid
#print axioms BN.C135_binary32_infinite
#print axioms BN.C135_binary32_laws
#print axioms BN.C135_accurate_library
#print axioms BN.C135_binary32_fft
#print axioms BN.C135_binary32_round_trip
#print axioms BN.C136_decimal
#print axioms BN.C136_binary
#print axioms BN.C136_wide
#print axioms BN.C136_binary32_decimal
#print axioms BN.C136_binary32_binary
#print axioms BN.C136_binary32_wide
#print axioms BN.C137_fft_error_partial
#print axioms BN.C137_refuted
#print axioms BN.C138_every_mode
#print axioms BN.C138_products
#print axioms BN.C138_programs
#print axioms BN.C139_product
#print axioms BN.C139_quotient
#print axioms BN.C139_gcd
#print axioms BN.C140_all_or_nothing
#print axioms BN.C140_skipped
#print axioms BN.C140_retry
#print axioms BN.C140_retry_ends
#print axioms BN.C140_programs
#print axioms BN.C140_compound
#print axioms BN.C141_ceil_partial
#print axioms BN.C141_ceil_one
#print axioms BN.C141_round_partial
#print axioms BN.C141_round_half
#print axioms BN.C141_half_partial
#print axioms BN.C141_half_two
#print axioms BN.C141_refuted
#print axioms BN.C142_fft_error
#print axioms BN.C142_round_trip_error
#print axioms BN.C143_same_numbers
#print axioms BN.C143_in_place_partial
#print axioms BN.C143_no_memory_partial
#print axioms BN.C143_moves_partial
#print axioms BN.C143_histories_partial
#print axioms BN.C143_reserved_partial
#print axioms BN.C143_sums_partial
#print axioms BN.C143_differences_partial
#print axioms BN.C143_refuted
#print axioms BN.C144_add
#print axioms BN.C144_sub
#print axioms BN.C144_div
#print axioms BN.C145_general
#print axioms BN.C145_bytes
#print axioms BN.C145_one_digit
#print axioms BN.C145_normalise
#print axioms BN.C146_coefficient
#print axioms BN.C146_inverse
#print axioms BN.C146_textbook_wrong
#print axioms BN.C147_expansion_partial
#print axioms BN.C147_not_multiple
#print axioms BN.C147_equal
#print axioms BN.C147_refuted
#print axioms BN.C148_less
#print axioms BN.C148_strict
#print axioms BN.C148_set
#print axioms BN.C148_sort
#print axioms BN.C148_binary_search
#print axioms BN.C148_minus_zero_wrong
#print axioms BN.C149_table
#print axioms BN.C149_values
#print axioms BN.C149_zero_wrong
#print axioms BN.C150_to
#print axioms BN.C150_from
#print axioms BN.C150_round_trip
#print axioms BN.C151_operations
#print axioms BN.C151_programs
#print axioms BN.C151_safe
#print axioms BN.C151_any_environment
#print axioms BN.C151_returned
#print axioms BN.C152_modes
#print axioms BN.C152_zero
#print axioms BN.C152_zero_fused
#print axioms BN.C152_operations
#print axioms BN.C152_nearest
#print axioms BN.C152_products
#print axioms BN.C152_programs
#print axioms BN.C152_fft
#print axioms BN.C152_round_trip
#print axioms BN.C153_constant
#print axioms BN.C153_safe
#print axioms BN.C153_products
#print axioms BN.C153_programs
#print axioms BN.C153_fft
#print axioms BN.C153_round_trip
#print axioms BN.C153_operations
#print axioms BN.C153_binary64
#print axioms BN.C153_binary64_programs
#print axioms BN.C154_fft
#print axioms BN.C154_ifft
#print axioms BN.C154_product
#print axioms BN.C154_bound
#print axioms BN.C154_returns
#print axioms BN.C155_products
#print axioms BN.C155_programs
#print axioms BN.C155_fft
#print axioms BN.C155_round_trip
#print axioms BN.C155_contraction
#print axioms BN.C155_excess_lawful
#print axioms BN.C155_excess
#print axioms BN.C156_returned
#print axioms BN.C156_outcome
#print axioms BN.C156_product
#print axioms BN.C156_product_enough
#print axioms BN.C156_difference
#print axioms BN.C156_sum_opposite
#print axioms BN.C156_sum
#print axioms BN.C156_quotient
#print axioms BN.C156_binary
#print axioms BN.C156_binary_product
#print axioms BN.C157_capacity
#print axioms BN.C157_conserved
#print axioms BN.C157_programs
#print axioms BN.C157_well_formed
#print axioms BN.C157_enough
#print axioms BN.C157_integers
#print axioms BN.C158_memory
#print axioms BN.C158_usual
#print axioms BN.C158_fibonacci
#print axioms BN.C159_order
#print axioms BN.C159_sub
#print axioms BN.C159_exact
#print axioms BN.C159_opposite
#print axioms BN.C159_self
#print axioms BN.C160_power
#print axioms BN.C160_round_trip
#print axioms BN.C160_keys
#print axioms BN.C160_zero
#print axioms BN.C161_exact
#print axioms BN.C161_after
#print axioms BN.C161_digit
#print axioms BN.C161_wrong
#print axioms BN.C161_endless
#print axioms BN.C162_operations
#print axioms BN.C162_make
#print axioms BN.C162_unique
#print axioms BN.C162_programs
#print axioms BN.C163_agree
#print axioms BN.C163_message
#print axioms BN.C163_zero
#print axioms BN.C164_prime
#print axioms BN.C164_rejected
#print axioms BN.C164_textbook_partial
#print axioms BN.C164_refuted
#print axioms BN.C165_fibonacci
#print axioms BN.C165_from_zero
#print axioms BN.C166_binomial_partial
#print axioms BN.C166_whole
#print axioms BN.C167_crt
#print axioms BN.C168_expansion_partial
#print axioms BN.C168_equal
#print axioms BN.C169_mersenne
#print axioms BN.C170_fermat
#print axioms BN.C171_horner
#print axioms BN.C171_zero
#print axioms BN.C172_sound
#print axioms BN.C172_complete_partial
#print axioms BN.C172_three
#print axioms BN.C173_rounds
#print axioms BN.C173_endless
#print axioms BN.C174_logarithm
#print axioms BN.C175_divisors
#print axioms BN.C175_perfect
#print axioms BN.C176_sums_partial
#print axioms BN.C176_one
