{
 "claims": [
  {
   "property": "C01",
   "status": "proved",
   "theorems": [
    "Verif.C01_add_exact"
   ],
   "note": "All widths w>0, all slices."
  },
  {
   "property": "C02",
   "status": "proved",
   "theorems": [
    "Verif.C02_add_in_place"
   ],
   "note": "All widths w>0, len(right) <= len(left)."
  },
  {
   "property": "C03",
   "status": "partial",
   "theorems": [
    "Verif.C03_sub_partial",
    "Verif.C03_sub_violated"
   ],
   "note": "Code violates the property: on a borrow with an even difference the magnitude is 2 too small. Sign flag, normalisation and all other magnitudes proved."
  },
  {
   "property": "C04",
   "status": "proved",
   "theorems": [
    "Verif.C04_sub_in_place"
   ],
   "note": "All widths w>0, len(right) <= len(left)."
  },
  {
   "property": "C05",
   "status": "partial",
   "theorems": [
    "Verif.C05_cmp_partial",
    "Verif.C05_cmp_violated",
    "Verif.C05_cmp_exact_partial"
   ],
   "note": "Code violates the property: least significant differing limb decides; exact order (big-endian reading) proved. Equality and single-differing-limb order proved, general behaviour characterised."
  },
  {
   "property": "C06",
   "status": "proved",
   "theorems": [
    "Verif.C06_bit_ops"
   ],
   "note": ""
  },
  {
   "property": "C07",
   "status": "proved",
   "theorems": [
    "Verif.C07_not"
   ],
   "note": ""
  },
  {
   "property": "C08",
   "status": "proved",
   "theorems": [
    "Verif.C08_shl_exact"
   ],
   "note": ""
  },
  {
   "property": "C09",
   "status": "partial",
   "theorems": [
    "Verif.C09_shl_checked",
    "Verif.C09_shl_wrapping_partial",
    "Verif.C09_shl_wrapping_violated",
    "Verif.C09_C11_empty_exact_partial"
   ],
   "note": "shl_checked fully proved. shl_wrapping violates the property for bit lengths that are no power of two; proved for powers of two and characterised in general."
  },
  {
   "property": "C10",
   "status": "partial",
   "theorems": [
    "Verif.C10_shr_release",
    "Verif.C10_shr_debug_partial",
    "Verif.C10_shr_violated"
   ],
   "note": "Release builds fully proved. Debug builds panic for every amount of at least one limb (violation)."
  },
  {
   "property": "C11",
   "status": "partial",
   "theorems": [
    "Verif.C11_shr_in_place_partial",
    "Verif.C11_shr_in_place_panics",
    "Verif.C11_shr_in_place_violated",
    "Verif.C11_shr_exact_partial",
    "Verif.C09_C11_empty_exact_partial"
   ],
   "note": "Code violates the property: high bits of the top kept limb are not cleared, and a shift by exactly the bit length panics in debug builds."
  },
  {
   "property": "C12",
   "status": "proved",
   "theorems": [
    "Verif.C12_mul_exact"
   ],
   "note": ""
  },
  {
   "property": "C13",
   "status": "proved",
   "theorems": [
    "Verif.C13_mul_in_place"
   ],
   "note": ""
  },
  {
   "property": "C14",
   "status": "partial",
   "theorems": [
    "Verif.C14_mul_flag_partial",
    "Verif.C14_mul_flag_exact_partial",
    "Verif.C14_mul_flag_violated"
   ],
   "note": "Code violates the property: overflow out of the slice by out-of-range partial products is not reported (never, for one limb). Soundness of the flag and the exact condition for raising it proved."
  },
  {
   "property": "C15",
   "status": "proved",
   "theorems": [
    "Verif.C15_widening_mul"
   ],
   "note": ""
  },
  {
   "property": "C16",
   "status": "partial",
   "theorems": [
    "Verif.C16_add_in_place_violated",
    "Verif.C16_add_in_place_panics",
    "Verif.C16_bitwise_add_partial"
   ],
   "note": "growing form proved exact; the in-place form panics on every input"
  },
  {
   "property": "C17",
   "status": "proved",
   "theorems": [
    "Verif.C17_sub_agree"
   ],
   "note": ""
  },
  {
   "property": "C18",
   "status": "proved",
   "theorems": [
    "Verif.C18_bitwise_shifts"
   ],
   "note": ""
  },
  {
   "property": "C19",
   "status": "proved",
   "theorems": [
    "Verif.C19_bitwise_mul"
   ],
   "note": ""
  },
  {
   "property": "C20",
   "status": "partial",
   "theorems": [
    "Verif.C20_bitwise_div_violated",
    "Verif.C20_bitwise_div_limb_violated",
    "Verif.C20_bitwise_div_longer_violated",
    "Verif.C20_bitwise_div_partial",
    "Verif.C20_bitwise_div_exact_partial",
    "Verif.C20_bitwise_div_bits_partial",
    "Verif.lowQuot_unique"
   ],
   "note": "code violates the full claim for divisors above half a limb; proved below that, and the exact set of operands with a right quotient is characterised, as is every bit of the others"
  },
  {
   "property": "C21",
   "status": "partial",
   "theorems": [
    "Verif.C21_element_div_violated",
    "Verif.C21_element_div_hangs_violated",
    "Verif.C21_in_place_violated",
    "Verif.C21_element_div_partial",
    "Verif.C21_element_div_terminates_partial",
    "Verif.C21_element_div_limbwise_partial",
    "Verif.C21_element_div_digits_partial",
    "Verif.C21_element_div_exact_partial",
    "Verif.C21_element_div_longer_violated"
   ],
   "note": "code violates the full claim (wrong results and non-termination); proved when the divisor fits a limb and divides every limb above the lowest; exact termination condition, exact (limb-wise) result for one-limb divisors, and the exact quotient limbs for longer divisors proved"
  },
  {
   "property": "C22",
   "status": "proved",
   "theorems": [
    "Verif.C22_shrink_canonical",
    "Verif.C22_shrink_shortest"
   ],
   "note": ""
  },
  {
   "property": "C23",
   "status": "partial",
   "theorems": [
    "Verif.C23_set_push_violated",
    "Verif.C23_bit_access_partial",
    "Verif.C23_set_push_lost"
   ],
   "note": "all single-bit accessors proved; set_push at or past the end loses the value"
  },
  {
   "property": "C24",
   "status": "partial",
   "theorems": [
    "Verif.C24_len_violated",
    "Verif.C24_len_release_violated",
    "Verif.C24_bit_iter_partial",
    "Verif.C24_len_exact_partial",
    "Verif.C24_len_right_exact_partial"
   ],
   "note": "items proved; len is wrong after the first limb"
  },
  {
   "property": "C25",
   "status": "partial",
   "theorems": [
    "Verif.C25_round_trip_violated",
    "Verif.C25_conversions_partial",
    "Verif.C25_read_exact_partial",
    "Verif.C25_round_trip_exact_partial",
    "Verif.C25_no_limbs_partial"
   ],
   "note": "round trip fails when the array has spare high limbs; everything else proved"
  },
  {
   "property": "C26",
   "status": "proved",
   "theorems": [
    "Verif.C26_ring_ops",
    "Verif.C26_ring_laws"
   ],
   "note": "all N; release `*`; wrapping_add/sub"
  },
  {
   "property": "C27",
   "status": "proved",
   "theorems": [
    "Verif.C27_checked_add_sub"
   ],
   "note": ""
  },
  {
   "property": "C28",
   "status": "partial",
   "theorems": [
    "Verif.C28_checked_mul_partial",
    "Verif.C28_checked_mul_exact_partial",
    "Verif.C28_checked_mul_violated",
    "Verif.C28_checked_mul_two_violated"
   ],
   "note": "code misses overflows: U<1> 16*16 is Some(0); exactness of fitting products and soundness of None proved; exact condition for a reported overflow proved"
  },
  {
   "property": "C29",
   "status": "partial",
   "theorems": [
    "Verif.C29_saturating_partial",
    "Verif.C29_saturating_mul_exact_partial",
    "Verif.C29_saturating_mul_violated"
   ],
   "note": "saturating_mul inherits missed overflows; add/sub proved for all operands"
  },
  {
   "property": "C30",
   "status": "partial",
   "theorems": [
    "Verif.C30_div_partial",
    "Verif.C30_div_one_byte_partial",
    "Verif.C30_div_violated",
    "Verif.C30_div_zero_violated",
    "Verif.C30_div_exact_partial",
    "Verif.C30_div_bits_partial"
   ],
   "note": "divisors above 128 with wider dividend wrong; zero divisor does not panic"
  },
  {
   "property": "C31",
   "status": "partial",
   "theorems": [
    "Verif.C31_order_partial",
    "Verif.C31_order_violated",
    "Verif.C31_order_exact_partial"
   ],
   "note": "exact order proved; comparison is least-significant-byte first; equality and one-byte differences proved"
  },
  {
   "property": "C32",
   "status": "proved",
   "theorems": [
    "Verif.C32_bytes_round_trip",
    "Verif.beVal_reverse"
   ],
   "note": ""
  },
  {
   "property": "C33",
   "status": "proved",
   "theorems": [
    "Verif.C33_bit_ops",
    "Verif.C33_boolean_algebra"
   ],
   "note": ""
  },
  {
   "property": "C34",
   "status": "partial",
   "theorems": [
    "Verif.C34_shifts_exact_partial",
    "Verif.C34_shifts_partial",
    "Verif.C34_shl_release_violated",
    "Verif.C34_shr_violated",
    "Verif.C34_shl_debug_violated"
   ],
   "note": "violated by code in three ways; exact conditions proved"
  },
  {
   "property": "C35",
   "status": "partial",
   "theorems": [
    "Verif.C35_pow_partial",
    "Verif.C35_pow_exact_partial",
    "Verif.C35_pow_violated",
    "Verif.C35_pow_wide_violated"
   ],
   "note": "0^0 = 0 and N >= 9 panics in the code; rest proved for N <= 8; the outcome for every base, exponent, width and profile is characterised exactly"
  },
  {
   "property": "C36",
   "status": "partial",
   "theorems": [
    "Verif.C36_casts_partial",
    "Verif.C36_to_prim_violated",
    "Verif.C36_from_prim_violated",
    "Verif.C36_from_prim_wide_violated"
   ],
   "note": "code panics when sizes differ the wrong way and truncates silently; complete description of the actual behaviour proved"
  },
  {
   "property": "C37",
   "status": "partial",
   "theorems": [
    "Verif.C37_display_partial",
    "Verif.C37_display_violated",
    "Verif.C37_display_exact_partial"
   ],
   "note": "exact outcome for every N proved; U<1> proved for all values; U<2> and larger panic on nonzero values"
  },
  {
   "property": "C38",
   "status": "proved",
   "theorems": [
    "Verif.C38_twos_complement",
    "Verif.C38_exact_when_it_fits"
   ],
   "note": ""
  },
  {
   "property": "C39",
   "status": "partial",
   "theorems": [
    "Verif.C39_order_partial",
    "Verif.C39_order_violated",
    "Verif.C39_order_exact_partial"
   ],
   "note": "exact order proved; same-sign comparison is least-significant-byte first in the code"
  },
  {
   "property": "C40",
   "status": "partial",
   "theorems": [
    "Verif.C40_sign_bounds_partial",
    "Verif.C40_abs_violated"
   ],
   "note": "abs of negative values only clears the sign bit; everything else proved"
  },
  {
   "property": "C41",
   "status": "partial",
   "theorems": [
    "Verif.C41_div_partial",
    "Verif.C41_div_violated",
    "Verif.C41_rem_violated",
    "Verif.C41_div_exact_partial",
    "Verif.C41_div_bits_partial"
   ],
   "note": "exact outcome proved for all operands; negative operands wrong in the code"
  },
  {
   "property": "C56",
   "status": "proved",
   "theorems": [
    "Verif.C56_get_returns_added",
    "Verif.C56_no_panic"
   ],
   "note": "single-threaded; concurrency is C60"
  },
  {
   "property": "C57",
   "status": "proved",
   "theorems": [
    "Verif.C57_refcounts"
   ],
   "note": ""
  },
  {
   "property": "C58",
   "status": "partial",
   "theorems": [
    "Verif.C58_dedup_exact_partial",
    "Verif.C58_dedup_partial",
    "Verif.C58_dedup_violated"
   ],
   "note": "an earlier free slot is taken although the value is live in a later slot"
  },
  {
   "property": "C59",
   "status": "proved",
   "theorems": [
    "Verif.C59_dense_slots"
   ],
   "note": ""
  },
  {
   "property": "C60",
   "status": "partial",
   "theorems": [
    "Verif.C60_concurrent_add_violated",
    "Verif.C60_meet_violated",
    "Verif.C60_alone_partial",
    "Verif.C60_one_writer_partial",
    "Verif.C60_present_values_partial"
   ],
   "note": "two adds race for the same free slot, possibly after every history that leaves one; proved for non-overlapping adds, and linearizable for one writer among threads that use values already present"
  },
  {
   "property": "C61",
   "status": "proved",
   "theorems": [
    "Verif.C61_list_intact",
    "Verif.C61_append_only",
    "Verif.C61_push_lands",
    "Verif.C61_get_none"
   ],
   "note": "sequentially consistent interleavings of any number of threads; no weak memory"
  },
  {
   "property": "C62",
   "status": "partial",
   "theorems": [
    "Verif.C62_push_length_violated",
    "Verif.C62_push_length_partial",
    "Verif.C62_counted_partial"
   ],
   "note": "the loser of an exchange returns a stale length; exact offset proved, and that the result is one more than the length of the list when the push saw its end"
  },
  {
   "property": "C42",
   "status": "proved",
   "theorems": [
    "Verif.C42_mul_exact",
    "Verif.C42_canonical"
   ],
   "note": ""
  },
  {
   "property": "C43",
   "status": "partial",
   "theorems": [
    "Verif.C43_add_violated",
    "Verif.C43_sub_violated",
    "Verif.C43_add_partial",
    "Verif.C43_sub_partial"
   ],
   "note": "even results with a borrow are off by two in the code; all other operands proved"
  },
  {
   "property": "C44",
   "status": "partial",
   "theorems": [
    "Verif.C44_rem_sign_violated",
    "Verif.C44_div_zero_violated",
    "Verif.C44_div_large_violated",
    "Verif.C44_div_longer_violated",
    "Verif.C44_div_rem_partial",
    "Verif.C44_div_exact_partial",
    "Verif.C44_div_bits_partial"
   ],
   "note": "code violates the full claim in four ways; proved for divisors up to 2^63 in magnitude"
  },
  {
   "property": "C45",
   "status": "partial",
   "theorems": [
    "Verif.C45_shr_violated",
    "Verif.C45_shl_neg_zero_violated",
    "Verif.C45_shl_partial",
    "Verif.C45_shr_partial",
    "Verif.C45_shift_exact_partial"
   ],
   "note": "debug `>>` by 64 or more panics; `<<` proved for every canonical amount"
  },
  {
   "property": "C46",
   "status": "partial",
   "theorems": [
    "Verif.C46_eq_violated",
    "Verif.C46_eq_partial",
    "Verif.C46_eq_words_partial"
   ],
   "note": "negative zero differs from zero; proved for canonical values"
  },
  {
   "property": "C47",
   "status": "partial",
   "theorems": [
    "Verif.C47_cmp_violated",
    "Verif.C47_cmp_partial",
    "Verif.C47_cmp_consistent_partial",
    "Verif.C47_cmp_words_partial",
    "Verif.C47_cmp_exact_partial"
   ],
   "note": "exact order proved; comparison is least-significant-limb first in the code"
  },
  {
   "property": "C48",
   "status": "partial",
   "theorems": [
    "Verif.C48_neg_zero_violated",
    "Verif.C48_neg_partial"
   ],
   "note": "negating zero gives a negative zero; everything else proved"
  },
  {
   "property": "C49",
   "status": "partial",
   "theorems": [
    "Verif.C49_from",
    "Verif.C49_try_into_unsigned",
    "Verif.C49_try_into_signed_violated",
    "Verif.C49_try_into_min_violated",
    "Verif.C49_try_into_i128_violated",
    "Verif.C49_saturate_signed_violated",
    "Verif.C49_try_into_signed_partial",
    "Verif.C49_negative_partial",
    "Verif.C49_i128_exact_partial",
    "Verif.C49_signed_exact_partial",
    "Verif.C49_try_into_neg_zero_violated",
    "Verif.C49_neg_zero_exact_partial"
   ],
   "note": "conversion from primitives proved, and to unsigned types but for negative zero, which is refused; the code loses the sign for signed targets"
  },
  {
   "property": "C50",
   "status": "partial",
   "theorems": [
    "Verif.C50_eq_unsigned_violated",
    "Verif.C50_eq_min_violated",
    "Verif.C50_eq_neg_zero_violated",
    "Verif.C50_eq_partial",
    "Verif.C50_eq_exact_partial"
   ],
   "note": "the code ignores the sign against unsigned types and panics on MIN in debug builds"
  },
  {
   "property": "C51",
   "status": "partial",
   "theorems": [
    "Verif.C51_display_violated",
    "Verif.C51_print_partial",
    "Verif.C51_parse",
    "Verif.C51_round_trip_partial",
    "Verif.C51_print_exact_partial"
   ],
   "note": "negative values print as -0; printing of nonnegative values, parsing and round trip proved"
  },
  {
   "property": "C52",
   "status": "proved",
   "theorems": [
    "Verif.C52_parse_errors",
    "Verif.C52_split"
   ],
   "note": ""
  },
  {
   "property": "C53",
   "status": "partial",
   "theorems": [
    "Verif.C53_pow_neg_zero_violated",
    "Verif.C53_pow_partial",
    "Verif.C53_pow_exact_partial"
   ],
   "note": "wrong only for the exponent negative zero"
  },
  {
   "property": "C54",
   "status": "partial",
   "theorems": [
    "Verif.C54_bit_ops_neg_zero_violated",
    "Verif.C54_bit_ops_partial",
    "Verif.C54_bit_ops_exact_partial"
   ],
   "note": "wrong only for a negative-zero left operand"
  },
  {
   "property": "C55",
   "status": "proved",
   "theorems": [
    "Verif.C55_readable",
    "Verif.C55_stable",
    "Verif.C55_clone",
    "Verif.C55_drop",
    "Verif.C55_neg",
    "Verif.C55_ops"
   ],
   "note": "single-threaded; fewer than 2^64 - 1 BigInts alive"
  },
  {
   "property": "C70",
   "status": "partial",
   "theorems": [
    "Verif.C70_gcd_sign_violated",
    "Verif.C70_gcd_panic_violated",
    "Verif.C70_gcd_partial",
    "Verif.C70_gcd_exact_partial"
   ],
   "note": "the code returns negative gcds and panics on (MIN, -1); proved up to sign, and fully for unsigned types"
  },
  {
   "property": "C71",
   "status": "partial",
   "theorems": [
    "Verif.C71_saturating_violated",
    "Verif.C71_saturating_partial",
    "Verif.C71_saturating_exact_partial",
    "Verif.C71_saturating_16_partial",
    "Verif.C71_every_pair_partial"
   ],
   "note": "isize to narrower signed types truncates, and to i8 there is no cast; all other pairs proved for every pointer width"
  },
  {
   "property": "C72",
   "status": "proved",
   "theorems": [
    "Verif.C72_checked",
    "Verif.C72_truncating"
   ],
   "note": ""
  },
  {
   "property": "C73",
   "status": "partial",
   "theorems": [
    "Verif.C73_wrapping_add_violated",
    "Verif.C73_wrapping_add_partial"
   ],
   "note": "the code subtracts"
  },
  {
   "property": "C74",
   "status": "proved",
   "theorems": [
    "Verif.C74_factorial"
   ],
   "note": ""
  },
  {
   "property": "C75",
   "status": "partial",
   "theorems": [
    "Verif.C75_is_one_violated",
    "Verif.C75_is_one_partial"
   ],
   "note": "the code accepts every value"
  },
  {
   "property": "C87",
   "status": "partial",
   "theorems": [
    "Verif.C87_pow_violated",
    "Verif.C87_pow_partial",
    "Verif.C87_pow_exact_partial",
    "Verif.C87_pow_release_exact_partial"
   ],
   "note": "wrong only for base 0 with exponents that are multiples of 2^32"
  },
  {
   "property": "C88",
   "status": "partial",
   "theorems": [
    "Verif.C88_checked_shift_violated",
    "Verif.C88_checked_shift_partial",
    "Verif.C88_checked_shift_exact_partial"
   ],
   "note": "amounts are cut to 32 bits; proved for amounts below 2^32 in magnitude"
  },
  {
   "property": "C89",
   "status": "proved",
   "theorems": [
    "Verif.C89_wrapping",
    "Verif.C89_checked"
   ],
   "note": ""
  },
  {
   "property": "C63",
   "status": "proved",
   "theorems": [
    "Verif.C63_exact",
    "Verif.C63_order",
    "Verif.C63_out_of_range"
   ],
   "note": ""
  },
  {
   "property": "C64",
   "status": "partial",
   "theorems": [
    "Verif.C64_mul_violated",
    "Verif.C64_one_violated",
    "Verif.C64_mul_partial",
    "Verif.C64_mul_exact_partial"
   ],
   "note": "the code multiplies raw values without rescaling; exact scale error proved, right for N = 0"
  },
  {
   "property": "C65",
   "status": "partial",
   "theorems": [
    "Verif.C65_ceil_violated",
    "Verif.C65_floor",
    "Verif.C65_trunc_fract",
    "Verif.C65_ceil_partial",
    "Verif.C65_is_whole_partial",
    "Verif.C65_ceil_exact_partial",
    "Verif.C65_wide_exact_partial"
   ],
   "note": "floor, trunc, fract proved; ceil when 1 is representable, debug builds of the code panic otherwise"
  },
  {
   "property": "C66",
   "status": "partial",
   "theorems": [
    "Verif.C66_round_violated",
    "Verif.C66_round_partial",
    "Verif.C66_round_exact_partial"
   ],
   "note": "the code always rounds up"
  },
  {
   "property": "C67",
   "status": "partial",
   "theorems": [
    "Verif.C67_new_violated",
    "Verif.C67_new_partial",
    "Verif.C67_debug_exact",
    "Verif.C67_no_overflow_partial",
    "Verif.C67_new_exact_partial",
    "Verif.C67_release_exact_partial",
    "Verif.C67_debug_exact_partial"
   ],
   "note": "exact whenever a result is returned; some fractions with MIN panic; what happens on overflow is characterised in both builds"
  },
  {
   "property": "C68",
   "status": "partial",
   "theorems": [
    "Verif.C68_eq_violated",
    "Verif.C68_eq_partial",
    "Verif.C68_stored_exact_partial",
    "Verif.C68_eq_exact_partial"
   ],
   "note": "fractions in which one part divides the other are not reduced, signs not canonical"
  },
  {
   "property": "C69",
   "status": "partial",
   "theorems": [
    "Verif.C69_real_violated",
    "Verif.C69_floor_partial",
    "Verif.C69_ceil_partial",
    "Verif.C69_round_partial",
    "Verif.C69_floor_exact_partial",
    "Verif.C69_ceil_exact_partial",
    "Verif.C69_ceil_release_exact_partial",
    "Verif.C69_round_exact_partial"
   ],
   "note": "wrong for negative numbers, ceil also for integers"
  },
  {
   "property": "C90",
   "status": "proved",
   "theorems": [
    "Verif.C90_rem"
   ],
   "note": ""
  },
  {
   "property": "C85",
   "status": "proved",
   "theorems": [
    "Verif.C85_collect",
    "Verif.C85_pointwise",
    "Verif.C85_zip_map",
    "Verif.C85_zip_all",
    "Verif.C85_fold",
    "Verif.C85_any_all",
    "Verif.C85_any_all_pure",
    "Verif.C85_polls"
   ],
   "note": "closures that panic are in C156"
  },
  {
   "property": "C86",
   "status": "proved",
   "theorems": [
    "Verif.C86_collect",
    "Verif.C86_first_failure",
    "Verif.C86_one_layer"
   ],
   "note": "any nesting of Option and Result"
  },
  {
   "property": "C91",
   "status": "partial",
   "theorems": [
    "Verif.C91_leak_violated",
    "Verif.C91_moved_once_partial",
    "Verif.StaticIter.C91_leak_exact_partial"
   ],
   "note": "elements behind the first failure are leaked by the code; complete collections proved"
  },
  {
   "property": "C76",
   "status": "proved",
   "theorems": [
    "Verif.Complex.C76_ring",
    "Verif.Complex.C76_complex",
    "Verif.Complex.C76_scalar",
    "Verif.Complex.C76_abs_squared",
    "Verif.Complex.C76_identities",
    "Verif.Complex.C76_abs_squared_pos",
    "Verif.Complex.C76_div"
   ],
   "note": "over exact component types"
  },
  {
   "property": "C77",
   "status": "proved",
   "theorems": [
    "Verif.Vect.C77_ops",
    "Verif.Vect.C77_ops_ref",
    "Verif.Vect.C77_assign",
    "Verif.Vect.C77_scalar",
    "Verif.Vect.C77_checked",
    "Verif.Vect.C77_others"
   ],
   "note": "over total component arithmetic"
  },
  {
   "property": "C78",
   "status": "proved",
   "theorems": [
    "Verif.Vect.C78_dot",
    "Verif.Vect.C78_dot_bilinear",
    "Verif.Vect.C78_cross",
    "Verif.Vect.C78_distance",
    "Verif.Vect.C78_distance_zero"
   ],
   "note": "over exact component types"
  },
  {
   "property": "C79",
   "status": "proved",
   "theorems": [
    "Verif.C79_ops",
    "Verif.C79_mul",
    "Verif.C79_identities",
    "Verif.C79_mul_assoc",
    "Verif.C79_mul_laws",
    "Verif.C79_add_mul",
    "Verif.C79_transpose",
    "Verif.C79_is_zero_one",
    "Verif.C79_mul_empty"
   ],
   "note": ""
  },
  {
   "property": "C80",
   "status": "proved",
   "theorems": [
    "Verif.C80_determinant",
    "Verif.C80_leibniz"
   ],
   "note": ""
  },
  {
   "property": "C81",
   "status": "partial",
   "theorems": [
    "Verif.C81_square_partial",
    "Verif.C81_solutions",
    "Verif.C81_dyn_square_partial",
    "Verif.C81_wide_violated",
    "Verif.C81_tall_violated",
    "Verif.C81_dyn_violated",
    "Verif.C81_rect_exact_partial",
    "Verif.C81_dyn_wide_exact_partial",
    "Verif.C81_dyn_tall_partial",
    "Verif.C81_dyn_tall_violated",
    "Verif.C81_dyn_column_exact_partial"
   ],
   "note": "the code exchanges the numbers of rows and columns; proved for square matrices"
  },
  {
   "property": "C82",
   "status": "partial",
   "theorems": [
    "Verif.C82_new",
    "Verif.C82_new_violated",
    "Verif.C82_index",
    "Verif.C82_write",
    "Verif.C82_row_out_of_range_partial",
    "Verif.C82_column_violated",
    "Verif.C82_swap_rows",
    "Verif.C82_of_array",
    "Verif.C82_index_exact_partial",
    "Verif.C82_carry_exact_partial",
    "Verif.C82_write_exact_partial",
    "Verif.C82_swap_out_of_range_partial",
    "Verif.C82_swap_out_of_range_violated"
   ],
   "note": "column indices out of range read other rows, and new and swap_rows overflow in release builds"
  },
  {
   "property": "C83",
   "status": "partial",
   "theorems": [
    "Verif.C83_views",
    "Verif.C83_index_partial",
    "Verif.C83_index_violated",
    "Verif.C83_column_violated",
    "Verif.C83_assign",
    "Verif.C83_index_exact_partial",
    "Verif.C83_panics_exact_partial"
   ],
   "note": "the code accepts a row index equal to the number of rows, and reads out of bounds"
  },
  {
   "property": "C84",
   "status": "proved",
   "theorems": [
    "Verif.BiVec.C84_choose",
    "Verif.BiVec.C84_choose_checked",
    "Verif.BiVec.C84_wedge",
    "Verif.BiVec.C84_antisymmetric"
   ],
   "note": ""
  },
  {
   "property": "C92",
   "status": "proved",
   "theorems": [
    "Verif.C92_bit_ops",
    "Verif.C92_boolean_algebra",
    "Verif.C92_not_unique"
   ],
   "note": ""
  },
  {
   "property": "C93",
   "status": "proved",
   "theorems": [
    "Verif.C93_unsigned",
    "Verif.C93_signed"
   ],
   "note": ""
  },
  {
   "property": "C94",
   "status": "partial",
   "theorems": [
    "Verif.C94_truncate_unsigned_violated",
    "Verif.C94_truncate_negative_violated",
    "Verif.C94_truncate_signed_violated",
    "Verif.C94_truncate_i128_min_violated",
    "Verif.C94_truncate_unsigned_partial",
    "Verif.C94_truncate_signed_partial",
    "Verif.C94_truncate_i128_partial"
   ],
   "note": "the code clamps magnitudes instead of truncating; exact description proved, right for values in range but MIN"
  },
  {
   "property": "C95",
   "status": "partial",
   "theorems": [
    "Verif.C95_cmp_violated",
    "Verif.C95_cmp_signed_violated",
    "Verif.C95_eq_cmp_violated",
    "Verif.C95_cmp_unsigned_partial",
    "Verif.C95_cmp_signed_partial",
    "Verif.C95_eq_cmp_partial",
    "Verif.C95_cmp_exact_partial",
    "Verif.C95_neg_zero_violated",
    "Verif.C95_neg_zero_exact_partial"
   ],
   "note": "wrong when both numbers have two limbs (128-bit types); == with unsigned types ignores the sign; negative zero compares below 0"
  },
  {
   "property": "C96",
   "status": "partial",
   "theorems": [
    "Verif.C96_binary_neg_zero_violated",
    "Verif.C96_binary_partial",
    "Verif.C96_binary_exact_partial"
   ],
   "note": "wrong only for negative zero, which prints a minus sign"
  },
  {
   "property": "C97",
   "status": "partial",
   "theorems": [
    "Verif.C97_not_violated",
    "Verif.C97_not_not_violated",
    "Verif.C97_not_partial",
    "Verif.C97_not_not_exact_partial",
    "Verif.C97_neg_zero_exact_partial"
   ],
   "note": "the code complements the limbs of the magnitude; exact description proved"
  },
  {
   "property": "C98",
   "status": "partial",
   "theorems": [
    "Verif.C98_zero_violated",
    "Verif.C98_rat_sign_violated",
    "Verif.C98_prim_partial",
    "Verif.C98_fixed_partial",
    "Verif.C98_rat_partial",
    "Verif.C98_nonzero",
    "Verif.C98_signs_exact_partial"
   ],
   "note": "0.is_positive() is false in the code; fractions with negative denominators have the wrong sign"
  },
  {
   "property": "C99",
   "status": "partial",
   "theorems": [
    "Verif.C99_rat_one_violated",
    "Verif.C99_fixed_one_violated",
    "Verif.C99_fixed_partial",
    "Verif.C99_rat_partial",
    "Verif.C99_one_exact_partial"
   ],
   "note": "2/2 is not one; one() of Fixed is -1 when all bits but the sign are fractional"
  },
  {
   "property": "C100",
   "status": "proved",
   "theorems": [
    "Verif.C100_prim",
    "Verif.C100_fixed",
    "Verif.C100_rat"
   ],
   "note": ""
  },
  {
   "property": "C101",
   "status": "proved",
   "theorems": [
    "Verif.C101_overflowing",
    "Verif.C101_zero_counts"
   ],
   "note": ""
  },
  {
   "property": "C102",
   "status": "partial",
   "theorems": [
    "Verif.C102_queries_partial",
    "Verif.C102_neg_violated",
    "Verif.C102_neg_partial",
    "Verif.C102_neg_exact_partial"
   ],
   "note": "neg flips the sign bit only: it exchanges zero and NaR and negates only 1 and -1; queries proved"
  },
  {
   "property": "C103",
   "status": "proved",
   "theorems": [
    "Verif.C103_eq"
   ],
   "note": ""
  },
  {
   "property": "C104",
   "status": "proved",
   "theorems": [
    "Verif.C104_bytes"
   ],
   "note": ""
  },
  {
   "property": "C105",
   "status": "partial",
   "theorems": [
    "Verif.C105_debug_violated",
    "Verif.C105_debug_partial",
    "Verif.C105_debug_exact_partial"
   ],
   "note": "zero, negative numbers and positive numbers below 1/10 print wrongly, and 10^N may overflow; exact description proved"
  },
  {
   "property": "C106",
   "status": "partial",
   "theorems": [
    "Verif.C106_binary_violated",
    "Verif.C106_binary_partial",
    "Verif.C106_binary_exact_partial"
   ],
   "note": "right only without fractional bits, for 0 and for numbers in [1/2, 1); exact condition and exact text proved"
  },
  {
   "property": "C107",
   "status": "partial",
   "theorems": [
    "Verif.C107_sign_violated",
    "Verif.C107_nan_violated",
    "Verif.C107_approx_partial",
    "Verif.C107_huge_partial"
   ],
   "note": "the sign is lost, and from 2^1088 on a zero limb gives NaN; error bound and exact condition for NaN proved for the absolute value"
  },
  {
   "property": "C108",
   "status": "proved",
   "theorems": [
    "Verif.C108_iter",
    "Verif.C108_iter_end",
    "Verif.C108_len",
    "Verif.C108_is_empty"
   ],
   "note": "atomic steps under sequential consistency"
  },
  {
   "property": "C109",
   "status": "proved",
   "theorems": [
    "Verif.C109_drop"
   ],
   "note": "atomic steps under sequential consistency"
  },
  {
   "property": "C110",
   "status": "partial",
   "theorems": [
    "Verif.C110_add_violated",
    "Verif.C110_rem_violated",
    "Verif.C110_mixed_partial",
    "Verif.C110_mixed_exact_partial"
   ],
   "note": "inherits the wrong sums of C43 and the wrong sign of remainders by negative numbers of C44"
  },
  {
   "property": "C111",
   "status": "proved",
   "theorems": [
    "Verif.C111_mul_laws"
   ],
   "note": ""
  },
  {
   "property": "C112",
   "status": "partial",
   "theorems": [
    "Verif.C112_add_comm_violated",
    "Verif.C112_sub_add_violated",
    "Verif.C112_zero_add_violated",
    "Verif.C112_add_laws_partial",
    "Verif.C112_add_laws_exact_partial",
    "Verif.C112_sub_add_exact_partial",
    "Verif.C112_add_flags_exact_partial"
   ],
   "note": "sums of numbers of different sign may be wrong (C43): not commutative, zero on the left not neutral; proved for one sign"
  },
  {
   "property": "C113",
   "status": "proved",
   "theorems": [
    "Verif.C113_slice_order",
    "Verif.C113_u_order",
    "Verif.C113_i_order",
    "Verif.C113_big_int_order",
    "Verif.C113_fixed_order"
   ],
   "note": ""
  },
  {
   "property": "C114",
   "status": "proved",
   "theorems": [
    "Verif.Vect.C114_index",
    "Verif.Vect.C114_names",
    "Verif.Vect.C114_rebuild",
    "Verif.Vect.C114_default"
   ],
   "note": ""
  },
  {
   "property": "C115",
   "status": "proved",
   "theorems": [
    "Verif.C115_det_mul",
    "Verif.C115_det_rows"
   ],
   "note": ""
  },
  {
   "property": "C116",
   "status": "partial",
   "theorems": [
    "Verif.C116_slices",
    "Verif.C116_fixed_width_partial",
    "Verif.C116_big_int",
    "Verif.C116_interner",
    "Verif.C116_prim_fixed",
    "Verif.C116_rational",
    "Verif.C116_matrices",
    "Verif.C116_u_shift_violated",
    "Verif.C116_u_shifts_exact_partial"
   ],
   "note": "violated by << and >> of U<N> only, for which the exact condition is proved; all other operations proved"
  },
  {
   "property": "C117",
   "status": "proved",
   "theorems": [
    "Verif.BInt.C117_stored",
    "Verif.BInt.C117_equal"
   ],
   "note": ""
  },
  {
   "property": "C118",
   "status": "proved",
   "theorems": [
    "Verif.C118_wrapping",
    "Verif.C118_identities",
    "Verif.C118_exact",
    "Verif.C118_sums",
    "Verif.C118_signed"
   ],
   "note": "detection of overflow in products is C28"
  },
  {
   "property": "C119",
   "status": "partial",
   "theorems": [
    "Verif.BInt.C119_violated",
    "Verif.BInt.C119_sums_products_partial",
    "Verif.BInt.C119_exact_partial",
    "Verif.BInt.C119_division_region_partial"
   ],
   "note": "violated as single operations are (C43-C45, C48); exact for sums and products of nonnegative numbers, and for all expressions each of whose operations stays in its exact region"
  },
  {
   "property": "C120",
   "status": "proved",
   "theorems": [
    "Verif.C120_digits",
    "Verif.C120_round_trip",
    "Verif.C120_agrees"
   ],
   "note": "the core library functions forwarded to are modelled by their documentation"
  },
  {
   "property": "C121",
   "status": "proved",
   "theorems": [
    "Verif.Prim.C121_identities"
   ],
   "note": ""
  },
  {
   "property": "C122",
   "status": "partial",
   "theorems": [
    "Verif.C122_violated"
   ],
   "note": "violated by all operands: order, sum and difference are todo!() and panic; nothing remains to be proved of it, equality is C103"
  },
  {
   "property": "C123",
   "status": "proved",
   "theorems": [
    "Verif.C123_fixed",
    "Verif.C123_vector_ops",
    "Verif.C123_dot",
    "Verif.C123_sum",
    "Verif.C123_cross",
    "Verif.C123_complex",
    "Verif.C123_matrix_mul",
    "Verif.C123_matrix_add",
    "Verif.C123_one"
   ],
   "note": ""
  },
  {
   "property": "C124",
   "status": "proved",
   "theorems": [
    "Verif.C124_interner",
    "Verif.C124_big_int",
    "Verif.C124_no_leak"
   ],
   "note": "memory is counted in chunks of the store; freeing by the allocator is not modelled"
  },
  {
   "property": "C125",
   "status": "proved",
   "theorems": [
    "Verif.RatM.C125_rat_debug",
    "Verif.RatM.C125_rat_release",
    "Verif.RatM.C125_rat_total",
    "Verif.RatM.C125_rat_ends",
    "Verif.Fixed.C125_fixed_debug",
    "Verif.Fixed.C125_fixed_release",
    "Verif.Fixed.C125_fixed_total",
    "Verif.Fixed.C125_fixed_ends",
    "Verif.Fixed.C125_fixed_wrapping"
   ],
   "note": "abs of Rat and * and / of Fixed are left out, they are not exact (C98, C64)"
  },
  {
   "property": "C126",
   "status": "proved",
   "theorems": [
    "Verif.C126_dot",
    "Verif.C126_sum",
    "Verif.C126_matrix_mul",
    "Verif.C126_cross",
    "Verif.C126_complex_mul",
    "Verif.C126_abs_squared",
    "Verif.C126_det2",
    "Verif.C126_product",
    "Verif.C126_wedge",
    "Verif.f32_ok",
    "Verif.f64_ok"
   ],
   "note": "the sign of zero is not modelled, no statement depends on it (C191)"
  },
  {
   "property": "C127",
   "status": "proved",
   "theorems": [
    "Verif.C127_dot",
    "Verif.C127_sum",
    "Verif.C127_matrix_mul",
    "Verif.C127_cross",
    "Verif.C127_complex_mul",
    "Verif.C127_abs_squared",
    "Verif.C127_det2",
    "Verif.C127_wedge"
   ],
   "note": ""
  },
  {
   "property": "C128",
   "status": "partial",
   "theorems": [
    "Verif.C128_complex_div_partial",
    "Verif.C128_scalar_div_partial",
    "Verif.C128_scalar_range_exact_partial",
    "Verif.C128_complex_range_partial",
    "Verif.C128_complex_under_partial",
    "Verif.C128_scalar_under_partial",
    "Verif.C128_violated"
   ],
   "note": "the square of the divisor overflows or underflows: NaN, 0 or infinity for representable quotients; accurate otherwise; if the square of the divisor overflows or vanishes, division by a real number is characterised exactly, and by a complex number always gives 0 or NaN, respectively infinities or NaN; in between, where products underflow gradually, an error bound that grows with the underflow relative to the square of the divisor"
  },
  {
   "property": "C129",
   "status": "partial",
   "theorems": [
    "Verif.C129_triangular_partial",
    "Verif.C129_error_partial",
    "Verif.C129_violated",
    "Verif.C129_violated_integers"
   ],
   "note": "elimination pivots on the smallest entry; proved for triangular matrices, two rows are C126 and C127; for all others an error bound in terms of the magnitudes of the computed factors, which small pivots make large"
  },
  {
   "property": "C130",
   "status": "partial",
   "theorems": [
    "Verif.C130_to_float_partial",
    "Verif.C130_ties",
    "Verif.C130_range",
    "Verif.C130_exact",
    "Verif.C130_u128_f32_exact_partial",
    "Verif.C130_to_int_exact_partial",
    "Verif.C130_violated"
   ],
   "note": "u128 to f32 overflows to infinity near the top, floats to integers are truncated; both characterised exactly"
  },
  {
   "property": "C131",
   "status": "partial",
   "theorems": [
    "Verif.C131_queries",
    "Verif.C131_bounds",
    "Verif.C131_min_positive_exact_partial",
    "Verif.C131_violated"
   ],
   "note": "min_positive and max_negative ignore subnormals"
  },
  {
   "property": "C132",
   "status": "partial",
   "theorems": [
    "Verif.C132_float",
    "Verif.C132_special",
    "Verif.C132_round_ties",
    "Verif.C132_float_partial",
    "Verif.C132_fixed_partial",
    "Verif.C132_float_exact_partial",
    "Verif.C132_fixed_exact_partial",
    "Verif.C132_rat_partial",
    "Verif.C132_violated"
   ],
   "note": "floats and Fixed contradict the documentation for negative numbers, as their floor and Rat's contradict each other"
  },
  {
   "property": "C133",
   "status": "partial",
   "theorems": [
    "Verif.C133_concurrent_drop_violated",
    "Verif.C60_meet_violated",
    "Verif.C133_push_violated",
    "Verif.C133_one_adder_partial",
    "Verif.C133_apart_partial",
    "Verif.C133_push_partial"
   ],
   "note": "adding a value that another thread drops may yield a third thread's value; whenever all slots are in use, two threads that add new values may get one id though they are never at a slot at the same time, because push may return a stale length; proved for any number of threads inside add as long as no two are at the same slot at the same time, unless both have found their value there, and no two push a chunk at the same time"
  },
  {
   "property": "C134",
   "status": "proved",
   "theorems": [
    "Verif.RatM.C134_vector_ops",
    "Verif.RatM.C134_dot",
    "Verif.RatM.C134_sum",
    "Verif.RatM.C134_product",
    "Verif.RatM.C134_cross",
    "Verif.RatM.C134_complex",
    "Verif.RatM.C134_matrix_mul",
    "Verif.RatM.C134_matrix_add",
    "Verif.RatM.C134_dot_total",
    "Verif.RatM.C134_matrix_total"
   ],
   "note": ""
  },
  {
   "property": "C135",
   "status": "proved",
   "theorems": [
    "Verif.C135_unsigned_matrix",
    "Verif.C135_signed_matrix",
    "Verif.C135_unsigned_complex",
    "Verif.C135_signed_complex",
    "Verif.C135_matrix_exact",
    "Verif.C135_complex_exact",
    "Verif.C135_vector_ops",
    "Verif.C135_identity"
   ],
   "note": "whether debug builds detect overflow of U<N> products is C28"
  },
  {
   "property": "C136",
   "status": "partial",
   "theorems": [
    "Verif.BInt.C136_violated",
    "Verif.BInt.C136_matrix_exact_partial",
    "Verif.BInt.C136_matrix_partial",
    "Verif.BInt.C136_complex_partial",
    "Verif.BInt.C136_complex_flags_exact_partial",
    "Verif.BInt.C136_vector_ops",
    "Verif.BInt.C136_identity_violated"
   ],
   "note": "inherits the wrong sums and differences of C43; always returned and canonical, each entry is given exactly (the products added up with the sums of C43), off by an even number of at most two per addition, exact under a condition on each addition; negative zeros included"
  },
  {
   "property": "C137",
   "status": "partial",
   "theorems": [
    "Verif.C137_violated"
   ],
   "note": "violated by all operands: todo!() in the code"
  },
  {
   "property": "C138",
   "status": "partial",
   "theorems": [
    "Verif.C138_rat_violated",
    "Verif.C138_fixed_violated",
    "Verif.C138_distance_violated",
    "Verif.C138_complex_abs_violated",
    "Verif.C138_distance_partial"
   ],
   "note": "violated by all operands: todo!() in the code; only distances of vectors without components are computed"
  },
  {
   "property": "C139",
   "status": "partial",
   "theorems": [
    "Verif.Fixed.C139_violated",
    "Verif.Fixed.C139_sum",
    "Verif.Fixed.C139_dot_partial",
    "Verif.Fixed.C139_matrix_partial",
    "Verif.Fixed.C139_matrix_add",
    "Verif.Fixed.C139_complex_partial",
    "Verif.Fixed.C139_product_partial"
   ],
   "note": "products of Fixed are not rescaled (C64): results that multiply once are 2^N times too large, otherwise exact, with exact conditions for the panics"
  },
  {
   "property": "C140",
   "status": "partial",
   "theorems": [
    "Verif.C140_sqrt",
    "Verif.C140_sqrt_special",
    "Verif.C140_abs_partial",
    "Verif.C140_exact",
    "Verif.C140_range_exact_partial",
    "Verif.C140_abs_error_partial",
    "Verif.C140_violated"
   ],
   "note": "the square of the absolute value must neither overflow nor underflow; proved exactly when the result is infinite or 0, and an error bound for all finite results, in which underflow adds a small absolute error"
  },
  {
   "property": "C141",
   "status": "partial",
   "theorems": [
    "Verif.C141_one_partial",
    "Verif.C141_floor_partial",
    "Verif.C141_ceil_partial",
    "Verif.C141_fract_partial",
    "Verif.C141_fract_exact_partial",
    "Verif.C141_fract_bits_partial",
    "Verif.C141_round_partial",
    "Verif.C141_add_sub",
    "Verif.C141_release_exact_partial",
    "Verif.C141_round_small_exact_partial",
    "Verif.C141_round_wide_exact_partial",
    "Verif.C141_round_bits_partial",
    "Verif.C141_ceil_release_partial",
    "Verif.C141_add_sub_release",
    "Verif.C141_trunc_exact_partial",
    "Verif.C141_release_reduced_partial",
    "Verif.C141_round_top_violated",
    "Verif.C141_fract_violated",
    "Verif.C141_one_violated",
    "Verif.C141_round_violated",
    "Verif.C141_cmp_violated",
    "Verif.FixedOf.prim"
   ],
   "note": "every function is characterised for every N: fract and trunc are right up to 7 fractional bits (then the remainder is wrong by a whole number), round is ceil up to 6 fractional bits, nearly always floor from 7, and panics or is floor with all bits fractional, comparison is by the lowest byte, release builds reduce N modulo a power of two"
  },
  {
   "property": "C142",
   "status": "partial",
   "theorems": [
    "Verif.C142_violated",
    "Verif.C142_add_sub_partial"
   ],
   "note": "shifts of I<M> are todo!(): everything except sums and differences panics"
  },
  {
   "property": "C143",
   "status": "partial",
   "theorems": [
    "Verif.BInt.C143_one",
    "Verif.BInt.C143_floor_partial",
    "Verif.BInt.C143_trunc_fract_partial",
    "Verif.BInt.C143_ceil_exact_partial",
    "Verif.BInt.C143_round_exact_partial",
    "Verif.BInt.C143_add_sub_partial",
    "Verif.BInt.C143_fract_wide_exact_partial",
    "Verif.BInt.C143_round_wide_exact_partial",
    "Verif.BInt.C143_fract_bits_partial",
    "Verif.BInt.C143_round_bits_partial",
    "Verif.BInt.C143_wide_debug_violated",
    "Verif.BInt.C143_floor_violated",
    "Verif.BInt.C143_wide_violated",
    "Verif.BInt.C143_ceil_violated",
    "Verif.BInt.C143_round_violated",
    "Verif.BInt.C143_sub_violated",
    "Verif.BInt.C143_fract_violated"
   ],
   "note": "with fewer than 64 fractional bits everything is characterised exactly: floor truncates, ceil adds one to large whole numbers and to negative zero, round rounds away; with 64 or more, in debug builds floor, ceil and round panic, in release builds floor and ceil are as before; fract, trunc and round panic for numbers with fewer limbs than one, otherwise fract is right modulo the number one in magnitude (exactly: the remainder of the broken division) and round is floor or ceil (exact condition proved); sums are exact iff stated"
  },
  {
   "property": "C144",
   "status": "partial",
   "theorems": [
    "Verif.C144_violated",
    "Verif.C144_two_partial",
    "Verif.C144_three_partial",
    "Verif.C144_rows_partial",
    "Verif.C144_nan",
    "Verif.C144_two_exact_partial"
   ],
   "note": "a finite 3 by 3 matrix on which elimination computes a NaN and the pivot search panics; proved for up to two rows (there exactly, also with NaN), and for three rows if the nonzero magnitudes are between 2^q and 2^p with p-q <= emax and 2p-q < emax, and for any number of rows if the magnitudes leave room for all but the last two pivots, e.g. up to five rows of integers below 2^53 in f64"
  },
  {
   "property": "C145",
   "status": "partial",
   "theorems": [
    "Verif.powfOk_exists",
    "Verif.C145_root_partial",
    "Verif.C145_cbrt_partial",
    "Verif.C145_negative_violated",
    "Verif.C145_precision_violated"
   ],
   "note": "roots of negative numbers are NaN, and rounding 1/3 costs up to 149 or 1074 units; proved with that bound for nonnegative numbers, powf being a parameter of given accuracy"
  },
  {
   "property": "C146",
   "status": "proved",
   "theorems": [
    "Verif.C146_reciprocal"
   ],
   "note": "sin, cos and tan are parameters"
  },
  {
   "property": "C147",
   "status": "proved",
   "theorems": [
    "Verif.C147_sample",
    "Verif.C147_signed",
    "Verif.C147_fill"
   ],
   "note": "uniformity relative to the words the generator returns; the array distribution and fill of rand 0.9 are modelled by their documentation"
  },
  {
   "property": "C148",
   "status": "partial",
   "theorems": [
    "Verif.C148_violated",
    "Verif.C148_one_adder_partial",
    "Verif.C148_apart_partial",
    "Verif.C148_push_partial"
   ],
   "note": "two threads storing numbers of two limbs in lockstep get the same number; proved for all interleavings in which no two threads inside the store's add are at the same slot, unless both have found their limbs there, and no two push a chunk at the same time; sequentially consistent atomics"
  },
  {
   "property": "C149",
   "status": "proved",
   "theorems": [
    "Verif.C149_index",
    "Verif.C149_write",
    "Verif.C149_swap_rows",
    "Verif.C149_diag"
   ],
   "note": ""
  },
  {
   "property": "C150",
   "status": "proved",
   "theorems": [
    "Verif.Complex.C150_complex",
    "Verif.Complex.C150_complex_laws",
    "Verif.Complex.C150_complex_numbers",
    "Verif.C150_complex_ints",
    "Verif.C150_blocks"
   ],
   "note": ""
  },
  {
   "property": "C151",
   "status": "proved",
   "theorems": [
    "Verif.C151_row_reduce",
    "Verif.C151_dyn_row_reduce",
    "Verif.C151_determinant",
    "Verif.C151_totally_unimodular"
   ],
   "note": ""
  },
  {
   "property": "C152",
   "status": "proved",
   "theorems": [
    "Verif.C152_row_reduce",
    "Verif.C152_dyn_row_reduce",
    "Verif.C152_determinant",
    "Verif.C152_not_echelon"
   ],
   "note": ""
  },
  {
   "property": "C153",
   "status": "proved",
   "theorems": [
    "Verif.C153_no_race",
    "Verif.C153_list_intact",
    "Verif.C153_append_only",
    "Verif.C153_push_lands",
    "Verif.C153_keeps_seeing",
    "Verif.C153_seen_after_sync",
    "Verif.C153_views",
    "Verif.C153_miss_may_be_stale"
   ],
   "note": "len only where C154 allows it; view-based release/acquire model, no load buffering"
  },
  {
   "property": "C154",
   "status": "partial",
   "theorems": [
    "Verif.C154_len_violated",
    "Verif.C154_len_partial",
    "Verif.C154_exact_partial"
   ],
   "note": "a thread calling len before it has seen any element races with the push; proved for threads that have seen an element; C154_exact_partial: a call may race exactly if the thread does not have the first node in its view"
  },
  {
   "property": "C155",
   "status": "proved",
   "theorems": [
    "Verif.C155_no_race",
    "Verif.C155_reads",
    "Verif.C155_counts",
    "Verif.C155_drops",
    "Verif.C155_ids",
    "Verif.C155_accesses"
   ],
   "note": "additions one at a time is part of the property (C60, C133 for what happens otherwise); passing a handle to a thread synchronises with it; counts do not overflow; the chunks are visible by C153"
  },
  {
   "property": "C156",
   "status": "partial",
   "theorems": [
    "Verif.StaticDrop.C156_collect_partial",
    "Verif.StaticDrop.C156_collect_try_partial",
    "Verif.StaticDrop.C156_fold_partial",
    "Verif.StaticDrop.C156_no_double_drop",
    "Verif.StaticDrop.C156_map_exact_partial",
    "Verif.StaticDrop.C156_map_try_exact_partial",
    "Verif.StaticDrop.C156_leak_violated"
   ],
   "note": "elements not yet polled are leaked, and those already stored when collecting into Option or Result; proved: nothing is dropped twice or both dropped and returned, complete runs leak nothing, and which elements are leaked"
  },
  {
   "property": "C157",
   "status": "proved",
   "theorems": [
    "Verif.C157_exact",
    "Verif.C157_total",
    "Verif.C157_prim_debug",
    "Verif.RatOf.prim"
   ],
   "note": ""
  },
  {
   "property": "C158",
   "status": "partial",
   "theorems": [
    "Verif.C158_arith",
    "Verif.C158_floor_ceil",
    "Verif.C158_trunc_fract",
    "Verif.C158_round_exact_partial",
    "Verif.C158_round_violated",
    "Verif.C158_prim",
    "Verif.FixedOf.prim"
   ],
   "note": "round computes one half as one / two, which is 0, and so rounds up for every integer type"
  },
  {
   "property": "C159",
   "status": "proved",
   "theorems": [
    "Verif.C159_matrix_mul",
    "Verif.C159_dot",
    "Verif.C159_integers"
   ],
   "note": "the sign of zero is not modelled, no statement depends on it (C191)"
  },
  {
   "property": "C160",
   "status": "partial",
   "theorems": [
    "Verif.InternRef.C160_exact_partial",
    "Verif.InternRef.C160_careful_partial",
    "Verif.InternRef.C160_unknown_id_violated",
    "Verif.InternRef.C160_overwritten_violated",
    "Verif.InternRef.C160_violated"
   ],
   "note": "exactly the undefined calls are determined, after any calls; violated by safe calls: incr of an id that add has not returned, then get; decr to zero while a reference is kept, then add of another value; proved when ids come from add, the last count is not given back while a reference is in use, and no count is at its maximum. Values whose comparison or conversion calls the interner again are C178"
  },
  {
   "property": "C161",
   "status": "partial",
   "theorems": [
    "Verif.C161_below_partial",
    "Verif.C161_exact_partial",
    "Verif.C161_violated",
    "Verif.C161_width_partial",
    "Verif.C161_width_history_partial",
    "Verif.C161_width_violated",
    "Verif.incrLeaves_of_ok"
   ],
   "note": "violated: the counter wraps around to 0 (before the debug assertion fails, too), so that the value counts as released and its slot is reused; proved below 2^64 - 1 references. Where usize has w bits, 2^w references suffice (C161_width_violated: 2^32 on a 32-bit target); below 2^w - 1 add and incr do the same there as with 64 bits"
  },
  {
   "property": "C162",
   "status": "partial",
   "theorems": [
    "Verif.C162_add_exact_partial",
    "Verif.C162_sub_exact",
    "Verif.C162_add_violated"
   ],
   "note": "subtraction and all values proved; violated by the flag of addition, which is about the longer operand, so that add_checked returns a wrapped sum as exact (exact condition proved)"
  },
  {
   "property": "C163",
   "status": "partial",
   "theorems": [
    "Verif.C163_exact_partial",
    "Verif.C163_violated",
    "Verif.C163_bounds_partial",
    "Verif.C163_handover_partial"
   ],
   "note": "violated: Send and Sync are implemented without bounds on the elements, so that two threads can set a Cell they got from a shared list; proved exactly for elements that are Sync, and that the missing bounds are the right ones. For sending a list (dropping Rc elements in another thread) see C172"
  },
  {
   "property": "C164",
   "status": "partial",
   "theorems": [
    "Verif.C164_rem",
    "Verif.C164_mul_div_exact_partial",
    "Verif.C164_whole_partial",
    "Verif.C164_mul_violated",
    "Verif.C164_div_violated"
   ],
   "note": "remainder proved; violated by * and /, which do not correct the scale: too large or too small by 2^N for every integer type (exact results proved)"
  },
  {
   "property": "C165",
   "status": "partial",
   "theorems": [
    "Verif.C165_identities",
    "Verif.C165_ceil_exact_partial",
    "Verif.C165_round_exact_partial",
    "Verif.C165_round_partial",
    "Verif.C165_ceil_violated",
    "Verif.C165_round_violated"
   ],
   "note": "violated: ceil is always one more than the number truncated, also for whole and negative numbers, and round is wrong for negative numbers and negative denominators; exact results proved"
  },
  {
   "property": "C166",
   "status": "partial",
   "theorems": [
    "Verif.C166_fixed",
    "Verif.C166_rat_exact_partial",
    "Verif.C166_rat_violated",
    "Verif.unbounded_signs"
   ],
   "note": "proved for fixed-point numbers; violated by fractions: the sign of the denominator is ignored, and 2/2 is not one, for every type of integers (exact conditions proved)"
  },
  {
   "property": "C167",
   "status": "partial",
   "theorems": [
    "Verif.C167_fixed",
    "Verif.C167_rat_exact_partial",
    "Verif.C167_rat_violated",
    "Verif.C167_signed",
    "Verif.C167_signed_violated"
   ],
   "note": "proved for fixed-point numbers; for fractions violated by 1/MIN, -1/MIN and MIN/-1 and by nothing else (exact conditions proved)"
  },
  {
   "property": "C168",
   "status": "partial",
   "theorems": [
    "Verif.C168_debug_partial",
    "Verif.C168_violated"
   ],
   "note": "the text denotes the number; violated: 1/2 and 2/4 have different texts, which are equal exactly for == fractions. Flags have no effect (C175)"
  },
  {
   "property": "C169",
   "status": "proved",
   "theorems": [
    "Verif.StaticIter.C169_elementwise",
    "Verif.StaticIter.C169_zip_many"
   ],
   "note": ""
  },
  {
   "property": "C170",
   "status": "proved",
   "theorems": [
    "Verif.C170_bounded",
    "Verif.C170_not_stuck",
    "Verif.C170_finishes_alone"
   ],
   "note": ""
  },
  {
   "property": "C171",
   "status": "proved",
   "theorems": [
    "Verif.C171_bounded",
    "Verif.C171_not_stuck"
   ],
   "note": ""
  },
  {
   "property": "C172",
   "status": "partial",
   "theorems": [
    "Verif.C172_in_sequence",
    "Verif.C172_exact_partial",
    "Verif.C172_violated",
    "Verif.C172_bounds_partial"
   ],
   "note": "violated: Send is implemented without a bound on the elements, so that two threads can change the count of an Rc at once; proved exactly for elements that are Send, and that the missing bound is the right one. What is done through the list itself is always in sequence"
  },
  {
   "property": "C173",
   "status": "partial",
   "theorems": [
    "Verif.Container.C173_shifts_partial",
    "Verif.Container.C173_bitwise_add",
    "Verif.Container.C173_place_partial",
    "Verif.Container.C173_own_containers",
    "Verif.Container.C173_own_add",
    "Verif.Container.C173_exact_partial",
    "Verif.Container.C173_violated"
   ],
   "note": "violated: a safe container that shows its limbs without leading zeros, or answers None for zero limbs, makes the in-place shifts unwrap None unchecked; proved for bitwise addition with any container, for the shifts with containers that keep their size (in particular the library's own), and the exact condition for containers that answer None on fixed indices"
  },
  {
   "property": "C174",
   "status": "proved",
   "theorems": [
    "Verif.BigOwn.C174_results",
    "Verif.BigOwn.C174_counts",
    "Verif.BigOwn.C174_nothing_left",
    "Verif.BigOwn.C174_slots"
   ],
   "note": "the results compared with are those of the functions on plain values, whose own errors are in C42-C54, C94-C97"
  },
  {
   "property": "C175",
   "status": "partial",
   "theorems": [
    "Verif.C175_ignored_partial",
    "Verif.C175_exact_partial",
    "Verif.C175_violated"
   ],
   "note": "violated: every option is ignored, the prefix of hexadecimal and binary texts is always written, binary texts have leading zeros; proved that the text never depends on the options (nor do those of fractions and fixed-point numbers), and exactly which options are honoured for the values that print rightly at all (C37, C51)"
  },
  {
   "property": "C176",
   "status": "proved",
   "theorems": [
    "Verif.C176_delivers"
   ],
   "note": "the text is that of the printing functions on values, whose own errors are in C37, C51, C58, C168; derived texts with other than default options are C180"
  },
  {
   "property": "C177",
   "status": "proved",
   "theorems": [
    "Verif.C177_tells",
    "Verif.C177_default"
   ],
   "note": "for the default options; others are C180"
  },
  {
   "property": "C178",
   "status": "partial",
   "theorems": [
    "Verif.InternAny.C178_handles_partial",
    "Verif.InternAny.C178_add_partial",
    "Verif.InternAny.C178_violated"
   ],
   "note": "violated if the code that add calls adds values itself: the slot it works on is taken by both, a compared value is overwritten, or a value being destroyed is looked at; proved if that code does anything else (no laws of equality needed). Counts that wrap around are C161, references that are kept are C160"
  },
  {
   "property": "C179",
   "status": "partial",
   "theorems": [
    "Verif.C179_exact_partial",
    "Verif.C179_violated"
   ],
   "note": "violated: the loop is left with the first panic and all later elements leak; proved that exactly those up to the first panic are freed, each once. Atomic steps under sequential consistency"
  },
  {
   "property": "C180",
   "status": "proved",
   "theorems": [
    "Verif.C180_tells",
    "Verif.C180_injective",
    "Verif.C180_layout",
    "Verif.C180_matrix_layout",
    "Verif.C180_matrix_block",
    "Verif.C180_delivers"
   ],
   "note": "components are primitive integers; x? and X? are C200. Padding with digits or minus signs, which the statement leaves out, makes different values print alike"
  },
  {
   "property": "C181",
   "status": "proved",
   "theorems": [
    "Verif.C181_componentwise",
    "Verif.C181_lawful",
    "Verif.C181_values",
    "Verif.C181_big_int",
    "Verif.C181_floats",
    "Verif.C181_hash"
   ],
   "note": "== of the components is taken as it is; where it is not by value (C46, C68) neither is that of compounds"
  },
  {
   "property": "C182",
   "status": "proved",
   "theorems": [
    "Verif.C182_numbers",
    "Verif.C182_reals",
    "Verif.C182_components",
    "Verif.C182_zero"
   ],
   "note": ""
  },
  {
   "property": "C183",
   "status": "proved",
   "theorems": [
    "Verif.C183_never_stuck",
    "Verif.C183_wait_free",
    "Verif.C183_lock_free",
    "Verif.C183_returns"
   ],
   "note": "a step is one access to shared memory; view-based release/acquire model of C153; a compare-exchange is one step and fails only if the pointer is set (compare_exchange, not the weak form); len only where C154 allows it"
  },
  {
   "property": "C184",
   "status": "proved",
   "theorems": [
    "Verif.C184_never_stuck",
    "Verif.C184_wait_free",
    "Verif.C184_returns",
    "Verif.C184_add_returns"
   ],
   "note": "model of C155; drop is left out of the bound, as fetch_update is a loop that other updates of the count (or a spurious failure of the exchange) repeat: its failed attempts are steps `peek`, the last one is `drop`, finding a slot by number is one step (C183 for the list of chunks), counts do not overflow"
  },
  {
   "property": "C185",
   "status": "partial",
   "theorems": [
    "Verif.C185_violated",
    "Verif.C185_race",
    "Verif.C185_synchronised_partial"
   ],
   "note": "violated: the count is released before the value is written, so that a later addition in another thread reads the value without knowing of the write; proved if each thread that adds has synchronised, by whatever means, with the one that added last"
  },
  {
   "property": "C186",
   "status": "proved",
   "theorems": [
    "Verif.C186_refines",
    "Verif.C186_result",
    "Verif.C186_safe",
    "Verif.C186_released"
   ],
   "note": "model of C155: add calls take turns (otherwise C60, C133, C185), counts do not overflow (C161); programs do not depend on the numbers of ids, only owners lend, a thread borrows an id once at a time, one that awaits ids from others receives them from whoever sends"
  },
  {
   "property": "C187",
   "status": "proved",
   "theorems": [
    "Verif.C187_result",
    "Verif.C187_released",
    "Verif.code_eval",
    "Verif.code_tidy"
   ],
   "note": "programs over BigInts are translated to programs over the interner, for which C186 holds; the results compared with are those of the functions on plain values, whose own errors are in C42-C54, C94-C97. Fewer than 2^62 ids"
  },
  {
   "property": "C188",
   "status": "partial",
   "theorems": [
    "Verif.C188_violated",
    "Verif.C188_operators",
    "Verif.C188_divide",
    "Verif.C188_by_zero",
    "Verif.C188_less",
    "Verif.C188_sum",
    "Verif.C188_dot",
    "Verif.C188_matrix_mul",
    "Verif.C188_complex_abs",
    "Verif.C188_complex_mul_partial"
   ],
   "note": "violated by products of complex numbers: infinity times 1 (both complex) has a NaN part; proved for scalars, and exactly for which finite factors it holds. The sign of zero is not modelled (C191)"
  },
  {
   "property": "C189",
   "status": "proved",
   "theorems": [
    "Verif.C189_rank",
    "Verif.C189_dyn_rank",
    "Verif.C189_determinant"
   ],
   "note": "square matrices only; for others row_reduce fails in the ways stated in C81"
  },
  {
   "property": "C190",
   "status": "partial",
   "theorems": [
    "Verif.C190_violated",
    "Verif.C190_squared",
    "Verif.C190_distance_partial",
    "Verif.C190_distance_error_partial",
    "Verif.C190_symmetric",
    "Verif.C190_zero",
    "Verif.C190_exact",
    "Verif.C190_special"
   ],
   "note": "violated: the squares over- and underflow though the distance is representable; proved where the sum of squares is in range, and with an absolute error of about its root otherwise. The precision of powf is a parameter, as core leaves it open; a function that multiplies is one that meets the assumption (squareOk_mul)"
  },
  {
   "property": "C191",
   "status": "partial",
   "theorems": [
    "Verif.C191_violated",
    "Verif.C191_operators",
    "Verif.C191_functions",
    "Verif.C191_divide_exact_partial",
    "Verif.C191_model",
    "Verif.C191_complex",
    "Verif.C191_vectors",
    "Verif.C191_distances",
    "Verif.C191_matrices",
    "Verif.C191_elimination",
    "Verif.C191_dynamic"
   ],
   "note": "violated by division: 1 / 0 and 1 / -0 differ, hence also csc and cot of the two zeros; exactly which quotients is proved. Everything else in full; distances for every powf(x, 2) that does not distinguish the zeros; row_reduce of dynamic matrices if square (C81). C191_model: the model without signs of zero, used elsewhere, is exact up to the sign"
  },
  {
   "property": "C192",
   "status": "proved",
   "theorems": [
    "Verif.C192_add",
    "Verif.C192_mul",
    "Verif.C192_div",
    "Verif.C192_sqrt",
    "Verif.C192_vectors",
    "Verif.C192_products",
    "Verif.C192_matrices",
    "Verif.C192_distances",
    "Verif.C192_distances_finite",
    "Verif.C192_complex",
    "Verif.C192_integers",
    "Verif.C192_limits",
    "Verif.squareMono_mul"
   ],
   "note": "distances for every powf(x, 2) that is monotone in the magnitude, as multiplying is (squareMono_mul); the rounding, sqrt and casts of core are modelled"
  },
  {
   "property": "C193",
   "status": "proved",
   "theorems": [
    "Verif.C193_exact",
    "Verif.C193_special",
    "Verif.C193_signs",
    "Verif.C193_again",
    "Verif.C193_vectors",
    "Verif.C193_scalar",
    "Verif.C193_zeros",
    "Verif.C193_naive"
   ],
   "note": "% of core is modelled as the exact remainder, rounded like any other result; that the rounding changes nothing is proved"
  },
  {
   "property": "C194",
   "status": "proved",
   "theorems": [
    "Verif.C194_operators",
    "Verif.C194_differences",
    "Verif.C194_identities",
    "Verif.C194_itself",
    "Verif.C194_sterbenz",
    "Verif.C194_scale",
    "Verif.C194_scale_sum",
    "Verif.C194_complex",
    "Verif.C194_dot",
    "Verif.C194_cross",
    "Verif.C194_transpose",
    "Verif.C194_limits"
   ],
   "note": "the operators of core are modelled as correctly rounded; C194_limits: associativity, distributivity and cancelling are not claimed, and do not hold"
  },
  {
   "property": "C195",
   "status": "partial",
   "theorems": [
    "Verif.C195_release_partial",
    "Verif.C195_debug_partial",
    "Verif.C195_signed_partial",
    "Verif.C195_exact_partial",
    "Verif.C195_signed_exact_partial",
    "Verif.C195_violated"
   ],
   "note": "the outcomes of all expressions over U and I of every size are determined exactly, as numbers (C195_exact_partial, C195_signed_exact_partial); violated by division, right shifts and missed overflows of products (C28, C30, C34, C41, C137); proved for all expressions that divide by literals up to 128 and shift right by whole bytes; for I without division and shifts"
  },
  {
   "property": "C196",
   "status": "partial",
   "theorems": [
    "Verif.WInt.C196_program_partial",
    "Verif.WInt.C196_equality",
    "Verif.WInt.C196_div_partial",
    "Verif.WInt.C196_cmp_partial",
    "Verif.WInt.C196_shl_partial",
    "Verif.WInt.C196_cmp_violated",
    "Verif.WInt.C196_not_violated",
    "Verif.WInt.C196_div_violated",
    "Verif.WInt.C196_quotient_violated",
    "Verif.WInt.C196_shr_violated",
    "Verif.WInt.C196_try_into_signed_violated",
    "Verif.WInt.C196_binary_violated",
    "Verif.WInt.C196_approx_violated",
    "Verif.BInt.C196_at_64",
    "Verif.WInt.C196_cmp_exact_partial",
    "Verif.WInt.C196_not_exact_partial",
    "Verif.WInt.C196_shr_exact_partial",
    "Verif.WInt.C196_div_exact_partial",
    "Verif.WInt.C196_convert_exact_partial",
    "Verif.WInt.C196_convert_partial",
    "Verif.WInt.C196_binary_exact_partial",
    "Verif.WInt.C196_approx_exact_partial"
   ],
   "note": "violated by the order, !, /, >>, conversions to signed types, binary text and approx_float; proved for all programs without these (and with << by literals below 2^16, >> by literals below 16), equality, unsigned conversions, i8 and i16, decimal and hexadecimal text; what the order, !, /, >>, binary text and conversions to types no wider than a word compute on each target is proved exactly; approx_float with 16 and 32 bits approximates the number with its words read to the base 2^w - 1 (proved up to 2^1023, if powi is correctly rounded)"
  },
  {
   "property": "C197",
   "status": "partial",
   "theorems": [
    "Verif.C197_operators_partial",
    "Verif.C197_usize_partial",
    "Verif.C197_usize_exact_partial",
    "Verif.C197_violated",
    "Verif.C197_at_64"
   ],
   "note": "violated by shifts by a U<N>, pow and Display, which panic where usize has fewer than N bytes, and by U<0>; exactly when is proved. All other operators are proved the same for every expression, for types whose bits usize can count and of fewer than 2^60 bytes"
  },
  {
   "property": "C198",
   "status": "partial",
   "theorems": [
    "Verif.C198_calls_partial",
    "Verif.C198_alone_partial",
    "Verif.C198_turns_partial",
    "Verif.C198_chunks_partial",
    "Verif.C198_ids_violated",
    "Verif.C198_dropped_violated",
    "Verif.C198_new_violated"
   ],
   "note": "violated by threads that add at the same time (any k of them may get the ids 0 to k - 1, even for one value) and by one thread that drops values (two values, id 2). Proved: ids stay below the number of calls of add, whatever the schedule, clones and drops, and no chunk is allocated then; for one thread that keeps its values the ids are exactly the numbers of different values before, and likewise for any number of threads that take turns to add and drop nothing (clones at any time). Beyond the capacity: n calls allocate at most n chunks, ids are at most 32 * (L + n - 1) with L chunks before, under any schedule and with stale lengths from push; threads adding one value to a new interner reach this bound. Sequentially consistent steps; a push of a chunk is one step"
  },
  {
   "property": "C199",
   "status": "partial",
   "theorems": [
    "Verif.C199_capacity_partial",
    "Verif.C199_capacity_exact",
    "Verif.C199_capacity_violated"
   ],
   "note": "violated for capacities above 2^w - 32 (w bits in a usize): with_capacity panics in debug builds and makes an interner without a slot in release builds. Proved for all smaller ones, with the exact characterisation (in release builds 2^w - 32 works too, where two overflows cancel). Room is stated for one thread that keeps its values (C198 has the rest); memory is unlimited in the model"
  },
  {
   "property": "C200",
   "status": "proved",
   "theorems": [
    "Verif.C200_tells",
    "Verif.C200_layout",
    "Verif.C200_block",
    "Verif.C200_injective",
    "Verif.C200_delivers"
   ],
   "note": "components are primitive integers, given by their width; the formatting helpers of the core library are modelled, as for C180"
  }
 ]
}