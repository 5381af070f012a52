{
 "claims": [
  {
   "property": "C01",
   "status": "proved",
   "theorems": [
    "Verif.Props.C01_widening_mul",
    "Verif.Props.C01_carrying_mul",
    "Verif.Props.C01_carrying_add",
    "Verif.Props.C01_borrowing_sub"
   ],
   "note": "generic word width; x86 intrinsics assumed to match the portable branch"
  },
  {
   "property": "C02",
   "status": "proved",
   "theorems": [
    "Verif.Props.C02_barrett_new_panics",
    "Verif.Props.C02_barrett_new_ratio"
   ],
   "note": "even word widths (u8..u64)"
  },
  {
   "property": "C03",
   "status": "proved",
   "theorems": [
    "Verif.Props.C03_reduce_one_word",
    "Verif.Props.C03_reduce_two_words",
    "Verif.Props.C03_lazy_reduce_one_word",
    "Verif.Props.C03_lazy_reduce_two_words"
   ],
   "note": ""
  },
  {
   "property": "C04",
   "status": "proved",
   "theorems": [
    "Verif.Props.C04_reduce_slice",
    "Verif.Props.C04_lazy_reduce_slice",
    "Verif.Props.C04_reduce_slice_empty"
   ],
   "note": ""
  },
  {
   "property": "C05",
   "status": "partial",
   "theorems": [
    "Verif.Props.C05_add_reduce_partial",
    "Verif.Props.C05_add_reduce_overflow_witness",
    "Verif.Props.C05_add_reduce_exact",
    "Verif.Props.C05_sub_reduce",
    "Verif.Props.C05_neg_reduce",
    "Verif.Props.C05_barrett_ring_ops",
    "Verif.Props.C05_barrett_mul_any_words"
   ],
   "note": "full for Barrett moduli; native-word add_reduce only for 2m <= 2^w, with a witness that the unrestricted claim is false of the code"
  },
  {
   "property": "C06",
   "status": "partial",
   "theorems": [
    "Verif.Props.C06_babybear_exp_partial",
    "Verif.Props.C06_babybear_exp_zero_witness",
    "Verif.Props.C06_barrett_exp",
    "Verif.Props.C06_barrett_exp_pow_of_2",
    "Verif.Props.C10_powof2_exp",
    "Verif.Props.C12_exp",
    "Verif.Props.C12_exp_pow_of_2"
   ],
   "note": "full for Barrett, power-of-two and Goldilocks moduli; Baby Bear exponent 0 returns the raw word 1 (witness theorem). Power-of-two and Goldilocks parts are C10_powof2_exp, C12_exp, C12_exp_pow_of_2; the exact condition is C84_babybear_exp"
  },
  {
   "property": "C07",
   "status": "partial",
   "theorems": [
    "Verif.Props.C07_inverse_partial",
    "Verif.Props.C07_inverse_sound",
    "Verif.Props.C07_inverse_unique",
    "Verif.Props.C07_inverse_zero",
    "Verif.Props.C07_inverse_violations",
    "Verif.Props.C49_field_division",
    "Verif.Props.C49_division_by_zero"
   ],
   "note": "proved for moduli below 2^(w-2); below 2^(w-1) every answer given is right (C07_inverse_sound); larger moduli overflow the signed arithmetic (witness theorem C07_inverse_violations). Field inverses are in C11/C12 modules"
  },
  {
   "property": "C08",
   "status": "partial",
   "theorems": [
    "Verif.Props.C08_barrett_dot_prefix",
    "Verif.Props.C08_barrett_dot_partial",
    "Verif.Props.C08_barrett_dot_drops_remainder",
    "Verif.Props.C10_powof2_dot",
    "Verif.Props.C11_dot_product",
    "Verif.Props.C11_dot_product_length",
    "Verif.Props.C12_dot_product"
   ],
   "note": "Barrett dot product drops the remainder when the length is not a multiple of 16 (witness theorem); full for the power-of-two, Baby Bear and Goldilocks moduli; the exact condition is C84_barrett_dot"
  },
  {
   "property": "C09",
   "status": "proved",
   "theorems": [
    "Verif.Props.C09_shoup_new",
    "Verif.Props.C09_shoup_mul_lazy",
    "Verif.Props.C09_shoup_mul",
    "Verif.Props.C09_shoup_mul_needs_headroom"
   ],
   "note": "for 2m <= 2^w; a witness shows the bound is needed"
  },
  {
   "property": "C10",
   "status": "proved",
   "theorems": [
    "Verif.Props.C10_powof2_new",
    "Verif.Props.C10_powof2_value",
    "Verif.Props.C10_powof2_ring_ops",
    "Verif.Props.C10_powof2_exp",
    "Verif.Props.C10_powof2_dot"
   ],
   "note": ""
  },
  {
   "property": "C11",
   "status": "proved",
   "theorems": [
    "Verif.Props.C11_conversions",
    "Verif.Props.C11_constants",
    "Verif.Props.C11_ring_ops",
    "Verif.Props.C11_inverse",
    "Verif.Props.C11_division",
    "Verif.Props.C11_dot_product",
    "Verif.Props.C11_dot_product_length"
   ],
   "note": "exponent 0 is recorded under C06"
  },
  {
   "property": "C12",
   "status": "proved",
   "theorems": [
    "Verif.Props.C12_ring_ops",
    "Verif.Props.C12_wide_reduction",
    "Verif.Props.C12_inverse",
    "Verif.Props.C12_division",
    "Verif.Props.C12_exp",
    "Verif.Props.C12_exp_pow_of_2",
    "Verif.Props.C12_dot_product"
   ],
   "note": ""
  },
  {
   "property": "C13",
   "status": "partial",
   "theorems": [
    "Verif.Props.C13_to_canonical",
    "Verif.Props.C13_canonical_partial",
    "Verif.Props.C13_violations",
    "Verif.Props.C13_canonicalized"
   ],
   "note": "false of the code in three places, see C13_violations; the exact condition is C84_goldilocks, C84_goldilocks_sum"
  },
  {
   "property": "C14",
   "status": "partial",
   "theorems": [
    "Verif.Props.C14_gcd",
    "Verif.Props.C14_coprime",
    "Verif.Props.C14_extended_gcd_partial",
    "Verif.Props.C14_extended_gcd_overflow",
    "Verif.Props.C14_extended_gcd_sound",
    "Verif.Props.C14_extended_gcd_zero"
   ],
   "note": "gcd and coprime in full; extended gcd for operands below 2^(w-2), with overflow witness; below 2^(w-1) every answer given is right (C14_extended_gcd_sound)"
  },
  {
   "property": "C15",
   "status": "proved",
   "theorems": [
    "Verif.Props.C15_prime_accepted",
    "Verif.Props.C15_exact_below_64",
    "Verif.Props.C15_total"
   ],
   "note": "every even word width; generator values are a parameter"
  },
  {
   "property": "C16",
   "status": "partial",
   "theorems": [
    "Verif.Props.C16_composite_partial",
    "Verif.Props.C16_composite_3mod4_partial",
    "Verif.Props.C16_composite_one_round_partial",
    "Verif.Props.C16_violation",
    "Verif.Props.C16_negation"
   ],
   "note": "false of the code (C16_violation, C16_negation): a round that reaches n-1 leaves the loop. Proved: base 2 must lie; full claim for n = 3 mod 4 and for one round; the exact condition is C84_probably_prime"
  },
  {
   "property": "C17",
   "status": "proved",
   "theorems": [
    "Verif.Props.C17_reverse_bits",
    "Verif.Props.C17_involutive",
    "Verif.Props.C17_full_width"
   ],
   "note": "k = BITS is rejected by the debug assertion (C17_full_width)"
  },
  {
   "property": "C18",
   "status": "proved",
   "theorems": [
    "Verif.Props.C18_uniform_count",
    "Verif.Props.C18_uniform_range",
    "Verif.Props.C18_uniform_rejected",
    "Verif.Props.C18_sampler"
   ],
   "note": "random words are inputs; termination of the rejection loop is per accepted word"
  },
  {
   "property": "C19",
   "status": "partial",
   "theorems": [
    "Verif.Props.C19_binary_vec",
    "Verif.Props.C19_ternary_vec",
    "Verif.Props.C19_single",
    "Verif.Props.C19_cbd_partial",
    "Verif.Props.C19_cbd_vec_partial",
    "Verif.Props.C19_cbd_distribution",
    "Verif.Props.C19_cbd_small_modulus"
   ],
   "note": "binary and ternary in full; centred binomial for moduli from 21 on, below that the code underflows (C19_cbd_small_modulus); the exact condition is C84_cbd"
  },
  {
   "property": "C20",
   "status": "proved",
   "theorems": [
    "Verif.Props.C20_decompose",
    "Verif.Props.C20_stream",
    "Verif.Props.C20_powers_below_modulus",
    "Verif.Props.C20_new_accepts",
    "Verif.Props.C20_polynomial"
   ],
   "note": ""
  },
  {
   "property": "C21",
   "status": "partial",
   "theorems": [
    "Verif.Props.C21_decompose_at_partial",
    "Verif.Props.C21_decompose_at_large_partial",
    "Verif.Props.C21_stale_digits"
   ],
   "note": "false of the code (C21_stale_digits); proved for zeroed destinations and for values needing all digits; the exact condition is C84_decompose_at"
  },
  {
   "property": "C22",
   "status": "proved",
   "theorems": [
    "Verif.Props.C22_add",
    "Verif.Props.C22_sub",
    "Verif.Props.C22_neg_scalar_evaluate",
    "Verif.Props.C22_length_mismatch",
    "Verif.Props.C22_zero",
    "Verif.Props.C22_update_keeps_rest"
   ],
   "note": "every length; operands canonical"
  },
  {
   "property": "C23",
   "status": "proved",
   "theorems": [
    "Verif.Props.C23_generate",
    "Verif.Props.C23_forward"
   ],
   "note": "every word width, prime field and size 2^k; the random candidates of the root search are arbitrary"
  },
  {
   "property": "C24",
   "status": "proved",
   "theorems": [
    "Verif.Props.C24_inverse_forward",
    "Verif.Props.C24_forward_inverse",
    "Verif.Props.C24_size_one_panics"
   ],
   "note": "all n = 2^k >= 2 as quantified; for n = 1 the inverse panics (C24_size_one_panics)"
  },
  {
   "property": "C25",
   "status": "partial",
   "theorems": [
    "Verif.Props.C25_mul_partial",
    "Verif.Props.C25_add_mul"
   ],
   "note": "n = 2^k >= 2; for n = 1 the inverse transform panics (C24); the exact condition is C84_size_one"
  },
  {
   "property": "C26",
   "status": "partial",
   "theorems": [
    "Verif.Props.C26_monomial_partial",
    "Verif.Props.C26_monomial_release",
    "Verif.Props.C26_signed_monomials",
    "Verif.Props.C26_degree_overflow"
   ],
   "note": "builds with overflow checks: for 2 n d < 2^64, beyond that the checked index product panics (witness theorem); builds without overflow checks: all degrees (C26_monomial_release); the exact condition is C84_monomial"
  },
  {
   "property": "C27",
   "status": "partial",
   "theorems": [
    "Verif.Props.C27_is_primitive_root_partial",
    "Verif.Props.C27_is_primitive_root_panics",
    "Verif.Props.C27_try_primitive_root",
    "Verif.Props.C27_minimal_root",
    "Verif.Props.C27_minimal_root_canonical",
    "Verif.Props.C27_modulus_two"
   ],
   "note": "modulus prime, random candidates arbitrary in [2, q); the predicate for odd primes, for q = 2 it accepts 1 (C27_modulus_two); the exact condition is C84_is_primitive_root"
  },
  {
   "property": "C28",
   "status": "proved",
   "theorems": [
    "Verif.Props.C28_never_replaced",
    "Verif.Props.C28_get",
    "Verif.Props.C28_init",
    "Verif.Props.C28_get_succeeds",
    "Verif.Props.C28_poisoned",
    "Verif.Props.C28_panics",
    "Verif.Props.C28_after_panic",
    "Verif.Props.C28_without_panic",
    "Verif.Props.C28_get_is_generated"
   ],
   "note": "calls one after another, any history, any iteration order of the hash sets, any outcome of the random table generation, mutex poisoning included"
  },
  {
   "property": "C29",
   "status": "partial",
   "theorems": [
    "Verif.Props.C29_single_writer_partial",
    "Verif.Props.C29_preinitialised_partial",
    "Verif.Props.C29_race",
    "Verif.Props.C29_race_read_back"
   ],
   "note": "violated by the code (C29_race); mutual exclusion of writers and race freedom after preinitialisation proved for all schedules; C108: programs that use one size of transforms never race, and of those without forks exactly the ones with two sizes and two threads can"
  },
  {
   "property": "C30",
   "status": "proved",
   "theorems": [
    "Verif.Props.C30_encode",
    "Verif.Props.C30_decode_rounds",
    "Verif.Props.C30_round_trip",
    "Verif.Props.C30_decode_equal_moduli"
   ],
   "note": "q and t powers of two, t < q; equal moduli panic in decode (witness theorem)"
  },
  {
   "property": "C31",
   "status": "proved",
   "theorems": [
    "Verif.Props.C31_decrypt",
    "Verif.Props.C31_encrypt_decrypt"
   ],
   "note": "noise below q/(2t) on either side; the exact interval is in C31_decrypt"
  },
  {
   "property": "C32",
   "status": "proved",
   "theorems": [
    "Verif.Props.C32_noise",
    "Verif.Props.C32_every_phase"
   ],
   "note": ""
  },
  {
   "property": "C33",
   "status": "proved",
   "theorems": [
    "Verif.Props.C33_add",
    "Verif.Props.C33_sub",
    "Verif.Props.C33_add_mul_scalar",
    "Verif.Props.C33_scalar_neg",
    "Verif.Props.C33_dimension_mismatch"
   ],
   "note": ""
  },
  {
   "property": "C34",
   "status": "proved",
   "theorems": [
    "Verif.Props.C34_extract",
    "Verif.Props.C34_extract_truncated",
    "Verif.Props.C34_extract_reverse"
   ],
   "note": ""
  },
  {
   "property": "C35",
   "status": "proved",
   "theorems": [
    "Verif.Props.C35_mul_monomial_sub_one",
    "Verif.Props.C35_add_mul_monomial",
    "Verif.Props.C35_monomial_out_of_range"
   ],
   "note": ""
  },
  {
   "property": "C36",
   "status": "partial",
   "theorems": [
    "Verif.Props.C36_products",
    "Verif.Props.C36_accumulate",
    "Verif.Props.C36_error_bound",
    "Verif.Props.C36_to_ntt",
    "Verif.Props.C36_rlwe_samples",
    "Verif.Props.C36_ntt_samples",
    "Verif.Props.C36_samples_partial",
    "Verif.Props.C36_sample_overflow"
   ],
   "note": "products, accumulation, conversion and the samples generated in transform form in full; the samples of 1 and -s generated in coefficient form need B^len < 2^w (overflow witness C36_sample_overflow); in builds without overflow checks they are right for every basis (C83_gadget_samples); the exact condition is C84_gadget_samples"
  },
  {
   "property": "C37",
   "status": "partial",
   "theorems": [
    "Verif.Props.C37_external_product",
    "Verif.Props.C37_error_bound",
    "Verif.Props.C37_ntt_samples",
    "Verif.Props.C37_samples_partial",
    "Verif.Props.C37_to_ntt",
    "Verif.Props.C37_add_mul",
    "Verif.Props.C37_rgsw_product"
   ],
   "note": "external products, sums and products of RGSW ciphertexts and transform-form samples in full; coefficient-form samples of 1 need B^len < 2^w (C36_sample_overflow); in builds without overflow checks they are right for every basis (C83_rgsw_sample)"
  },
  {
   "property": "C38",
   "status": "proved",
   "theorems": [
    "Verif.Props.C38_binary",
    "Verif.Props.C38_ternary",
    "Verif.Props.C38_binary_generate",
    "Verif.Props.C38_ternary_generate"
   ],
   "note": "error bound is worst case; ternary keys need N <= 2^31 because index products must fit usize (see C26_degree_overflow)"
  },
  {
   "property": "C39",
   "status": "proved",
   "theorems": [
    "Verif.Props.C39_key_switch",
    "Verif.Props.C39_generate",
    "Verif.Props.C39_error_bound"
   ],
   "note": ""
  },
  {
   "property": "C40",
   "status": "proved",
   "theorems": [
    "Verif.Props.C40_key_switch_lwe",
    "Verif.Props.C40_key_switch_rlwe",
    "Verif.Props.C40_error_bound",
    "Verif.Props.C40_generate"
   ],
   "note": "LWE dimension at least 2; the transform of length 1 is not supported by the code (see C24)"
  },
  {
   "property": "C41",
   "status": "proved",
   "theorems": [
    "Verif.Props.C41_rounding",
    "Verif.Props.C41_switch",
    "Verif.Props.C41_lwe",
    "Verif.Props.C41_phase",
    "Verif.Props.C41_switch_any",
    "Verif.Props.C41_phase_any",
    "Verif.Props.C41_bound_needed"
   ],
   "note": ""
  },
  {
   "property": "C42",
   "status": "proved",
   "theorems": [
    "Verif.Props.C42_nand",
    "Verif.Props.C42_and",
    "Verif.Props.C42_majority",
    "Verif.Props.C42_or",
    "Verif.Props.C42_nor",
    "Verif.Props.C42_xor",
    "Verif.Props.C42_xnor",
    "Verif.Props.C42_step",
    "Verif.Props.C42_boundary"
   ],
   "note": "for N = 4 | n and steps dividing N/4, which C42_step derives from power-of-two N >= 4 and q >= 8; phases are multiples of the step, as they are after the switch to 2N"
  },
  {
   "property": "C43",
   "status": "proved",
   "theorems": [
    "Verif.Props.C43_not"
   ],
   "note": ""
  },
  {
   "property": "C44",
   "status": "proved",
   "theorems": [
    "Verif.Props.C44_noise_bound",
    "Verif.Props.C44_circuit",
    "Verif.Props.C44_nand",
    "Verif.Props.C44_and",
    "Verif.Props.C44_or",
    "Verif.Props.C44_nor",
    "Verif.Props.C44_xor",
    "Verif.Props.C44_xnor",
    "Verif.Props.C44_not",
    "Verif.Props.C44_majority",
    "Verif.Props.C44_mux"
   ],
   "note": "the noise of each run is bounded by hypothesis (RunNoise), which C44_noise_bound derives for every valid key from worst-case bounds; at the crate's default parameters the worst case exceeds the decision bound, there C59, C60 and C66 bound the probability of failure"
  },
  {
   "property": "C45",
   "status": "partial",
   "theorems": [
    "Verif.Props.C45_decision",
    "Verif.Props.C45_accepted_partial",
    "Verif.Props.C45_accepts_equal_moduli",
    "Verif.Props.C45_accepts_modulus_one",
    "Verif.Props.C45_accepts_foreign_modulus"
   ],
   "note": "the decision is characterised exactly; accepted parameters with t < q never panic; t = q, q = 1 and a foreign ring modulus are accepted (witness theorems); the exact condition is C84_parameters"
  },
  {
   "property": "C46",
   "status": "proved",
   "theorems": [
    "Verif.Props.C46_many_x86",
    "Verif.Props.C46_many_arm",
    "Verif.Props.C46_slice"
   ],
   "note": "both architectures"
  },
  {
   "property": "C47",
   "status": "partial",
   "theorems": [
    "Verif.Props.C47_stream",
    "Verif.Props.C47_from_rng",
    "Verif.Props.C47_split_partial",
    "Verif.Props.C47_byte_split_differs",
    "Verif.Props.C47_blocks_distinct",
    "Verif.Props.C47_counter_never_wraps"
   ],
   "note": "full stream specification for every history; invariance under splitting only at 32-bit word boundaries, with a witness that byte granularity fails"
  },
  {
   "property": "C48",
   "status": "proved",
   "theorems": [
    "Verif.Props.C48_bytes",
    "Verif.Props.C48_try_from_slice",
    "Verif.Props.C48_u128",
    "Verif.Props.C48_u64s",
    "Verif.Props.C48_eq",
    "Verif.Props.C48_bitwise",
    "Verif.Props.C48_format"
   ],
   "note": ""
  },
  {
   "property": "C49",
   "status": "proved",
   "theorems": [
    "Verif.Props.C49_config",
    "Verif.Props.C49_new",
    "Verif.Props.C49_serde",
    "Verif.Props.C49_field_ops",
    "Verif.Props.C49_fast_ops",
    "Verif.Props.C49_field_division",
    "Verif.Props.C49_division_by_zero"
   ],
   "note": "the serde format itself is the identity on words"
  },
  {
   "property": "C50",
   "status": "partial",
   "theorems": [
    "Verif.Props.C50_inv_partial",
    "Verif.Props.C50_not_invertible"
   ],
   "note": "right for polynomials without zero evaluations; no invertibility check otherwise (witness theorem); the exact condition is C84_poly_inv"
  },
  {
   "property": "C51",
   "status": "proved",
   "theorems": [
    "Verif.Props.C51_sbox_table",
    "Verif.Props.C51_key_schedule",
    "Verif.Props.C51_fips197",
    "Verif.Props.C51_arm_key",
    "Verif.Props.C51_arm_cipher",
    "Verif.Props.C51_fips197_arm",
    "Verif.Props.C51_injective"
   ],
   "note": "instruction semantics modelled from vendor documentation"
  },
  {
   "property": "C52",
   "status": "proved",
   "theorems": [
    "Verif.Props.C52_end_to_end",
    "Verif.Props.C52_default_parameters",
    "Verif.Props.C52_lwe_key",
    "Verif.Props.C52_key_pack",
    "Verif.Props.C52_evaluation_key"
   ],
   "note": "worst-case noise bounds as in C44; C52_default_parameters shows that the crate's parameter sets meet all structural conditions, the stability condition is met by the small instance beside the theorem"
  },
  {
   "property": "C53",
   "status": "proved",
   "theorems": [
    "Verif.Props.C53_new",
    "Verif.Props.C53_lwe",
    "Verif.Props.C53_field",
    "Verif.Props.C53_field_vec",
    "Verif.Props.C53_polynomial",
    "Verif.Props.C53_encryption_noise",
    "Verif.Props.C53_symmetric",
    "Verif.Props.C53_zero_deviation",
    "Verif.Props.C53_violations",
    "Verif.Props.C53_polynomial_deviates"
   ],
   "note": "the normal deviates are arbitrary rationals; the distribution itself is not modelled"
  },
  {
   "property": "C54",
   "status": "proved",
   "theorems": [
    "Verif.Props.C54_generate",
    "Verif.Props.C54_get"
   ],
   "note": "prime fields of the Barrett type; fields whose generation succeeds"
  },
  {
   "property": "C55",
   "status": "proved",
   "theorems": [
    "Verif.Props.C55_generated",
    "Verif.Props.C55_cached",
    "Verif.Props.C55_public_constructor"
   ],
   "note": "tables of the field types; the public constructor is a witnessed exception"
  },
  {
   "property": "C56",
   "status": "proved",
   "theorems": [
    "Verif.Props.C56_per_thread",
    "Verif.Props.C56_since_clear",
    "Verif.Props.C56_never_cleared",
    "Verif.Props.C56_total",
    "Verif.Props.C56_all_counted",
    "Verif.Props.C56_disabled",
    "Verif.Props.C56_late_addition",
    "Verif.Props.C56_native_only"
   ],
   "note": "one counter, relaxed memory order per location"
  },
  {
   "property": "C57",
   "status": "proved",
   "theorems": [
    "Verif.Props.C57_circuit",
    "Verif.Props.C57_end_to_end"
   ],
   "note": "the noises are hypotheses on the run; C59 and C60 bound the probability that they are large for one gate on fresh inputs"
  },
  {
   "property": "C58",
   "status": "proved",
   "theorems": [
    "Verif.Props.C58_rlwe",
    "Verif.Props.C58_ntt_rlwe",
    "Verif.Props.C58_scale",
    "Verif.Props.C58_gadget",
    "Verif.Props.C58_ntt_gadget",
    "Verif.Props.C58_rgsw",
    "Verif.Props.C58_ntt_rgsw",
    "Verif.Props.C58_zero",
    "Verif.Props.C58_lwe",
    "Verif.Props.C58_lwe_operators",
    "Verif.Props.C58_destination_kept",
    "Verif.Props.C58_operand_basis",
    "Verif.Props.C58_unequal_lengths"
   ],
   "note": "destinations of the right shape; C58_destination_kept says what happens with others"
  },
  {
   "property": "C59",
   "status": "proved",
   "theorems": [
    "Verif.Props.C59_binary",
    "Verif.Props.C59_ternary",
    "Verif.Props.C59_cbd_law",
    "Verif.Props.C59_cbd_polynomial"
   ],
   "note": "draws of all errors independent; the ciphertext does not depend on the key"
  },
  {
   "property": "C60",
   "status": "proved",
   "theorems": [
    "Verif.Props.C60_run",
    "Verif.Props.C60_majority",
    "Verif.Props.C60_nand",
    "Verif.Props.C60_and",
    "Verif.Props.C60_or",
    "Verif.Props.C60_nor",
    "Verif.Props.C60_xor",
    "Verif.Props.C60_xnor",
    "Verif.Props.C60_rlwe_switch",
    "Verif.Props.C60_lwe_switch"
   ],
   "note": "inputs do not depend on the evaluation key; the rounding of the final modulus switch is an event in the statement"
  },
  {
   "property": "C61",
   "status": "proved",
   "theorems": [
    "Verif.Props.C61_application",
    "Verif.Props.C61_bits"
   ],
   "note": "the application is one key owner with one store of ciphertexts; randomness is an argument, bounded as in C57"
  },
  {
   "property": "C62",
   "status": "proved",
   "theorems": [
    "Verif.Props.C62_conversions",
    "Verif.Props.C62_table",
    "Verif.Props.C62_add",
    "Verif.Props.C62_sub",
    "Verif.Props.C62_mul",
    "Verif.Props.C62_neg_scalar"
   ],
   "note": "operands of equal length; the length assertions of the code are kept in the model"
  },
  {
   "property": "C63",
   "status": "partial",
   "theorems": [
    "Verif.Props.C63_ring",
    "Verif.Props.C63_exp",
    "Verif.Props.C63_div_partial",
    "Verif.Props.C63_div_violation",
    "Verif.Props.C63_lwe"
   ],
   "note": "missing: division with a remainder, where the code returns the integer quotient (witness C63_div_violation); the exact condition is C84_native_div"
  },
  {
   "property": "C64",
   "status": "proved",
   "theorems": [
    "Verif.Props.C64_values",
    "Verif.Props.C64_binary",
    "Verif.Props.C64_ternary",
    "Verif.Props.C64_secret_keys",
    "Verif.Props.C64_uniform",
    "Verif.Props.C64_single"
   ],
   "note": "the generator is assumed to deliver independent uniform words"
  },
  {
   "property": "C65",
   "status": "partial",
   "theorems": [
    "Verif.Props.C65_tests_partial",
    "Verif.Props.C65_tests_violation",
    "Verif.Props.C65_order",
    "Verif.Props.C65_roots",
    "Verif.Props.C65_lsb_step",
    "Verif.Props.C65_lsb"
   ],
   "note": "Full for canonical elements. Partial because mul_fast returns elements in [0, 2q) on which == and is_zero deny equal residues (C65_tests_violation)."
  },
  {
   "property": "C66",
   "status": "proved",
   "theorems": [
    "Verif.Props.C66_switch_rounding",
    "Verif.Props.C66_majority",
    "Verif.Props.C66_nand",
    "Verif.Props.C66_and",
    "Verif.Props.C66_or",
    "Verif.Props.C66_nor",
    "Verif.Props.C66_xor",
    "Verif.Props.C66_xnor",
    "Verif.Props.C66_gates",
    "Verif.Props.C66_end_to_end",
    "Verif.Props.C66_rounding",
    "Verif.Props.C66_uniform_mask"
   ],
   "note": "Nondegeneracy of the digits of the accumulator is an explicit hypothesis of the gate theorems, shown for a concrete key beside them; C75 bounds its probability and removes it. Masks uniform by C64."
  },
  {
   "property": "C67",
   "status": "proved",
   "theorems": [
    "Verif.Props.C67_ciphertext_law",
    "Verif.Props.C67_simulation",
    "Verif.Props.C67_chosen_messages"
   ],
   "note": "a reduction: the hardness of learning with errors itself, in particular when the auxiliary value is an evaluation key (circular security), appears as the right-hand side and is not proved; masks are assumed uniform (C18, C64)"
  },
  {
   "property": "C68",
   "status": "proved",
   "theorems": [
    "Verif.Props.C68_binary_simulation",
    "Verif.Props.C68_binary_key",
    "Verif.Props.C68_ternary_simulation",
    "Verif.Props.C68_ternary_key",
    "Verif.Props.C68_rlwe_switching_key",
    "Verif.Props.C68_lwe_switching_key"
   ],
   "note": "a reduction for each component; the hardness of (ring) learning with errors is not proved. That bootstrapping key and switching key are published together, each under the other's key, is the usual circular-security assumption: here it can only be expressed through the auxiliary value. Masks are assumed uniform (C18, C64)"
  },
  {
   "property": "C69",
   "status": "partial",
   "theorems": [
    "Verif.Props.C69_error_partial",
    "Verif.Props.C69_is_prime_field_partial",
    "Verif.Props.C69_two_rounds_partial",
    "Verif.Props.C69_first_round",
    "Verif.Props.C69_violation"
   ],
   "note": "false of the code: 49141 is accepted with probability 1 whatever the number of rounds (C69_violation), and one round uses no randomness (C69_first_round). Proved: (1/4)^(rounds-1) for n = 3 mod 4, and 1/4 for two or more rounds when the first round does not reach -1 by squaring"
  },
  {
   "property": "C70",
   "status": "proved",
   "theorems": [
    "Verif.Props.C70_search",
    "Verif.Props.C70_generate",
    "Verif.Props.C70_get"
   ],
   "note": ""
  },
  {
   "property": "C71",
   "status": "proved",
   "theorems": [
    "Verif.Props.C71_normal",
    "Verif.Props.C71_default_errors",
    "Verif.Props.C71_default_gates",
    "Verif.Props.C71_subgaussian",
    "Verif.Props.C71_polynomial",
    "Verif.Props.C71_lwe"
   ],
   "note": "as in C66, unless the digits of an accumulator have a common root (C75 states the default parameters without this exception); finite f64 numbers only"
  },
  {
   "property": "C72",
   "status": "proved",
   "theorems": [
    "Verif.Props.C72_gates",
    "Verif.Props.C72_encrypt",
    "Verif.Props.C72_decrypt",
    "Verif.Props.C72_decrypt_bit",
    "Verif.Props.C72_application"
   ],
   "note": "ciphertexts of another length are outside (C33: sums of different lengths panic)"
  },
  {
   "property": "C73",
   "status": "proved",
   "theorems": [
    "Verif.Props.C73_keys",
    "Verif.Props.C73_no_keys",
    "Verif.Props.C73_accepted",
    "Verif.Props.C73_accepted_without_keys"
   ],
   "note": "tables of the transform for dimensions up to N are assumed for sufficiency (they exist by C54)"
  },
  {
   "property": "C74",
   "status": "proved",
   "theorems": [
    "Verif.Props.C74_client",
    "Verif.Props.C74_words"
   ],
   "note": "the seed of Prg::new is assumed uniform; rejection loops are cut off after a fixed number of words; the advantage against AES-128 is a parameter of the bound, not estimated"
  },
  {
   "property": "C75",
   "status": "proved",
   "theorems": [
    "Verif.Props.C75_default_gates",
    "Verif.Props.C75_accumulator",
    "Verif.Props.C75_majority",
    "Verif.Props.C75_nand",
    "Verif.Props.C75_and",
    "Verif.Props.C75_or",
    "Verif.Props.C75_nor",
    "Verif.Props.C75_xor",
    "Verif.Props.C75_xnor",
    "Verif.Props.C75_gates",
    "Verif.Props.C75_end_to_end",
    "Verif.Props.C75_rounding",
    "Verif.Props.C75_binary",
    "Verif.Props.C75_ternary",
    "Verif.Props.C75_tables"
   ],
   "note": "the masks and errors of the evaluation key are independent draws of the stated laws (C64, C71, C74 relate them to the generator); the inputs do not depend on the evaluation key, so deeper circuits are covered by C57/C59 only"
  },
  {
   "property": "C76",
   "status": "proved",
   "theorems": [
    "Verif.Props.C76_generate",
    "Verif.Props.C76_round_trip",
    "Verif.Props.C76_same_results",
    "Verif.Props.C76_monomials",
    "Verif.Props.C76_roots"
   ],
   "note": "the external library is a parameter constrained by the contract in SpecTransform.lean"
  },
  {
   "property": "C77",
   "status": "proved",
   "theorems": [
    "Verif.Props.C77_moduli",
    "Verif.Props.C77_operators",
    "Verif.Props.C77_provided_methods",
    "Verif.Props.C77_polynomials",
    "Verif.Props.C77_product"
   ],
   "note": ""
  },
  {
   "property": "C78",
   "status": "proved",
   "theorems": [
    "Verif.Props.C78_carry",
    "Verif.Props.C78_exact",
    "Verif.Props.C78_goldilocks",
    "Verif.Props.C78_goldilocks_reduce"
   ],
   "note": "The instructions are modelled from the vendor's documentation. AES is compared in C51."
  },
  {
   "property": "C79",
   "status": "proved",
   "theorems": [
    "Verif.Props.C79_accepted",
    "Verif.Props.C79_constants",
    "Verif.Props.C79_other_macros"
   ],
   "note": "The message of check_leading_zeros asks for a modulus smaller than MAX >> 2, but MAX >> 2 itself is accepted."
  },
  {
   "property": "C80",
   "status": "proved",
   "theorems": [
    "Verif.Props.C80_native_tables",
    "Verif.Props.C80_call",
    "Verif.Props.C80_history",
    "Verif.Props.C80_external_product",
    "Verif.Props.C80_gadget_products",
    "Verif.Props.C80_coefficient_products",
    "Verif.Props.C80_monomial_destination",
    "Verif.Props.C80_binary_rotation",
    "Verif.Props.C80_ternary_rotation",
    "Verif.Props.C80_key_switching",
    "Verif.Props.C80_rotation"
   ],
   "note": "Spaces of another dimension than the operands make the copy into them panic; they are made for the dimension of the key or the parameters. The external transform library is assumed to keep the length of the slice it works on."
  },
  {
   "property": "C81",
   "status": "proved",
   "theorems": [
    "Verif.Props.C81_results",
    "Verif.Props.C81_tables_stay",
    "Verif.Props.C81_prepared",
    "Verif.Props.C81_start_requests",
    "Verif.Props.C81_start",
    "Verif.Props.C81_gates",
    "Verif.Props.C81_generation",
    "Verif.Props.C81_unprepared_race",
    "Verif.Props.C81_applications",
    "Verif.Props.C81_no_deadlock",
    "Verif.Props.C81_ends",
    "Verif.Props.C81_unprepared",
    "Verif.Props.C81_panic_poisons",
    "Verif.Props.C81_poison_stays",
    "Verif.Props.C81_after_panic"
   ],
   "note": "Sequentially consistent memory, which is what race freedom gives. The look-up and the insertion in the hash map are steps that have a begin and an end. Each thread has its own random generator, as in the code; its draws are part of the history. `C81_unprepared_race` shows that the preparation is needed (see C29)."
  },
  {
   "property": "C82",
   "status": "proved",
   "theorems": [
    "Verif.Props.C82_key_weight",
    "Verif.Props.C82_custom_gates",
    "Verif.Props.C82_custom",
    "Verif.Props.C82_run",
    "Verif.Props.C82_majority",
    "Verif.Props.C82_nand",
    "Verif.Props.C82_and",
    "Verif.Props.C82_or",
    "Verif.Props.C82_nor",
    "Verif.Props.C82_xor",
    "Verif.Props.C82_xnor",
    "Verif.Props.C82_gates",
    "Verif.Props.C82_end_to_end"
   ],
   "note": "As in C60 and C75: each gate acts on ciphertexts that do not depend on the evaluation key. The bound uses the largest digits of the decompositions, so it is larger than the true probability. The ring key may be any ternary key."
  },
  {
   "property": "C83",
   "status": "proved",
   "theorems": [
    "Verif.Props.C83_add",
    "Verif.Props.C83_extended_gcd",
    "Verif.Props.C83_inverse",
    "Verif.Props.C83_inverse_violation",
    "Verif.Props.C83_gadget_samples",
    "Verif.Props.C83_rgsw_sample",
    "Verif.Props.C83_cbd_nonnegative",
    "Verif.Props.C83_cbd",
    "Verif.Props.C83_goldilocks_neg"
   ],
   "note": "The statement describes what the code does, including the wrong results (C83_inverse_violation). The monomial transforms of this build are in C26 and C55."
  },
  {
   "property": "C84",
   "status": "proved",
   "theorems": [
    "Verif.Props.C84_probably_prime",
    "Verif.Props.C84_babybear_exp",
    "Verif.Props.C84_barrett_dot",
    "Verif.Props.C84_goldilocks",
    "Verif.Props.C84_goldilocks_sum",
    "Verif.Props.C84_cbd",
    "Verif.Props.C84_decompose_at",
    "Verif.Props.C84_native_div",
    "Verif.Props.C84_monomial",
    "Verif.Props.C84_is_primitive_root",
    "Verif.Props.C84_poly_inv",
    "Verif.Props.C84_size_one",
    "Verif.Props.C84_gadget_samples",
    "Verif.Props.C84_parameters"
   ],
   "note": "Complements the partial properties: the conditions under which those hold are shown to be necessary as well."
  },
  {
   "property": "C85",
   "status": "proved",
   "theorems": [
    "Verif.Props.C85_run",
    "Verif.Props.C85_equal"
   ],
   "note": "Excluded: inversion (see C50) and lengths that are no power of two or 1."
  },
  {
   "property": "C86",
   "status": "proved",
   "theorems": [
    "Verif.Props.C86_run",
    "Verif.Props.C86_extract",
    "Verif.Props.C86_select",
    "Verif.Props.C86_lookup"
   ],
   "note": "Complete for the listed operations."
  },
  {
   "property": "C87",
   "status": "proved",
   "theorems": [
    "Verif.Props.C87_every_negative_exponent",
    "Verif.Props.C87_barrett_signed_exp",
    "Verif.Props.C87_barrett_negative_exponent_iff",
    "Verif.Props.C87_barrett_negative_exponent_order",
    "Verif.Props.C87_negative_exponent_witness",
    "Verif.Props.C87_powof2_signed_exp",
    "Verif.Props.C87_goldilocks_signed_exp",
    "Verif.Props.C87_babybear_signed_exp",
    "Verif.Props.C87_goldilocks_negative_witness"
   ],
   "note": "An exact characterisation. That negative exponents silently give another power is a trap of the generic exponent type; witnesses are proved."
  },
  {
   "property": "C88",
   "status": "proved",
   "theorems": [
    "Verif.Props.C88_polynomials",
    "Verif.Props.C88_external_product",
    "Verif.Props.C88_samples",
    "Verif.Props.C88_secret_key",
    "Verif.Props.C88_evaluation_key",
    "Verif.Props.C88_key_switch",
    "Verif.Props.C88_started",
    "Verif.Props.C88_bootstrap",
    "Verif.Props.C88_gates",
    "Verif.Props.C88_majority",
    "Verif.Props.C88_mux",
    "Verif.Props.C88_bound",
    "Verif.Props.C88_bound_reached",
    "Verif.Props.C88_every_gate",
    "Verif.Props.C88_gate_reveals_no_key",
    "Verif.Props.C88_counter",
    "Verif.Props.C88_defaults"
   ],
   "note": "The rotation skips mask words that are zero, so the number depends on the ciphertext, which is public. The numbers say nothing about time per transform. The counted copies are tied to the model of the other theorems for every input, panics included."
  },
  {
   "property": "C89",
   "status": "proved",
   "theorems": [
    "Verif.Props.C89_order",
    "Verif.Props.C89_majority_order",
    "Verif.Props.C89_sum",
    "Verif.Props.C89_and_is_majority",
    "Verif.Props.C89_difference",
    "Verif.Props.C89_self",
    "Verif.Props.C89_not_not",
    "Verif.Props.C89_both_negated",
    "Verif.Props.C89_negated_selector",
    "Verif.Props.C89_circuits",
    "Verif.Props.C89_bits",
    "Verif.Props.C89_not_laws"
   ],
   "note": "The single-call laws hold for every key, well formed or not, and include that both sides panic together. That other laws fail is shown by computing with a small key."
  },
  {
   "property": "C90",
   "status": "proved",
   "theorems": [
    "Verif.Props.C90_any_table",
    "Verif.Props.C90_worst_case",
    "Verif.Props.C90_half_turn",
    "Verif.Props.C90_function",
    "Verif.Props.C90_programs",
    "Verif.Props.C90_application",
    "Verif.Props.C90_failure",
    "Verif.Props.C90_failure_rounding"
   ],
   "note": "The caller's table is a specification (functionTable), since the crate only builds the tables of the gates. Bounds are worst-case in C90_worst_case, C90_programs and C90_application; C90_any_table takes any bounds that hold in the run; C90_failure and C90_failure_rounding (Props/ProgrammableFailure.lean) bound the probability that a lookup of fresh inputs decrypts to a wrong value."
  },
  {
   "property": "C91",
   "status": "proved",
   "theorems": [
    "Verif.Props.C91_general",
    "Verif.Props.C91_wrong_key",
    "Verif.Props.C91_history",
    "Verif.Props.C91_fresh_keys",
    "Verif.Props.C91_binary_agree",
    "Verif.Props.C91_ternary_agree",
    "Verif.Props.C91_condition_needed",
    "Verif.Props.C91_boolean"
   ],
   "note": "The masks are uniform (C18, C64 show that the samplers give that; C74 covers the generator)."
  },
  {
   "property": "C92",
   "status": "proved",
   "theorems": [
    "Verif.Props.C92_key_recovery",
    "Verif.Props.C92_panics"
   ],
   "note": "A limit of the scheme that a user has to know, not a defect of the code: encryption is proved secure against chosen messages only (C67)."
  },
  {
   "property": "C93",
   "status": "proved",
   "theorems": [
    "Verif.Props.C93_bootstrap",
    "Verif.Props.C93_binary",
    "Verif.Props.C93_majority",
    "Verif.Props.C93_not",
    "Verif.Props.C93_mux",
    "Verif.Props.C93_decrypt",
    "Verif.Props.C93_noticed"
   ],
   "note": "In builds with debug assertions, as everywhere unless stated otherwise. mux is related to the resized operands only if no words are missing or the last step is the LWE key switching; in the other case it is proved not to panic."
  },
  {
   "property": "C94",
   "status": "proved",
   "theorems": [
    "Verif.Props.C94_coin",
    "Verif.Props.C94_application"
   ],
   "note": "The fixed operands are reduced modulo q. The noise bound is a hypothesis (C94_application derives it from the worst-case bounds for freshly generated keys)."
  },
  {
   "property": "C95",
   "status": "proved",
   "theorems": [
    "Verif.Props.C95_sum",
    "Verif.Props.C95_sampler"
   ],
   "note": ""
  },
  {
   "property": "C96",
   "status": "proved",
   "theorems": [
    "Verif.Props.C96_masks_differ",
    "Verif.Props.C96_repeated_mask"
   ],
   "note": "The masks are uniform (C18, C64 show that the samplers give that; C74 covers the generator)."
  },
  {
   "property": "C97",
   "status": "proved",
   "theorems": [
    "Verif.Props.C97_tolerates",
    "Verif.Props.C97_malleable"
   ],
   "note": ""
  },
  {
   "property": "C98",
   "status": "proved",
   "theorems": [
    "Verif.Props.C98_binary",
    "Verif.Props.C98_binary_total",
    "Verif.Props.C98_majority",
    "Verif.Props.C98_mux",
    "Verif.Props.C98_decrypt",
    "Verif.Props.C98_lost_words"
   ],
   "note": ""
  },
  {
   "property": "C99",
   "status": "proved",
   "theorems": [
    "Verif.Props.C99_layers",
    "Verif.Props.C99_end_to_end",
    "Verif.Props.C99_default"
   ],
   "note": "with a single evaluation key for all layers the operands of the second layer depend on the key, and no such bound is proved; C57 covers that case conditionally on the noise"
  },
  {
   "property": "C100",
   "status": "proved",
   "theorems": [
    "Verif.Props.C100_sums",
    "Verif.Props.C100_differences",
    "Verif.Props.C100_pointwise",
    "Verif.Props.C100_transform",
    "Verif.Props.C100_product_returns",
    "Verif.Props.C100_product",
    "Verif.Props.C100_product_shorter"
   ],
   "note": ""
  },
  {
   "property": "C101",
   "status": "proved",
   "theorems": [
    "Verif.Props.C101_binary_keys",
    "Verif.Props.C101_ternary_keys",
    "Verif.Props.C101_rlwe_switching_keys",
    "Verif.Props.C101_lwe_switching_keys"
   ],
   "note": "a reduction to the hardness of learning with errors, as C67 and C68; bootstrapping and switching keys are treated separately, with the other ones as the auxiliary value"
  },
  {
   "property": "C102",
   "status": "proved",
   "theorems": [
    "Verif.Props.C102_constructors",
    "Verif.Props.C102_products",
    "Verif.Props.C102_accumulate",
    "Verif.Props.C102_enough",
    "Verif.Props.C102_too_few",
    "Verif.Props.C102_extra"
   ],
   "note": "extends C36, which is about complete ciphertexts"
  },
  {
   "property": "C103",
   "status": "proved",
   "theorems": [
    "Verif.Props.C103_schedule",
    "Verif.Props.C103_function",
    "Verif.Props.C103_default",
    "Verif.Props.C103_every_function"
   ],
   "note": "the gates majority and mux are not used; they are circuits of the others"
  },
  {
   "property": "C104",
   "status": "proved",
   "theorems": [
    "Verif.Props.C104_run",
    "Verif.Props.C104_gate",
    "Verif.Props.C104_layers",
    "Verif.Props.C104_end_to_end",
    "Verif.Props.C104_default",
    "Verif.Props.C104_default_majority"
   ],
   "note": "the two other orders of the steps are covered by C99 only"
  },
  {
   "property": "C105",
   "status": "proved",
   "theorems": [
    "Verif.Props.C105_layers",
    "Verif.Props.C105_default",
    "Verif.Props.C105_default_majority",
    "Verif.Props.C105_every_function"
   ],
   "note": "mux is left out, as in C99"
  },
  {
   "property": "C106",
   "status": "proved",
   "theorems": [
    "Verif.Props.C106_results",
    "Verif.Props.C106_default",
    "Verif.Props.C106_every_map",
    "Verif.Props.C106_sum",
    "Verif.Props.C106_product",
    "Verif.Props.C106_less"
   ],
   "note": ""
  },
  {
   "property": "C107",
   "status": "proved",
   "theorems": [
    "Verif.Props.C107_machine",
    "Verif.Props.C107_every_machine"
   ],
   "note": ""
  },
  {
   "property": "C108",
   "status": "proved",
   "theorems": [
    "Verif.Props.C108_threads_iff",
    "Verif.Props.C108_one_size",
    "Verif.Props.C108_race_iff",
    "Verif.Props.C108_published_iff",
    "Verif.Props.C108_start_sizes",
    "Verif.Props.C108_sessions",
    "Verif.Props.C108_sessions_race_iff",
    "Verif.Props.C108_sessions_default"
   ],
   "note": "The step machine of C81, with sequentially consistent memory. That two sizes can race is proved for computations that do not fork; that one size never races is proved for all computations."
  }
 ]
}