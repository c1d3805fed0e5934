{
 "claims": [
  {
   "property": "C01",
   "status": "proved",
   "theorems": [
    "FF.Props.C01_mmul",
    "FF.Props.C01_msquare",
    "FF.Props.C01_both_variants",
    "FF.Props.C01_choice_sound"
   ],
   "note": "second operand reduced; the first may be any n-limb number"
  },
  {
   "property": "C02",
   "status": "proved",
   "theorems": [
    "FF.Props.C02_mmul1"
   ],
   "note": ""
  },
  {
   "property": "C03",
   "status": "proved",
   "theorems": [
    "FF.Props.C03_toMontgomery",
    "FF.Props.C03_fromMontgomery",
    "FF.Props.C03_roundtrip",
    "FF.Props.C03_roundtrip_reduced",
    "FF.Props.C03_roundtrip'"
   ],
   "note": ""
  },
  {
   "property": "C04",
   "status": "proved",
   "theorems": [
    "FF.Props.C04_add",
    "FF.Props.C04_addLS",
    "FF.Props.C04_sub",
    "FF.Props.C04_subLS",
    "FF.Props.C04_subSL",
    "FF.Props.C04_neg",
    "FF.Props.C04_negLS",
    "FF.Props.C04_negLS_zero",
    "FF.Props.C04_copyS2L"
   ],
   "note": "the short operand is below q; for the negated sum it is not zero (C04_negLS_zero: zero plus zero comes out as q)"
  },
  {
   "property": "C05",
   "status": "proved",
   "theorems": [
    "FF.Props.C05_limbs",
    "FF.Props.C05_constants",
    "FF.Props.C05_np",
    "FF.Props.C05_modInv_unique",
    "FF.Props.C05_mask"
   ],
   "note": ""
  },
  {
   "property": "C06",
   "status": "proved",
   "theorems": [
    "FF.Props.C06_add",
    "FF.Props.C06_add_distinct"
   ],
   "note": ""
  },
  {
   "property": "C07",
   "status": "proved",
   "theorems": [
    "FF.Props.C07_sub",
    "FF.Props.C07_sub_distinct"
   ],
   "note": ""
  },
  {
   "property": "C08",
   "status": "proved",
   "theorems": [
    "FF.Props.C08_mul",
    "FF.Props.C08_square"
   ],
   "note": ""
  },
  {
   "property": "C09",
   "status": "proved",
   "theorems": [
    "FF.Props.C09_neg"
   ],
   "note": ""
  },
  {
   "property": "C10",
   "status": "proved",
   "theorems": [
    "FF.Props.C10_eq"
   ],
   "note": ""
  },
  {
   "property": "C11",
   "status": "proved",
   "theorems": [
    "FF.Props.C11_order",
    "FF.Props.C11_sval",
    "FF.Props.C11_sval_inj"
   ],
   "note": ""
  },
  {
   "property": "C12",
   "status": "proved",
   "theorems": [
    "FF.Props.C12_isTrue",
    "FF.Props.C12_logical",
    "FF.Props.C12_short"
   ],
   "note": ""
  },
  {
   "property": "C13",
   "status": "proved",
   "theorems": [
    "FF.Props.C13_and",
    "FF.Props.C13_or",
    "FF.Props.C13_xor",
    "FF.Props.C13_not"
   ],
   "note": ""
  },
  {
   "property": "C14",
   "status": "proved",
   "theorems": [
    "FF.Props.C14_shl",
    "FF.Props.C14_shr"
   ],
   "note": "in-place left shift of a long normal element by 64 bits or more is undefined behaviour (C15_shl_violated)"
  },
  {
   "property": "C15",
   "status": "partial",
   "theorems": [
    "FF.Props.C15_add_sub_partial",
    "FF.Props.C15_mul",
    "FF.Props.C15_add_violated",
    "FF.Props.C15_sub_violated",
    "FF.Props.C15_bor_violated",
    "FF.Props.C15_bnot_violated",
    "FF.Props.C15_shl_violated"
   ],
   "note": "false of the code: concrete in-place failures are proved; the positive theorems cover every non-clashing placement"
  },
  {
   "property": "C16",
   "status": "partial",
   "theorems": [
    "FF.Props.C16_toNormal",
    "FF.Props.C16_toLongNormal",
    "FF.Props.C16_toMontgomery_partial",
    "FF.Props.C16_toMontgomery_inplace",
    "FF.Props.C16_toMontgomery_violated"
   ],
   "note": "Fr_toMontgomery of a plain short into another element does not copy the short value"
  },
  {
   "property": "C17",
   "status": "partial",
   "theorems": [
    "FF.Props.C17_toInt_fits_partial",
    "FF.Props.C17_toInt_one_limb",
    "FF.Props.C17_toInt_violated"
   ],
   "note": "false of the code for moduli of more than one limb"
  },
  {
   "property": "C18",
   "status": "proved",
   "theorems": [
    "FF.Props.C18_element2str",
    "FF.Props.C18_str2element",
    "FF.Props.C18_str2element_digits",
    "FF.Props.C18_str2element_neg",
    "FF.Props.C18_text_roundtrip",
    "FF.Props.C18_text_roundtrip'",
    "FF.Props.C18_mpz_roundtrip",
    "FF.Props.C18_malformed_is_zero"
   ],
   "note": ""
  },
  {
   "property": "C19",
   "status": "proved",
   "theorems": [
    "FF.Props.C19_idiv",
    "FF.Props.C19_mod",
    "FF.Props.C19_div_zero_aborts",
    "FF.Props.C19_pow",
    "FF.Props.C19_inv",
    "FF.Props.C19_inv_unit",
    "FF.Props.C19_div"
   ],
   "note": ""
  },
  {
   "property": "C20",
   "status": "proved",
   "theorems": [
    "FF.Props.C20_program_refines"
   ],
   "note": ""
  },
  {
   "property": "C21",
   "status": "proved",
   "theorems": [
    "FF.Props.C21_ring",
    "FF.Props.C21_tests",
    "FF.Props.C21_constants",
    "FF.Props.C21_set",
    "FF.Props.C21_set_small_modulus",
    "FF.Props.C21_fromUI",
    "FF.Props.C21_fromString",
    "FF.Props.C21_toString",
    "FF.Props.C21_inv",
    "FF.Props.C21_div"
   ],
   "note": ""
  },
  {
   "property": "C22",
   "status": "proved",
   "theorems": [
    "FF.Props.C22_exp",
    "FF.Props.C22_long_scalar"
   ],
   "note": "from 2^28+1 to 2^29 bytes the 32-bit bit counter starts negative and the code returns one (C22_long_scalar)"
  },
  {
   "property": "C23",
   "status": "partial",
   "theorems": [
    "FF.Props.C23_roundtrip_partial",
    "FF.Props.C23_fromRprBE",
    "FF.Props.C23_short",
    "FF.Props.C23_zero_violated",
    "FF.Props.C23_long_buffer_violated"
   ],
   "note": "false of the code at zero (nothing is written) and for buffers longer than the field"
  },
  {
   "property": "C24",
   "status": "partial",
   "theorems": [
    "FF.Props.C24_reading",
    "FF.Props.C24_ring",
    "FF.Props.C24_conjugate",
    "FF.Props.C24_constants",
    "FF.Props.C24_tests",
    "FF.Props.C24_inverse",
    "FF.Props.C24_norm",
    "FF.Props.C24_square_partial",
    "FF.Props.C24_square_value",
    "FF.Props.C24_square_violated"
   ],
   "note": "Everything except squaring holds for every base field, every nr and every aliasing.  Squaring is proved for nr = -1 in odd characteristic, the only case the project uses; for every other nr the code is wrong (C24_square_violated), by exactly the amount in C24_square_value."
  },
  {
   "property": "C25",
   "status": "proved",
   "theorems": [
    "FF.Props.C25_reading",
    "FF.Props.C25_ring",
    "FF.Props.C25_mulXi",
    "FF.Props.C25_square",
    "FF.Props.C25_constants",
    "FF.Props.C25_tests",
    "FF.Props.C25_inverse",
    "FF.Props.C25_field"
   ],
   "note": ""
  },
  {
   "property": "C26",
   "status": "proved",
   "theorems": [
    "FF.Props.C26_reading",
    "FF.Props.C26_ring",
    "FF.Props.C26_constants",
    "FF.Props.C26_tests",
    "FF.Props.C26_inverse"
   ],
   "note": ""
  },
  {
   "property": "C27",
   "status": "proved",
   "theorems": [
    "FF.Props.C27_frobenius"
   ],
   "note": ""
  },
  {
   "property": "C28",
   "status": "partial",
   "theorems": [
    "FF.Props.C28_exp_partial",
    "FF.Props.C28_exp_in_place",
    "FF.Props.C28_exp_violated",
    "FF.Props.C28_long_scalar"
   ],
   "note": "Proved when the result is not the base.  In place the code always returns one (C28_exp_in_place), so the claim for every aliasing is false (C28_exp_violated)."
  },
  {
   "property": "C29",
   "status": "proved",
   "theorems": [
    "FF.Props.C29_every_point",
    "FF.Props.C29_on_curve",
    "FF.Props.C29_every_scale",
    "FF.Props.C29_add",
    "FF.Props.C29_add_mixed",
    "FF.Props.C29_add_affine",
    "FF.Props.C29_dbl",
    "FF.Props.C29_dbl_affine",
    "FF.Props.C29_overloads",
    "FF.Props.C29_zero"
   ],
   "note": "any field, any coefficient; the affine overloads need b ≠ 0 because (0,0) encodes zero"
  },
  {
   "property": "C30",
   "status": "partial",
   "theorems": [
    "FF.Props.C30_neg",
    "FF.Props.C30_neg_affine",
    "FF.Props.C30_neg_to_affine",
    "FF.Props.C30_neg_from_affine_partial",
    "FF.Props.C30_neg_zero_violated",
    "FF.Props.C30_sub",
    "FF.Props.C30_sub_inplace"
   ],
   "note": "false of the code for neg(Point, PointAffine) of zero"
  },
  {
   "property": "C31",
   "status": "partial",
   "theorems": [
    "FF.Props.C31_isZero",
    "FF.Props.C31_eq_partial",
    "FF.Props.C31_eq_symm_partial",
    "FF.Props.C31_proper",
    "FF.Props.C31_eq_affine",
    "FF.Props.C31_eq_violated",
    "FF.Props.C31_eq_violated_reachable"
   ],
   "note": "false of the code for the all-zero point as second operand of eq(Point, Point)"
  },
  {
   "property": "C32",
   "status": "proved",
   "theorems": [
    "FF.Props.C32_inplace",
    "FF.Props.C32_inplace_affine"
   ],
   "note": ""
  },
  {
   "property": "C33",
   "status": "proved",
   "theorems": [
    "FF.Props.C33_to_affine",
    "FF.Props.C33_canonical",
    "FF.Props.C33_from_affine"
   ],
   "note": ""
  },
  {
   "property": "C34",
   "status": "proved",
   "theorems": [
    "FF.Props.C34_naf"
   ],
   "note": ""
  },
  {
   "property": "C35",
   "status": "proved",
   "theorems": [
    "FF.Props.C35_mulByScalar",
    "FF.Props.C35_mulByScalar_affine",
    "FF.Props.C35_proper",
    "FF.Props.C35_long_scalar"
   ],
   "note": "from 2^28 bytes on the 32-bit digit counter is negative and the code returns zero (C35_long_scalar)"
  },
  {
   "property": "C36",
   "status": "proved",
   "theorems": [
    "FF.Props.C36_multiexp",
    "FF.Props.C36_multiexp_curve",
    "FF.Props.C36_schedule_independent"
   ],
   "note": ""
  },
  {
   "property": "C37",
   "status": "partial",
   "theorems": [
    "FF.Props.C37_strided_partial",
    "FF.Props.C37_violation_zero_length",
    "FF.Props.C37_violation_single"
   ],
   "note": "false of the code for a vector of length zero and for a single point; lengths above 2^32 are truncated"
  },
  {
   "property": "C38",
   "status": "partial",
   "theorems": [
    "FF.Props.C38_msm_partial",
    "FF.Props.C38_msm_value",
    "FF.Props.C38_violation"
   ],
   "note": "false of the code for scalars that use the top of the scalar width: a final carry is dropped; C38_msm_value gives the exact result for every input"
  },
  {
   "property": "C39",
   "status": "proved",
   "theorems": [
    "FF.Props.C39_agree",
    "FF.Props.C39_agree_curve"
   ],
   "note": ""
  },
  {
   "property": "C40",
   "status": "proved",
   "theorems": [
    "FF.Props.C40_constructor",
    "FF.Props.C40_total"
   ],
   "note": ""
  },
  {
   "property": "C41",
   "status": "proved",
   "theorems": [
    "FF.Props.C41_fft",
    "FF.Props.C41_rejects"
   ],
   "note": "Lengths up to 2^30, since parallelFor takes int; longer ones stop at an assertion."
  },
  {
   "property": "C42",
   "status": "partial",
   "theorems": [
    "FF.Props.C42_inverse_partial",
    "FF.Props.C42_violation_small"
   ],
   "note": "Proved for lengths from four up.  For lengths one and two ifft stops at an assertion (C42_violation_small)."
  },
  {
   "property": "C43",
   "status": "proved",
   "theorems": [
    "FF.Props.C43_bits",
    "FF.Props.C43_involution",
    "FF.Props.C43_permutation"
   ],
   "note": ""
  },
  {
   "property": "C44",
   "status": "proved",
   "theorems": [
    "FF.Props.C44_cover",
    "FF.Props.C44_empty",
    "FF.Props.C44_long_range",
    "FF.Props.C44_block"
   ],
   "note": "Ranges whose length is an int and at most 2^31-1 threads, as the interface takes int; a longer range overflows (C44_long_range)."
  },
  {
   "property": "C45",
   "status": "proved",
   "theorems": [
    "FF.Props.C45_wait",
    "FF.Props.C45_every",
    "FF.Props.C45_returns",
    "FF.Props.C45_overwritten"
   ],
   "note": "One client thread per worker, as the pool uses it; sequentially consistent memory.  C45_overwritten: a task submitted while another is pending replaces it."
  },
  {
   "property": "C46",
   "status": "partial",
   "theorems": [
    "FF.Props.C46_destructor_partial",
    "FF.Props.C46_violation",
    "FF.Props.C46_violation_reachable"
   ],
   "note": "Fails: the stop flag is set without the mutex, so the wake-up is lost when the worker has tested its condition and is not yet asleep (C46_violation, reachable).  Proved for every other state of the worker."
  },
  {
   "property": "C47",
   "status": "proved",
   "theorems": [
    "FF.Props.C47_log2",
    "FF.Props.C47_fftLog2"
   ],
   "note": ""
  },
  {
   "property": "C48",
   "status": "partial",
   "theorems": [
    "FF.Props.C48_split_partial",
    "FF.Props.C48_layers_partial",
    "FF.Props.C48_never_returns",
    "FF.Props.C48_diverges",
    "FF.Props.C48_termination",
    "FF.Props.C48_deterministic",
    "FF.Props.C48_violation_layers",
    "FF.Props.C48_violation_groups"
   ],
   "note": "Proved for every list of at least two elements, with or without its outer parentheses and with blanks anywhere.  Fails otherwise: texts without a top-level comma recurse for ever; several redundant layers around short components throw; adjacent groups are cut wrongly."
  },
  {
   "property": "C49",
   "status": "proved",
   "theorems": [
    "FF.Props.C49_f2",
    "FF.Props.C49_f6",
    "FF.Props.C49_f12",
    "FF.Props.C49_radix_violation"
   ],
   "note": "Default radix; in another radix toString cannot be read back because fromString takes none (C49_radix_violation).  Texts below 2^31 characters."
  },
  {
   "property": "C50",
   "status": "proved",
   "theorems": [
    "FF.Props.C50_open",
    "FF.Props.C50_type",
    "FF.Props.C50_version"
   ],
   "note": "Filling the buffer (mmap, parcpy) is assumed to copy the file."
  },
  {
   "property": "C51",
   "status": "proved",
   "theorems": [
    "FF.Props.C51_history",
    "FF.Props.C51_file",
    "FF.Props.C51_refused",
    "FF.Props.C51_close",
    "FF.Props.C51_close_idle"
   ],
   "note": "C51_history: what every call answers while reads stay inside the open section.  C51_close: the check on closing, for reads of any length, also beyond the section (which the code does not refuse).  Closing with check when no section is open follows a null pointer (C51_close_idle) and is outside the contract."
  },
  {
   "property": "C52",
   "status": "proved",
   "theorems": [
    "FF.Props.C52_loadHeader",
    "FF.Props.C52_file"
   ],
   "note": ""
  },
  {
   "property": "C53",
   "status": "proved",
   "theorems": [
    "FF.Props.C53_loadHeader",
    "FF.Props.C53_protocol"
   ],
   "note": "Point sizes expressible in 32 bits.  C53_protocol also shows that the refused file is left with a section open."
  },
  {
   "property": "C54",
   "status": "partial",
   "theorems": [
    "FF.Props.C54_add",
    "FF.Props.C54_sub",
    "FF.Props.C54_addLS",
    "FF.Props.C54_subLS",
    "FF.Props.C54_subSL",
    "FF.Props.C54_neg",
    "FF.Props.C54_negLS",
    "FF.Props.C54_copy",
    "FF.Props.C54_zero",
    "FF.Props.C54_cmp",
    "FF.Props.C54_copyS2L",
    "FF.Props.C54_swap_partial",
    "FF.Props.C54_swap_violation"
   ],
   "note": "Every listed routine returns the limbs of the portable code for every limb count, operand and aliasing, and keeps all other memory.  Raw swap is false of the code: it stores rbx instead of the saved limb (C54_swap_partial gives its exact effect, C54_swap_violation a witness)."
  },
  {
   "property": "C55",
   "status": "partial",
   "theorems": [
    "FF.Props.C55_mul",
    "FF.Props.C55_square",
    "FF.Props.C55_to",
    "FF.Props.C55_mul1_partial",
    "FF.Props.C55_from_partial",
    "FF.Props.C55_mul1_violation",
    "FF.Props.C55_mul1_opt_violation",
    "FF.Props.C55_from_violation",
    "FF.Props.C55_from_opt_violation"
   ],
   "note": "Product, square and conversion to Montgomery form hold for every odd modulus and every limb count.  The product by one word and the conversion from Montgomery form are false of the code for some limb counts (the product by a word for seven limbs with the optimisation and, when the operands are large, for six limbs without; the conversion for seven limbs), because the register manager of the generator uses a stack slot for a variable that it holds in a register: the violation theorems run the printed code for P-384, Ed448 and 2^446-77.  For six limbs without the optimisation the same slip occurs in the conversion but is harmless, which is part of C55_from_partial."
  },
  {
   "property": "C56",
   "status": "partial",
   "theorems": [
    "FF.Props.C56_aliasing",
    "FF.Props.C56_shifts",
    "FF.Props.C56_swap",
    "FF.Props.C56_negLS_violated",
    "FF.Props.C56_shl_violated"
   ],
   "note": "false of the code for in-place long-minus-short negation and in-place left shifts by 64 bits or more"
  },
  {
   "property": "C57",
   "status": "partial",
   "theorems": [
    "FF.Props.C57_fft_race_free",
    "FF.Props.C57_table_race_partial",
    "FF.Props.C57_violation"
   ],
   "note": "The transforms are race-free.  The constructor races exactly when nRoots / nThreads = 1 and nThreads >= 3 (C57_table_race_partial is an equivalence); the raced write stores the value already there, so C40 still holds when each element copy is atomic."
  },
  {
   "property": "C58",
   "status": "proved",
   "theorems": [
    "FF.Props.C58_initial",
    "FF.Props.C58_parallelFor",
    "FF.Props.C58_sequence",
    "FF.Props.C58_parallelBlock"
   ],
   "note": ""
  },
  {
   "property": "C59",
   "status": "partial",
   "theorems": [
    "FF.Props.C59_type_partial",
    "FF.Props.C50_version",
    "FF.Props.C59_violation_truncated",
    "FF.Props.C59_violation_size"
   ],
   "note": "Only the type and version are checked: a truncated header is read past its end, and section sizes are not compared with the file size."
  },
  {
   "property": "C60",
   "status": "proved",
   "theorems": [
    "FF.Props.C60_multiexp",
    "FF.Props.C60_strided",
    "FF.Props.C60_strided_agree",
    "FF.Props.C60_msm",
    "FF.Props.C60_msm_agree",
    "FF.Props.C60_multiexp_race_free",
    "FF.Props.C60_msm_race_free"
   ],
   "note": "Where the sum itself is only partial (C37: vector lengths 1 to 2^32; C38: scalars below 2^(8*size-2)) the value theorems carry the same conditions; the agreement and race theorems do not.  A point object is one memory cell."
  },
  {
   "property": "C61",
   "status": "partial",
   "theorems": [
    "FF.Props.C61_add_partial",
    "FF.Props.C61_add_distinct_partial",
    "FF.Props.C61_sub_partial",
    "FF.Props.C61_sub_distinct_partial",
    "FF.Props.C61_mul_partial",
    "FF.Props.C61_square",
    "FF.Props.C61_neg",
    "FF.Props.C61_add_violated",
    "FF.Props.C61_sub_violated",
    "FF.Props.C61_mul_six_violated",
    "FF.Props.C61_conv_six_violated",
    "FF.Props.C61_seven_violated"
   ],
   "note": "Square and negation hold for every modulus; for every modulus also addition and subtraction unless a plain short operand stands beside one in Montgomery form (MixOk), and multiplication unless it stands beside a long one (MulOk).  With such operands the claim is false of the code for the excluded moduli: multiplication for six-limb moduli without the optimisation close to 2^384 (C61_mul_six_violated, P-384; ConvRight still gives add and sub there; C61_conv_six_violated shows them wrong for another such modulus), and add, sub and mul for seven limbs with the optimisation (C61_seven_violated).  Add and sub in place are false of the code for mixed representations (violation theorems)."
  },
  {
   "property": "C62",
   "status": "partial",
   "theorems": [
    "FF.Props.C62_add_partial",
    "FF.Props.C62_sub_partial",
    "FF.Props.C62_mul_partial",
    "FF.Props.C62_square",
    "FF.Props.C62_neg",
    "FF.Props.C62_toNormal_partial",
    "FF.Props.C62_toLongNormal_partial",
    "FF.Props.C62_toMontgomery_partial",
    "FF.Props.C62_toMontgomery_violated",
    "FF.Props.C62_eq_partial",
    "FF.Props.C62_compare_partial",
    "FF.Props.C62_logical",
    "FF.Props.C62_bitwise_partial",
    "FF.Props.C62_bnot_partial",
    "FF.Props.C62_shift_partial",
    "FF.Props.C62_toInt_partial"
   ],
   "note": "For every memory content, valid or not; the product and the square need the long parts they read to be reduced, and the bitwise operations a modulus of two limbs or more or of 64 bits.  Missing: the operands for which C61, C63, C64, C66, C67 and C68 are false of the assembly (seven limbs: long Montgomery operands that must be converted, plain short operands beside Montgomery ones, short by long products; multiplication also for six limbs without the optimisation close to 2^384).  The conversion of a short to Montgomery form into another element differs: the assembly copies the small value, the portable code does not."
  },
  {
   "property": "C63",
   "status": "partial",
   "theorems": [
    "FF.Props.C63_toNormal_partial",
    "FF.Props.C63_toLongNormal_partial",
    "FF.Props.C63_toMontgomery_partial",
    "FF.Props.C63_six_violated",
    "FF.Props.C63_seven_violated",
    "FF.Props.C63_ed448_violated"
   ],
   "note": "For every modulus: to plain form of the short and the plain elements (FromOk), to Montgomery form of the long and the Montgomery elements (ToOk).  For the other elements false of the code for seven-limb moduli (conversion to Montgomery form: those with the optimisation, and six limbs without it close to 2^384), as the violation theorems show for 2^446-77, the Ed448 prime and a modulus of six limbs."
  },
  {
   "property": "C64",
   "status": "partial",
   "theorems": [
    "FF.Props.C64_flags_partial",
    "FF.Props.C64_req_partial",
    "FF.Props.C64_eq_partial",
    "FF.Props.C64_order_partial",
    "FF.Props.C64_eq_six_violated",
    "FF.Props.C64_eq_seven_violated",
    "FF.Props.C64_order_ed448_violated"
   ],
   "note": "For every modulus the order when no operand is a long element in Montgomery form (FromOk) and equality unless a plain short operand stands beside one in Montgomery form (MixOk).  With such operands false of the code for seven-limb moduli: the order for both variants (C64_order_ed448_violated), equality with the optimisation (C64_eq_seven_violated).  Equality is proved for seven limbs without the optimisation.  With such operands it is also false for some moduli of six limbs without the optimisation within one part in 2^33 of 2^384 (C64_eq_six_violated)."
  },
  {
   "property": "C65",
   "status": "proved",
   "theorems": [
    "FF.Props.C65_logical",
    "FF.Props.C65_lnot",
    "FF.Props.C65_isTrue"
   ],
   "note": "Every modulus."
  },
  {
   "property": "C66",
   "status": "partial",
   "theorems": [
    "FF.Props.C66_bitwise_partial",
    "FF.Props.C66_not_partial",
    "FF.Props.C66_and_violated",
    "FF.Props.C66_not_violated",
    "FF.Props.C66_ed448_violated"
   ],
   "note": "For the seven-limb moduli proved when no operand is a long element in Montgomery form, false of the code with one (C66_ed448_violated).  In place on a short or Montgomery operand the claim is false of the code (violation theorems; C15 for short operands), as in the portable code."
  },
  {
   "property": "C67",
   "status": "partial",
   "theorems": [
    "FF.Props.C67_shift_partial",
    "FF.Props.C67_rawShl",
    "FF.Props.C67_rawShr",
    "FF.Props.C67_ed448_violated"
   ],
   "note": "The raw shifts hold for every modulus of fewer than 2^31 bits.  The tagged ones are, for the seven-limb moduli, proved when no operand is a long element in Montgomery form and false of the code with one (C67_ed448_violated)."
  },
  {
   "property": "C68",
   "status": "partial",
   "theorems": [
    "FF.Props.C68_toInt_fits_partial",
    "FF.Props.C68_toInt_one_limb",
    "FF.Props.C68_toInt_small_violated",
    "FF.Props.C68_toInt_large_violated",
    "FF.Props.C68_seven_violated"
   ],
   "note": "In full for the moduli of one limb.  For more limbs the claim is false of the code: some elements far from zero are answered with a small negative number (as in the portable code, C17), and a small negative value fails when it exceeds the first limb of the modulus.  Also false for long Montgomery elements of seven-limb moduli (C68_seven_violated); the others are covered."
  },
  {
   "property": "C69",
   "status": "partial",
   "theorems": [
    "FF.Props.C69_add",
    "FF.Props.C69_addLS",
    "FF.Props.C69_sub",
    "FF.Props.C69_subLS",
    "FF.Props.C69_subSL",
    "FF.Props.C69_subRegular",
    "FF.Props.C69_neg",
    "FF.Props.C69_copy",
    "FF.Props.C69_copyS2L",
    "FF.Props.C69_swap",
    "FF.Props.C69_bits",
    "FF.Props.C69_isZero",
    "FF.Props.C69_cmp",
    "FF.Props.C69_isEq_partial",
    "FF.Props.C69_isEq_violation",
    "FF.Props.C69_negLS_partial",
    "FF.Props.C69_negLS_violation",
    "FF.Props.C69_negLS_wide_violation"
   ],
   "note": "False of the code in two places: rawIsEq for seven limbs compares the words 4 to 6 only, and rawNegLS (negative short minus long) returns an unreduced array unless the sum of the operands exceeds the modulus.  With 11 and 12 limbs its registers overlap besides and the result is wrong even for a zero long operand (C69_negLS_wide_violation).  What the routine returns is proved for all widths; nothing else is missing."
  },
  {
   "property": "C70",
   "status": "proved",
   "theorems": [
    "FF.Props.C70_mmul",
    "FF.Props.C70_mmul1",
    "FF.Props.C70_fromMontgomery"
   ],
   "note": "Both printed variants, all widths the generator accepts."
  },
  {
   "property": "C71",
   "status": "partial",
   "theorems": [
    "FF.Props.C71_shr",
    "FF.Props.C71_shl_partial",
    "FF.Props.C71_shl_one",
    "FF.Props.C71_shl_one_violation",
    "FF.Props.C71_outside"
   ],
   "note": "Right shift: proved for all widths.  Left shift: proved for 2 to 12 limbs; for one limb it is false of the code, which neither masks nor reduces (proved).  Counts of 64n or more, which the tagged operations never pass, leave the jump table."
  },
  {
   "property": "C72",
   "status": "partial",
   "theorems": [
    "FF.Props.C72_operations",
    "FF.Props.C72_division",
    "FF.Props.C72_reading",
    "FF.Props.C72_group",
    "FF.Props.C72_tests",
    "FF.Props.C72_scalar",
    "FF.Props.C72_multiexp",
    "FF.Props.C72_msm_partial",
    "FF.Props.C72_agree_partial"
   ],
   "note": "Stated for any reading of the coordinates by a field homomorphism; arrays of limbs and pairs of them are instances.  Missing: msm.cpp with scalars longer than 8*scalarSize-2 bits, which the code gets wrong (C38)."
  },
  {
   "property": "C73",
   "status": "proved",
   "theorems": [
    "FF.Props.C73_g1_texts",
    "FF.Props.C73_g1_order",
    "FF.Props.C73_g1_generator",
    "FF.Props.C73_g1_scalar",
    "FF.Props.C73_g1_multiexp",
    "FF.Props.C73_g2_texts",
    "FF.Props.C73_g2_coefficient",
    "FF.Props.C73_g2_generator",
    "FF.Props.C73_g2_scalar",
    "FF.Props.C73_g2_multiexp"
   ],
   "note": "On limb arrays.  The number of points of the first curve is proved from the order of the generator and a bound on the number of points."
  },
  {
   "property": "C74",
   "status": "partial",
   "theorems": [
    "FF.Props.C74_constructor",
    "FF.Props.C74_total",
    "FF.Props.C74_fft",
    "FF.Props.C74_inverse_partial"
   ],
   "note": "Missing: the inverse for sizes 1 and 2, where ifft stops the program (C42)."
  },
  {
   "property": "C75",
   "status": "partial",
   "theorems": [
    "FF.Props.C75_product_partial",
    "FF.Props.C75_total_partial"
   ],
   "note": "Missing: sizes 1 and 2, where ifft stops the program (C42)."
  },
  {
   "property": "C76",
   "status": "partial",
   "theorems": [
    "FF.Props.C76_placement",
    "FF.Props.C76_placement1",
    "FF.Props.C76_placement2",
    "FF.Props.C76_placement3",
    "FF.Props.C76_add",
    "FF.Props.C76_sub_partial",
    "FF.Props.C76_sub_violation",
    "FF.Props.C76_mul",
    "FF.Props.C76_square",
    "FF.Props.C76_neg",
    "FF.Props.C76_eq",
    "FF.Props.C76_order",
    "FF.Props.C76_logical",
    "FF.Props.C76_bitwise",
    "FF.Props.C76_not",
    "FF.Props.C76_shift_partial",
    "FF.Props.C76_shl_one_violation",
    "FF.Props.C76_convert",
    "FF.Props.C76_toInt_same",
    "FF.Props.C76_program_partial"
   ],
   "note": "All operations for up to 12 limbs, except where the code is wrong: a negative short minus a long normal element (C76_sub_violation) and left shifts for one-limb moduli (C76_shl_one_violation); both proved to be violations."
  },
  {
   "property": "C77",
   "status": "partial",
   "theorems": [
    "FF.Props.C77_ring",
    "FF.Props.C77_mul1_partial",
    "FF.Props.C77_tests_partial",
    "FF.Props.C77_constants",
    "FF.Props.C77_from",
    "FF.Props.C77_int",
    "FF.Props.C77_to_partial",
    "FF.Props.C77_div",
    "FF.Props.C77_exp",
    "FF.Props.C77_bytes_partial",
    "FF.Props.C77_field_partial",
    "FF.Props.C77_placement",
    "FF.Props.C77_placement1",
    "FF.Props.C77_eq_violation",
    "FF.Props.C77_toMpz_violation",
    "FF.Props.C77_mul1_violation"
   ],
   "note": "False of the code for seven limbs: the equality test on ARM64 calls different residues equal, the conversion out of the class on x86-64 is wrong; and for the product by a word on x86-64 for six limbs without the optimisation (P-384) and seven with it.  These are the exclusions of the partial theorems.  Bytes as in C23: zero and longer buffers are missing.  swap is in C54 and C69."
  },
  {
   "property": "C78",
   "status": "partial",
   "theorems": [
    "FF.Props.C78_portable",
    "FF.Props.C78_x86_partial",
    "FF.Props.C78_x86_same",
    "FF.Props.C78_upper_violation"
   ],
   "note": "The declared type of the count is int, whose register the System V convention leaves undefined above bit 31; the x86-64 code multiplies by the whole register (C78_upper_violation).  C78_x86_partial assumes the upper half clear."
  },
  {
   "property": "C79",
   "status": "partial",
   "theorems": [
    "FF.Props.C79_inplace_partial",
    "FF.Props.C79_program_partial",
    "FF.Props.C79_copy"
   ],
   "note": "Any caller that keeps the elements and the tables as they are between the calls.  Missing: calls with operands of a form for which the called routine is wrong for the modulus (six limbs close to 2^384, seven limbs: C61_mul_six_violated, C61_seven_violated, C63_ed448_violated and others) and addition, subtraction, bitwise operations and complement placed on an operand that is overwritten before it is read, where C61_add_violated, C61_sub_violated, C66_and_violated and C66_not_violated show wrong results."
  },
  {
   "property": "C80",
   "status": "partial",
   "theorems": [
    "FF.Props.C80_table",
    "FF.Props.C80_fft",
    "FF.Props.C80_inverse_partial"
   ],
   "note": "Missing: the inverse for sizes 1 and 2, where ifft stops the program (C42)."
  },
  {
   "property": "C81",
   "status": "partial",
   "theorems": [
    "FF.Props.C81_reading",
    "FF.Props.C81_constants",
    "FF.Props.C81_quadratic",
    "FF.Props.C81_sextic",
    "FF.Props.C81_dodecic",
    "FF.Props.C81_quadratic_scalars",
    "FF.Props.C81_sextic_scalars",
    "FF.Props.C81_dodecic_scalars",
    "FF.Props.C81_tests",
    "FF.Props.C81_exp_partial",
    "FF.Props.C81_frobenius_exp"
   ],
   "note": "Missing: the power with the result placed on the base, which returns one (C28_exp_in_place, C28_exp_violated)."
  },
  {
   "property": "C82",
   "status": "partial",
   "theorems": [
    "FF.Props.C82_msm_partial",
    "FF.Props.C82_msm_agree",
    "FF.Props.C82_g1",
    "FF.Props.C82_g2",
    "FF.Props.C82_g1_agree",
    "FF.Props.C82_g2_agree"
   ],
   "note": "Two or more points: for none and one the function does not use the pool (C38).  Missing: scalars of 8*size-1 and 8*size bits, for which the function is wrong (C38_violation); for these C82_msm_agree says that every run still gives the same element.  On the BN254 groups with scalars below r (C82_g1, C82_g2) nothing is missing."
  },
  {
   "property": "C83",
   "status": "proved",
   "theorems": [
    "FF.Props.C83_reads",
    "FF.Props.C83_writes",
    "FF.Props.C83_rawCopy",
    "FF.Props.C83_copy",
    "FF.Props.C83_rawZero",
    "FF.Props.C83_rawSwap",
    "FF.Props.C83_rawCopyS2L",
    "FF.Props.C83_rawAddLL",
    "FF.Props.C83_rawAddLS",
    "FF.Props.C83_rawSubLL",
    "FF.Props.C83_rawSubLS",
    "FF.Props.C83_rawSubSL",
    "FF.Props.C83_rawNegLS",
    "FF.Props.C83_rawNegL",
    "FF.Props.C83_rawIsEq",
    "FF.Props.C83_rawIsZero",
    "FF.Props.C83_mul",
    "FF.Props.C83_square",
    "FF.Props.C83_mul1",
    "FF.Props.C83_from",
    "FF.Props.C83_toMontgomery",
    "FF.Props.C83_rawShr",
    "FF.Props.C83_rawShl",
    "FF.Props.C83_copyn"
   ],
   "note": "The list of accesses follows the execution; C83_reads and C83_writes say that it is complete.  copyn: as many elements as the whole register says (C78)."
  },
  {
   "property": "C84",
   "status": "partial",
   "theorems": [
    "FF.Props.C84_reads",
    "FF.Props.C84_writes",
    "FF.Props.C84_rawIsZero",
    "FF.Props.C84_rawIsEq",
    "FF.Props.C84_rawCmp",
    "FF.Props.C84_rawSwap",
    "FF.Props.C84_rawCopy",
    "FF.Props.C84_rawCopyS2L",
    "FF.Props.C84_rawSubRegular",
    "FF.Props.C84_bitwise",
    "FF.Props.C84_rawNot",
    "FF.Props.C84_rawAdd",
    "FF.Props.C84_rawAddLS",
    "FF.Props.C84_rawSub",
    "FF.Props.C84_rawSubLS",
    "FF.Props.C84_rawSubSL",
    "FF.Props.C84_rawNeg",
    "FF.Props.C84_rawNegLS",
    "FF.Props.C84_rawShr",
    "FF.Props.C84_rawShl",
    "FF.Props.C84_mul",
    "FF.Props.C84_mul1",
    "FF.Props.C84_from_partial",
    "FF.Props.C84_from_violated",
    "FF.Props.C84_from_outside",
    "FF.Props.C84_from_bound"
   ],
   "note": "False of the code for the conversion out of Montgomery form with an odd number of limbs, which reads the word behind its operand (C84_from_violated) and no further (C84_from_bound); everything else is proved."
  },
  {
   "property": "C85",
   "status": "proved",
   "theorems": [
    "FF.Props.C85_reads",
    "FF.Props.C85_reads_cmp",
    "FF.Props.C85_reads_shift",
    "FF.Props.C85_toMontgomery",
    "FF.Props.C85_toNormal",
    "FF.Props.C85_toLongNormal",
    "FF.Props.C85_add",
    "FF.Props.C85_sub",
    "FF.Props.C85_neg",
    "FF.Props.C85_square",
    "FF.Props.C85_mul",
    "FF.Props.C85_rgt",
    "FF.Props.C85_rlt",
    "FF.Props.C85_req",
    "FF.Props.C85_cmp",
    "FF.Props.C85_cmpNot",
    "FF.Props.C85_land",
    "FF.Props.C85_lor",
    "FF.Props.C85_lnot",
    "FF.Props.C85_isTrue",
    "FF.Props.C85_band",
    "FF.Props.C85_bor",
    "FF.Props.C85_bxor",
    "FF.Props.C85_bnot",
    "FF.Props.C85_shl",
    "FF.Props.C85_shr",
    "FF.Props.C85_toInt"
   ],
   "note": "Confined (in the same file) is the specification.  The three C85_reads theorems say that the list of accesses is complete.  That the routines return is C61-C68."
  },
  {
   "property": "C86",
   "status": "partial",
   "theorems": [
    "FF.Props.C86_reverse",
    "FF.Props.C86_fft_loops",
    "FF.Props.C86_fft_table",
    "FF.Props.C86_fft",
    "FF.Props.C86_ifft",
    "FF.Props.C86_constructor",
    "FF.Props.C86_naf",
    "FF.Props.C86_window_partial",
    "FF.Props.C86_multiexp_loops",
    "FF.Props.C86_combine",
    "FF.Props.C86_multiexp",
    "FF.Props.C86_strided",
    "FF.Props.C86_msm_loops",
    "FF.Props.C86_msm",
    "FF.Props.C86_violation_domain",
    "FF.Props.C86_violation_window"
   ],
   "note": "False of the code for scalars of fewer than eight bytes with two or more points (C86_violation_window: the eight-byte load of the last scalar goes past the array) and for a transform longer than the domain of the object (C86_violation_domain: no check, undefined shift count in the subscript of the root).  Everything else is proved, for scalars of eight bytes or more and lengths within the domain."
  },
  {
   "property": "C87",
   "status": "partial",
   "theorems": [
    "FF.Props.C87_default",
    "FF.Props.C87_value",
    "FF.Props.C87_fixed_partial",
    "FF.Props.C87_widths_agree",
    "FF.Props.C87_loops",
    "FF.Props.C87_violation_one"
   ],
   "note": "Widths of 2 to 30 bits and scalars below 2^(8*size-2), in every interleaving; C87_value gives the exact result for every scalar and every width of 1 to 30 bits. Fails: with a width of one bit every nonzero scalar s acts as s-2^(8*size); larger scalars lose a carry as in C38. Widths above 30 overflow the int variables and are outside the model."
  },
  {
   "property": "C88",
   "status": "partial",
   "theorems": [
    "FF.Props.C88_x86",
    "FF.Props.C88_apart",
    "FF.Props.C88_arith_partial",
    "FF.Props.C88_toInt_partial",
    "FF.Props.C88_arm",
    "FF.Props.C88_arm_apart",
    "FF.Props.C88_arm_add",
    "FF.Props.C88_shared_violated"
   ],
   "note": "C88_x86 (all x86-64 routines, with their callees inlined at the call instruction) and C88_arm (all raw ARM64 routines) are the property for calls that return when made alone; C88_apart derives their hypothesis from the footprints of C85, C88_arm_apart from those of C84. C88_arith_partial, C88_toInt_partial and C88_arm_add combine this with C61, C68 and C69: each result is right, without the calls that are wrong alone. C88_shared_violated shows the hypothesis needed. Memory is sequentially consistent here; C90 has the memory model of x86-64. Missing: the calls that are wrong alone; a toInt that fails (it ends the program)."
  },
  {
   "property": "C89",
   "status": "partial",
   "theorems": [
    "FF.Props.C89_programs_partial",
    "FF.Props.C89_programs_placed_partial"
   ],
   "note": "C89_programs_partial: for programs whose calls are right when made alone (ClearAll, the hypothesis of C79), every interleaving of the instructions ends after the same number of instructions, has no data race, and every element holds the value of its program on residues. C89_programs_placed_partial states it without that hypothesis for moduli of other than six and seven limbs and programs whose results are not placed on operands where this matters. Missing: the calls that are wrong alone; toInt. The memory model of x86-64 is in C90."
  },
  {
   "property": "C90",
   "status": "partial",
   "theorems": [
    "FF.Props.C90_x86",
    "FF.Props.C90_arith_partial",
    "FF.Props.C90_programs_partial",
    "FF.Props.C90_programs_placed_partial",
    "FF.Props.C90_arm_partial",
    "FF.Props.C90_buffers_matter"
   ],
   "note": "C90_x86 is the property for all x86-64 routines in calls that return when made alone, with store buffers whose stores reach the memory at any time and may overtake stores to other cells (more behaviours than x86-TSO). C90_arith_partial and C90_programs_partial combine it with C61 and C79 (calls that are right alone). C90_buffers_matter: the buffers add outcomes (store buffering) that interleavings do not have. Missing: the calls that are wrong alone; for ARM64 (C90_arm_partial) the reordering of loads."
  },
  {
   "property": "C91",
   "status": "proved",
   "theorems": [
    "FF.Props.C91_programs",
    "FF.Props.C91_buffered"
   ],
   "note": "Exact limbs for every program of the seven raw routines, sequentially consistent (C91_programs) and with store buffers (C91_buffered). The Montgomery product and square are right for every modulus (C55), so no calls are left out. The other routines of the raw class (product by a word, conversions, swap, tests) are not in the programs; C88_x86 and C90_x86 cover their concurrent calls."
  },
  {
   "property": "C92",
   "status": "partial",
   "theorems": [
    "FF.Props.C92_fft",
    "FF.Props.C92_loops",
    "FF.Props.C92_inverse_partial"
   ],
   "note": "C92_fft: every run ends right, and runs exist. C92_inverse_partial: missing are sizes one and two, where ifft stops the program (C42_violation_small). Between two parallel loops the pool hands over: a loop starts when all threads of the previous one have returned and their stores have reached the memory (C45, C80 for the protocol). The part of a loop that a thread runs is the straight list of its calls; the index arithmetic between the calls is compiled C++ and not instructions of the model."
  },
  {
   "property": "C93",
   "status": "partial",
   "theorems": [
    "FF.Props.C93_product_partial",
    "FF.Props.C93_loop"
   ],
   "note": "C93_product_partial: missing are sizes one and two, where ifft stops the program (C42_violation_small). As in C92 the index arithmetic between the calls is not instructions of the model, and a step starts when the stores of the previous one have reached the memory. The loop over the cells is the caller's code."
  },
  {
   "property": "C94",
   "status": "proved",
   "theorems": [
    "FF.Props.C94_loop",
    "FF.Props.C94_deterministic",
    "FF.Props.C94_sequence"
   ],
   "note": "C94_loop: ends, no race, limbs of the for loop, everything else kept. C94_sequence: loops one after the other. C94_deterministic: the same limbs for all runs and numbers of threads. As in C92 the index arithmetic between the calls is not instructions of the model."
  },
  {
   "property": "C95",
   "status": "proved",
   "theorems": [
    "FF.Props.C95_locals",
    "FF.Props.C95_deterministic",
    "FF.Props.C95_sequence"
   ],
   "note": "C95_locals: ends, no race, limbs of the for loop in the shared elements, everything else but the locals kept. C95_deterministic: the same limbs for all runs and numbers of threads. C95_sequence: loops one after the other, each with its own number of locals. As in C92 the index arithmetic between the calls is not instructions of the model."
  }
 ]
}