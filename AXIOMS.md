# Axioms of the theorems in the manifest

Generated by `#print axioms` for every theorem of `MANIFEST.json`.

## propext, Classical.choice, Quot.sound

* `FF.Props.C01_mmul`
* `FF.Props.C01_msquare`
* `FF.Props.C01_both_variants`
* `FF.Props.C01_choice_sound`
* `FF.Props.C02_mmul1`
* `FF.Props.C03_toMontgomery`
* `FF.Props.C03_fromMontgomery`
* `FF.Props.C03_roundtrip`
* `FF.Props.C03_roundtrip_reduced`
* `FF.Props.C03_roundtrip'`
* `FF.Props.C04_add`
* `FF.Props.C04_addLS`
* `FF.Props.C04_sub`
* `FF.Props.C04_subLS`
* `FF.Props.C04_subSL`
* `FF.Props.C04_neg`
* `FF.Props.C04_negLS`
* `FF.Props.C04_negLS_zero`
* `FF.Props.C04_copyS2L`
* `FF.Props.C05_limbs`
* `FF.Props.C05_constants`
* `FF.Props.C05_np`
* `FF.Props.C05_modInv_unique`
* `FF.Props.C05_mask`
* `FF.Props.C06_add`
* `FF.Props.C06_add_distinct`
* `FF.Props.C07_sub`
* `FF.Props.C07_sub_distinct`
* `FF.Props.C08_mul`
* `FF.Props.C08_square`
* `FF.Props.C09_neg`
* `FF.Props.C10_eq`
* `FF.Props.C11_order`
* `FF.Props.C12_isTrue`
* `FF.Props.C12_logical`
* `FF.Props.C13_and`
* `FF.Props.C13_or`
* `FF.Props.C13_xor`
* `FF.Props.C13_not`
* `FF.Props.C14_shl`
* `FF.Props.C14_shr`
* `FF.Props.C15_add_sub_partial`
* `FF.Props.C15_mul`
* `FF.Props.C15_add_violated`
* `FF.Props.C15_sub_violated`
* `FF.Props.C15_bor_violated`
* `FF.Props.C15_bnot_violated`
* `FF.Props.C16_toNormal`
* `FF.Props.C16_toLongNormal`
* `FF.Props.C16_toMontgomery_partial`
* `FF.Props.C16_toMontgomery_inplace`
* `FF.Props.C16_toMontgomery_violated`
* `FF.Props.C17_toInt_fits_partial`
* `FF.Props.C17_toInt_one_limb`
* `FF.Props.C17_toInt_violated`
* `FF.Props.C18_element2str`
* `FF.Props.C18_str2element`
* `FF.Props.C18_str2element_digits`
* `FF.Props.C18_str2element_neg`
* `FF.Props.C18_text_roundtrip`
* `FF.Props.C18_text_roundtrip'`
* `FF.Props.C18_mpz_roundtrip`
* `FF.Props.C18_malformed_is_zero`
* `FF.Props.C19_idiv`
* `FF.Props.C19_mod`
* `FF.Props.C19_div_zero_aborts`
* `FF.Props.C19_pow`
* `FF.Props.C19_inv`
* `FF.Props.C19_inv_unit`
* `FF.Props.C19_div`
* `FF.Props.C20_program_refines`
* `FF.Props.C21_ring`
* `FF.Props.C21_tests`
* `FF.Props.C21_constants`
* `FF.Props.C21_set`
* `FF.Props.C21_fromUI`
* `FF.Props.C21_fromString`
* `FF.Props.C21_toString`
* `FF.Props.C21_inv`
* `FF.Props.C21_div`
* `FF.Props.C22_exp`
* `FF.Props.C22_long_scalar`
* `FF.Props.C23_roundtrip_partial`
* `FF.Props.C23_fromRprBE`
* `FF.Props.C23_zero_violated`
* `FF.Props.C24_reading`
* `FF.Props.C24_ring`
* `FF.Props.C24_conjugate`
* `FF.Props.C24_constants`
* `FF.Props.C24_tests`
* `FF.Props.C24_inverse`
* `FF.Props.C24_norm`
* `FF.Props.C24_square_partial`
* `FF.Props.C24_square_value`
* `FF.Props.C24_square_violated`
* `FF.Props.C25_reading`
* `FF.Props.C25_ring`
* `FF.Props.C25_mulXi`
* `FF.Props.C25_square`
* `FF.Props.C25_constants`
* `FF.Props.C25_tests`
* `FF.Props.C25_inverse`
* `FF.Props.C25_field`
* `FF.Props.C26_reading`
* `FF.Props.C26_ring`
* `FF.Props.C26_constants`
* `FF.Props.C26_tests`
* `FF.Props.C26_inverse`
* `FF.Props.C27_frobenius`
* `FF.Props.C28_exp_partial`
* `FF.Props.C28_exp_in_place`
* `FF.Props.C28_exp_violated`
* `FF.Props.C28_long_scalar`
* `FF.Props.C29_every_point`
* `FF.Props.C29_on_curve`
* `FF.Props.C29_every_scale`
* `FF.Props.C29_add`
* `FF.Props.C29_add_mixed`
* `FF.Props.C29_add_affine`
* `FF.Props.C29_dbl`
* `FF.Props.C29_dbl_affine`
* `FF.Props.C29_overloads`
* `FF.Props.C29_zero`
* `FF.Props.C30_neg`
* `FF.Props.C30_neg_affine`
* `FF.Props.C30_neg_to_affine`
* `FF.Props.C30_neg_from_affine_partial`
* `FF.Props.C30_neg_zero_violated`
* `FF.Props.C30_sub`
* `FF.Props.C30_sub_inplace`
* `FF.Props.C31_isZero`
* `FF.Props.C31_eq_partial`
* `FF.Props.C31_eq_symm_partial`
* `FF.Props.C31_proper`
* `FF.Props.C31_eq_affine`
* `FF.Props.C31_eq_violated`
* `FF.Props.C31_eq_violated_reachable`
* `FF.Props.C32_inplace_affine`
* `FF.Props.C33_to_affine`
* `FF.Props.C33_canonical`
* `FF.Props.C33_from_affine`
* `FF.Props.C34_naf`
* `FF.Props.C35_mulByScalar`
* `FF.Props.C35_mulByScalar_affine`
* `FF.Props.C35_proper`
* `FF.Props.C35_long_scalar`
* `FF.Props.C36_multiexp`
* `FF.Props.C36_multiexp_curve`
* `FF.Props.C36_schedule_independent`
* `FF.Props.C37_strided_partial`
* `FF.Props.C37_violation_zero_length`
* `FF.Props.C37_violation_single`
* `FF.Props.C38_msm_partial`
* `FF.Props.C38_msm_value`
* `FF.Props.C38_violation`
* `FF.Props.C39_agree`
* `FF.Props.C39_agree_curve`
* `FF.Props.C40_constructor`
* `FF.Props.C40_total`
* `FF.Props.C41_fft`
* `FF.Props.C41_rejects`
* `FF.Props.C42_inverse_partial`
* `FF.Props.C42_violation_small`
* `FF.Props.C43_bits`
* `FF.Props.C43_involution`
* `FF.Props.C43_permutation`
* `FF.Props.C44_cover`
* `FF.Props.C44_empty`
* `FF.Props.C44_long_range`
* `FF.Props.C45_wait`
* `FF.Props.C45_returns`
* `FF.Props.C46_destructor_partial`
* `FF.Props.C46_violation`
* `FF.Props.C46_violation_reachable`
* `FF.Props.C47_log2`
* `FF.Props.C47_fftLog2`
* `FF.Props.C48_split_partial`
* `FF.Props.C48_layers_partial`
* `FF.Props.C48_never_returns`
* `FF.Props.C48_diverges`
* `FF.Props.C48_termination`
* `FF.Props.C48_violation_layers`
* `FF.Props.C48_violation_groups`
* `FF.Props.C49_f2`
* `FF.Props.C49_f6`
* `FF.Props.C49_f12`
* `FF.Props.C49_radix_violation`
* `FF.Props.C50_open`
* `FF.Props.C50_version`
* `FF.Props.C51_history`
* `FF.Props.C51_file`
* `FF.Props.C52_loadHeader`
* `FF.Props.C52_file`
* `FF.Props.C53_loadHeader`
* `FF.Props.C53_protocol`
* `FF.Props.C54_add`
* `FF.Props.C54_sub`
* `FF.Props.C54_addLS`
* `FF.Props.C54_subLS`
* `FF.Props.C54_subSL`
* `FF.Props.C54_neg`
* `FF.Props.C54_negLS`
* `FF.Props.C54_cmp`
* `FF.Props.C54_copyS2L`
* `FF.Props.C55_mul`
* `FF.Props.C55_square`
* `FF.Props.C55_to`
* `FF.Props.C55_mul1_partial`
* `FF.Props.C55_from_partial`
* `FF.Props.C55_mul1_violation`
* `FF.Props.C55_mul1_opt_violation`
* `FF.Props.C55_from_violation`
* `FF.Props.C55_from_opt_violation`
* `FF.Props.C57_fft_race_free`
* `FF.Props.C57_table_race_partial`
* `FF.Props.C57_violation`
* `FF.Props.C58_parallelFor`
* `FF.Props.C58_sequence`
* `FF.Props.C58_parallelBlock`
* `FF.Props.C50_version`
* `FF.Props.C59_violation_truncated`
* `FF.Props.C60_multiexp`
* `FF.Props.C60_strided`
* `FF.Props.C60_strided_agree`
* `FF.Props.C60_msm`
* `FF.Props.C60_msm_agree`
* `FF.Props.C60_multiexp_race_free`
* `FF.Props.C60_msm_race_free`
* `FF.Props.C61_add_partial`
* `FF.Props.C61_add_distinct_partial`
* `FF.Props.C61_sub_partial`
* `FF.Props.C61_sub_distinct_partial`
* `FF.Props.C61_mul_partial`
* `FF.Props.C61_square`
* `FF.Props.C61_neg`
* `FF.Props.C61_add_violated`
* `FF.Props.C61_sub_violated`
* `FF.Props.C61_mul_six_violated`
* `FF.Props.C61_conv_six_violated`
* `FF.Props.C61_seven_violated`
* `FF.Props.C62_add_partial`
* `FF.Props.C62_sub_partial`
* `FF.Props.C62_mul_partial`
* `FF.Props.C62_square`
* `FF.Props.C62_neg`
* `FF.Props.C62_toNormal_partial`
* `FF.Props.C62_toLongNormal_partial`
* `FF.Props.C62_toMontgomery_partial`
* `FF.Props.C62_toMontgomery_violated`
* `FF.Props.C62_eq_partial`
* `FF.Props.C62_compare_partial`
* `FF.Props.C62_logical`
* `FF.Props.C62_bitwise_partial`
* `FF.Props.C62_bnot_partial`
* `FF.Props.C62_shift_partial`
* `FF.Props.C62_toInt_partial`
* `FF.Props.C63_toNormal_partial`
* `FF.Props.C63_toLongNormal_partial`
* `FF.Props.C63_toMontgomery_partial`
* `FF.Props.C63_six_violated`
* `FF.Props.C63_seven_violated`
* `FF.Props.C63_ed448_violated`
* `FF.Props.C64_flags_partial`
* `FF.Props.C64_req_partial`
* `FF.Props.C64_eq_partial`
* `FF.Props.C64_order_partial`
* `FF.Props.C64_eq_six_violated`
* `FF.Props.C64_eq_seven_violated`
* `FF.Props.C64_order_ed448_violated`
* `FF.Props.C65_logical`
* `FF.Props.C65_lnot`
* `FF.Props.C65_isTrue`
* `FF.Props.C66_bitwise_partial`
* `FF.Props.C66_not_partial`
* `FF.Props.C66_and_violated`
* `FF.Props.C66_not_violated`
* `FF.Props.C66_ed448_violated`
* `FF.Props.C67_shift_partial`
* `FF.Props.C67_rawShl`
* `FF.Props.C67_rawShr`
* `FF.Props.C67_ed448_violated`
* `FF.Props.C68_toInt_fits_partial`
* `FF.Props.C68_toInt_one_limb`
* `FF.Props.C68_toInt_small_violated`
* `FF.Props.C68_toInt_large_violated`
* `FF.Props.C68_seven_violated`
* `FF.Props.C69_add`
* `FF.Props.C69_addLS`
* `FF.Props.C69_sub`
* `FF.Props.C69_subLS`
* `FF.Props.C69_subSL`
* `FF.Props.C69_subRegular`
* `FF.Props.C69_neg`
* `FF.Props.C69_copy`
* `FF.Props.C69_copyS2L`
* `FF.Props.C69_swap`
* `FF.Props.C69_bits`
* `FF.Props.C69_isZero`
* `FF.Props.C69_cmp`
* `FF.Props.C69_isEq_partial`
* `FF.Props.C69_isEq_violation`
* `FF.Props.C69_negLS_partial`
* `FF.Props.C69_negLS_violation`
* `FF.Props.C69_negLS_wide_violation`
* `FF.Props.C70_mmul`
* `FF.Props.C70_mmul1`
* `FF.Props.C70_fromMontgomery`
* `FF.Props.C71_shr`
* `FF.Props.C71_shl_partial`
* `FF.Props.C71_shl_one`
* `FF.Props.C71_shl_one_violation`
* `FF.Props.C71_outside`
* `FF.Props.C72_operations`
* `FF.Props.C72_division`
* `FF.Props.C72_reading`
* `FF.Props.C72_group`
* `FF.Props.C72_tests`
* `FF.Props.C72_scalar`
* `FF.Props.C72_multiexp`
* `FF.Props.C72_msm_partial`
* `FF.Props.C72_agree_partial`
* `FF.Props.C73_g1_texts`
* `FF.Props.C73_g1_order`
* `FF.Props.C73_g1_generator`
* `FF.Props.C73_g1_scalar`
* `FF.Props.C73_g1_multiexp`
* `FF.Props.C73_g2_texts`
* `FF.Props.C73_g2_coefficient`
* `FF.Props.C73_g2_generator`
* `FF.Props.C73_g2_scalar`
* `FF.Props.C73_g2_multiexp`
* `FF.Props.C74_constructor`
* `FF.Props.C74_total`
* `FF.Props.C74_fft`
* `FF.Props.C74_inverse_partial`
* `FF.Props.C75_product_partial`
* `FF.Props.C75_total_partial`
* `FF.Props.C76_placement`
* `FF.Props.C76_placement1`
* `FF.Props.C76_placement2`
* `FF.Props.C76_placement3`
* `FF.Props.C76_add`
* `FF.Props.C76_sub_partial`
* `FF.Props.C76_sub_violation`
* `FF.Props.C76_mul`
* `FF.Props.C76_square`
* `FF.Props.C76_neg`
* `FF.Props.C76_eq`
* `FF.Props.C76_order`
* `FF.Props.C76_logical`
* `FF.Props.C76_bitwise`
* `FF.Props.C76_not`
* `FF.Props.C76_shift_partial`
* `FF.Props.C76_shl_one_violation`
* `FF.Props.C76_convert`
* `FF.Props.C76_toInt_same`
* `FF.Props.C76_program_partial`
* `FF.Props.C77_ring`
* `FF.Props.C77_mul1_partial`
* `FF.Props.C77_tests_partial`
* `FF.Props.C77_constants`
* `FF.Props.C77_from`
* `FF.Props.C77_int`
* `FF.Props.C77_to_partial`
* `FF.Props.C77_div`
* `FF.Props.C77_exp`
* `FF.Props.C77_bytes_partial`
* `FF.Props.C77_field_partial`
* `FF.Props.C77_placement`
* `FF.Props.C77_placement1`
* `FF.Props.C77_eq_violation`
* `FF.Props.C77_toMpz_violation`
* `FF.Props.C77_mul1_violation`
* `FF.Props.C79_inplace_partial`
* `FF.Props.C79_program_partial`
* `FF.Props.C79_copy`
* `FF.Props.C80_table`
* `FF.Props.C80_fft`
* `FF.Props.C80_inverse_partial`
* `FF.Props.C81_reading`
* `FF.Props.C81_constants`
* `FF.Props.C81_quadratic`
* `FF.Props.C81_sextic`
* `FF.Props.C81_dodecic`
* `FF.Props.C81_quadratic_scalars`
* `FF.Props.C81_sextic_scalars`
* `FF.Props.C81_dodecic_scalars`
* `FF.Props.C81_tests`
* `FF.Props.C81_exp_partial`
* `FF.Props.C81_frobenius_exp`
* `FF.Props.C82_msm_partial`
* `FF.Props.C82_msm_agree`
* `FF.Props.C82_g1`
* `FF.Props.C82_g2`
* `FF.Props.C82_g1_agree`
* `FF.Props.C82_g2_agree`
* `FF.Props.C83_reads`
* `FF.Props.C83_writes`
* `FF.Props.C83_rawCopy`
* `FF.Props.C83_copy`
* `FF.Props.C83_rawZero`
* `FF.Props.C83_rawSwap`
* `FF.Props.C83_rawCopyS2L`
* `FF.Props.C83_rawAddLL`
* `FF.Props.C83_rawAddLS`
* `FF.Props.C83_rawSubLL`
* `FF.Props.C83_rawSubLS`
* `FF.Props.C83_rawSubSL`
* `FF.Props.C83_rawNegLS`
* `FF.Props.C83_rawNegL`
* `FF.Props.C83_rawIsEq`
* `FF.Props.C83_rawIsZero`
* `FF.Props.C83_mul`
* `FF.Props.C83_square`
* `FF.Props.C83_mul1`
* `FF.Props.C83_from`
* `FF.Props.C83_toMontgomery`
* `FF.Props.C83_rawShr`
* `FF.Props.C83_rawShl`
* `FF.Props.C83_copyn`
* `FF.Props.C84_reads`
* `FF.Props.C84_writes`
* `FF.Props.C84_rawIsZero`
* `FF.Props.C84_rawIsEq`
* `FF.Props.C84_rawCmp`
* `FF.Props.C84_rawSwap`
* `FF.Props.C84_rawCopy`
* `FF.Props.C84_rawCopyS2L`
* `FF.Props.C84_rawSubRegular`
* `FF.Props.C84_bitwise`
* `FF.Props.C84_rawNot`
* `FF.Props.C84_rawAdd`
* `FF.Props.C84_rawAddLS`
* `FF.Props.C84_rawSub`
* `FF.Props.C84_rawSubLS`
* `FF.Props.C84_rawSubSL`
* `FF.Props.C84_rawNeg`
* `FF.Props.C84_rawNegLS`
* `FF.Props.C84_rawShr`
* `FF.Props.C84_rawShl`
* `FF.Props.C84_mul`
* `FF.Props.C84_mul1`
* `FF.Props.C84_from_partial`
* `FF.Props.C84_from_violated`
* `FF.Props.C84_from_outside`
* `FF.Props.C84_from_bound`
* `FF.Props.C85_reads`
* `FF.Props.C85_reads_cmp`
* `FF.Props.C85_reads_shift`
* `FF.Props.C85_toMontgomery`
* `FF.Props.C85_toNormal`
* `FF.Props.C85_toLongNormal`
* `FF.Props.C85_add`
* `FF.Props.C85_sub`
* `FF.Props.C85_neg`
* `FF.Props.C85_square`
* `FF.Props.C85_mul`
* `FF.Props.C85_rgt`
* `FF.Props.C85_rlt`
* `FF.Props.C85_req`
* `FF.Props.C85_cmp`
* `FF.Props.C85_cmpNot`
* `FF.Props.C85_land`
* `FF.Props.C85_lor`
* `FF.Props.C85_lnot`
* `FF.Props.C85_isTrue`
* `FF.Props.C85_band`
* `FF.Props.C85_bor`
* `FF.Props.C85_bxor`
* `FF.Props.C85_bnot`
* `FF.Props.C85_shl`
* `FF.Props.C85_shr`
* `FF.Props.C85_toInt`
* `FF.Props.C86_reverse`
* `FF.Props.C86_fft_loops`
* `FF.Props.C86_fft_table`
* `FF.Props.C86_fft`
* `FF.Props.C86_ifft`
* `FF.Props.C86_constructor`
* `FF.Props.C86_multiexp_loops`
* `FF.Props.C86_multiexp`
* `FF.Props.C86_strided`
* `FF.Props.C86_msm_loops`
* `FF.Props.C86_msm`
* `FF.Props.C87_value`
* `FF.Props.C87_fixed_partial`
* `FF.Props.C87_widths_agree`
* `FF.Props.C87_loops`
* `FF.Props.C87_violation_one`
* `FF.Props.C88_x86`
* `FF.Props.C88_apart`
* `FF.Props.C88_arith_partial`
* `FF.Props.C88_toInt_partial`
* `FF.Props.C88_arm`
* `FF.Props.C88_arm_add`
* `FF.Props.C89_programs_partial`
* `FF.Props.C89_programs_placed_partial`
* `FF.Props.C90_x86`
* `FF.Props.C90_arith_partial`
* `FF.Props.C90_programs_partial`
* `FF.Props.C90_programs_placed_partial`
* `FF.Props.C90_arm_partial`
* `FF.Props.C90_buffers_matter`
* `FF.Props.C91_programs`
* `FF.Props.C91_buffered`
* `FF.Props.C92_fft`
* `FF.Props.C92_loops`
* `FF.Props.C92_inverse_partial`
* `FF.Props.C93_product_partial`
* `FF.Props.C93_loop`
* `FF.Props.C94_loop`
* `FF.Props.C94_deterministic`
* `FF.Props.C94_sequence`
* `FF.Props.C95_locals`
* `FF.Props.C95_deterministic`
* `FF.Props.C95_sequence`

## propext, Quot.sound

* `FF.Props.C11_sval`
* `FF.Props.C11_sval_inj`
* `FF.Props.C12_short`
* `FF.Props.C15_shl_violated`
* `FF.Props.C21_set_small_modulus`
* `FF.Props.C32_inplace`
* `FF.Props.C44_block`
* `FF.Props.C45_every`
* `FF.Props.C45_overwritten`
* `FF.Props.C50_type`
* `FF.Props.C51_refused`
* `FF.Props.C51_close`
* `FF.Props.C54_copy`
* `FF.Props.C54_zero`
* `FF.Props.C54_swap_partial`
* `FF.Props.C54_swap_violation`
* `FF.Props.C56_aliasing`
* `FF.Props.C56_shifts`
* `FF.Props.C56_shl_violated`
* `FF.Props.C59_type_partial`
* `FF.Props.C78_portable`
* `FF.Props.C78_x86_partial`
* `FF.Props.C78_x86_same`
* `FF.Props.C78_upper_violation`
* `FF.Props.C86_naf`
* `FF.Props.C86_window_partial`
* `FF.Props.C86_combine`
* `FF.Props.C86_violation_domain`
* `FF.Props.C86_violation_window`
* `FF.Props.C87_default`
* `FF.Props.C88_shared_violated`

## propext

* `FF.Props.C23_short`
* `FF.Props.C23_long_buffer_violated`
* `FF.Props.C48_deterministic`
* `FF.Props.C51_close_idle`
* `FF.Props.C56_swap`
* `FF.Props.C56_negLS_violated`
* `FF.Props.C58_initial`
* `FF.Props.C59_violation_size`

## none

* `FF.Props.C88_arm_apart`

