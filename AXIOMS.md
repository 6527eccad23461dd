# Axioms of every theorem in MANIFEST.json

Output of `#print axioms`, grouped.

## (none)  (4)

`TFR.C39_names`, `TFR.C39_kinds`, `TFR.C39_names_injective`, `TFR.C49_empty`

## propext  (15)

`TFR.C27_empty_faults`, `TFR.C29_byteswap`, `TFR.C30_indices`, `TFR.C31_mixer`, `TFR.C39_catalogue`, `TFR.C40_split_zero_cap`, `TFR.C40_limited_test`, `TFR.C47_stirling`, `TFR.C48_divisor_zero`, `TFR.C54_empty`, `TFR.C68_one_column`, `TFR.C69_frame`, `TFR.C77_third_family`, `TFR.C137_no_config`, `TFR.Jobs.C140_exact`

## Quot.sound, propext  (58)

`TFR.C02_isBitSet`, `TFR.C02_bitCount`, `TFR.C03_reverseBits_bit`, `TFR.C03_reverseBits_involution`, `TFR.C03_reverseBits_bijective`, `TFR.C07_forEachBitBlock_zero`, `TFR.C08_slidingBitWindow_short`, `TFR.C14_splitmix_same`, `TFR.C15_boost_first_not_injective`, `TFR.C18_closed_form_64`, `TFR.C18_closed_form_32`, `TFR.C20_zero_stuck`, `TFR.C21_zero_stuck`, `TFR.C25_iterates`, `TFR.C26_counter`, `TFR.C27_dataStream`, `TFR.C27_dataStream_total`, `TFR.C28_consumption`, `TFR.C29_reverse`, `TFR.C29_ror`, `TFR.C29_ror_zero`, `TFR.C30_values`, `TFR.C31_combined`, `TFR.C31_incremental`, `TFR.C32_getRawByRef`, `TFR.C36_empty_range`, `TFR.C36_out_of_range`, `TFR.C40_split`, `TFR.C41_out_of_range`, `TFR.C47_no_overflow`, `TFR.C50_window_too_large`, `TFR.C52_size_zero`, `TFR.C53_isolated_size_zero`, `TFR.C56_block_size_zero`, `TFR.C65_contains`, `TFR.C65_join`, `TFR.C70_never_ends`, `TFR.Sffs.C71_find_seed`, `TFR.C73_overlap`, `TFR.C73_degenerate`, `TFR.C116_diffusion`, `TFR.C116_inverse`, `TFR.C116_add64`, `TFR.C116_step`, `TFR.C118_names`, `TFR.C118_distinct`, `TFR.C121_displayed`, `TFR.Sffs.C130_every_run`, `TFR.C140_default`, `TFR.Jobs.C140_parallel`, `TFR.C142_start`, `TFR.C147_mixers32`, `TFR.C147_mixers8`, `TFR.C147_mixers16`, `TFR.C147_mixers64`, `TFR.C147_combiners`, `TFR.C147_aes`, `TFR.C147_catalogue`

## Classical.choice, Quot.sound, propext  (570)

`TFR.C01_ror_bit`, `TFR.C01_ror_bit_nat`, `TFR.C01_rol_bit_nat`, `TFR.C01_ror_rol`, `TFR.C01_rol_ror`, `TFR.C01_ror_ror`, `TFR.C01_rol_rol`, `TFR.C01_ror_bitCount`, `TFR.C01_rol_bitCount`, `TFR.C02_flipBit`, `TFR.C02_flipBit_out_of_range`, `TFR.C03_reverseBits_ror`, `TFR.C04_byteswap_byte`, `TFR.C04_byte_swap_eq_byteswap`, `TFR.C04_byteswap_involution`, `TFR.C04_byte_swap_involution`, `TFR.C05_bitWidth`, `TFR.C05_bitFloor`, `TFR.C05_bitCeil`, `TFR.C05_bitCeil_too_large`, `TFR.C06_forEachBit`, `TFR.C07_forEachBitBlock`, `TFR.C08_slidingBitWindow`, `TFR.C08_slidingBitWindow_bad`, `TFR.BitVector.C09_history`, `TFR.BitVector.C09_history_sized`, `TFR.BitVector.C09_add_get`, `TFR.BitVector.C09_add_too_many`, `TFR.BitVector.C09_get_past_end`, `TFR.C10_permute_bit`, `TFR.C10_permute_bijective`, `TFR.C10_getRrcPermutations`, `TFR.C11_createRrcSources`, `TFR.C12_mix8`, `TFR.C12_mix16`, `TFR.C13_mixers32`, `TFR.C14_mixers64`, `TFR.C15_combiners_bijective`, `TFR.C15_boost_second`, `TFR.C16_xmx_decode`, `TFR.C16_xm2x_decode`, `TFR.C16_xm3x_decode`, `TFR.C16_decode_injective`, `TFR.C16_every_string_exists`, `TFR.C17_xmx`, `TFR.C17_xm2x`, `TFR.C17_xm3x`, `TFR.C17_u16_overflow`, `TFR.C18_full_period_64`, `TFR.C18_full_period_32`, `TFR.C19_low_half`, `TFR.C19_narrow`, `TFR.C20_state_period`, `TFR.C20_xorshift32`, `TFR.C20_xorshift64`, `TFR.C20_xorshift_64_top`, `TFR.C21_state_period`, `TFR.C21_outputs_64`, `TFR.C21_outputs_32`, `TFR.C22_reversible`, `TFR.C22_cycle_length`, `TFR.C22_registered`, `TFR.C22_seeds`, `TFR.C23_increment_odd`, `TFR.C23_pcg64`, `TFR.C23_rng64_pcg`, `TFR.C23_pcg32`, `TFR.C23_rng32_pcg`, `TFR.C23_state_period`, `TFR.C24_step`, `TFR.C24_minstd`, `TFR.C25_periodic`, `TFR.C25_cycles_disjoint`, `TFR.C26_counter_window`, `TFR.C27_rotation`, `TFR.C28_by_ref`, `TFR.C28_isolation`, `TFR.C28_no_loss`, `TFR.C29_recover`, `TFR.C30_no_index_twice`, `TFR.C32_values`, `TFR.C32_calls`, `TFR.Jobs.C33_exactly_once`, `TFR.Jobs.C33_never_twice`, `TFR.Jobs.C33_mutual_exclusion`, `TFR.Jobs.C34_no_deadlock`, `TFR.Jobs.C34_bounded`, `TFR.Jobs.C34_returns`, `TFR.Jobs.C34_zero_threads`, `TFR.C35_schedule_independent`, `TFR.C35_thread_count_independent`, `TFR.C35_terminates`, `TFR.C35_zero_threads`, `TFR.C36_passes`, `TFR.C36_beyond`, `TFR.C37_reported_once`, `TFR.C38_strict_total_order`, `TFR.C38_lookup`, `TFR.C38_entries`, `TFR.C39_key_text`, `TFR.C39_printed_key_injective`, `TFR.C40_split_total`, `TFR.C40_limits`, `TFR.C40_slow_powers`, `TFR.C40_slower_powers`, `TFR.C40_catalogue`, `TFR.C40_power_of_two`, `TFR.C41_history`, `TFR.C41_equality`, `TFR.C42_sac`, `TFR.C42_total`, `TFR.C42_injective`, `TFR.C43_bic`, `TFR.C43_mass`, `TFR.C44_serialCounts`, `TFR.C44_total`, `TFR.C45_probabilities`, `TFR.C45_probabilities_empty`, `TFR.C45_probabilities_half`, `TFR.C45_gaps`, `TFR.C45_cap_zero`, `TFR.C45_lower_half`, `TFR.C45_halves_partition`, `TFR.C46_coupons`, `TFR.C46_unique`, `TFR.C46_cap_zero`, `TFR.C47_probability`, `TFR.C47_probabilities`, `TFR.C47_overflow_8`, `TFR.C48_divisible`, `TFR.C48_probability`, `TFR.C48_probabilities`, `TFR.C49_runs`, `TFR.C49_runs_exact`, `TFR.C50_histogram`, `TFR.C50_total`, `TFR.C51_rank`, `TFR.C52_forEachMatrix`, `TFR.C52_matrix_size`, `TFR.C53_rank_probability`, `TFR.C53_rank_probabilities`, `TFR.C53_rank_counts`, `TFR.C53_isolated_rank_counts`, `TFR.C54_berlekamp_massey`, `TFR.C54_unique`, `TFR.C55_lfsr_probability`, `TFR.C55_lfsr_probabilities`, `TFR.C56_counts`, `TFR.C57_bins`, `TFR.C57_no_bins`, `TFR.C57_bin_count`, `TFR.C57_bin_count_zero`, `TFR.C58_chi2`, `TFR.C58_uniform`, `TFR.C59_g_test`, `TFR.C60_ks`, `TFR.C60_order`, `TFR.C60_zero`, `TFR.C61_binomial`, `TFR.C61_flip_coin`, `TFR.C61_binomial_pdf`, `TFR.C61_binomial_cdf`, `TFR.C61_binomial_cdf_ends`, `TFR.C61_binomial_float`, `TFR.C61_binomial_float_32`, `TFR.C61_binomial_float_64`, `TFR.C61_binomial_cdf_near`, `TFR.C62_pearson_range`, `TFR.C62_pearson`, `TFR.C62_pearson_symm`, `TFR.C62_pearson_identical`, `TFR.C62_fisher_finite`, `TFR.C62_pearson_short`, `TFR.C62_kendall_range`, `TFR.C62_kendall`, `TFR.C62_adjust`, `TFR.C63_exists`, `TFR.C63_inverse`, `TFR.C63_unique`, `TFR.C63_spearman`, `TFR.C63_not_spearman`, `TFR.C64_merge_bins`, `TFR.C64_sums`, `TFR.C64_empty`, `TFR.C64_short`, `TFR.C65_replace_all`, `TFR.C65_replace_none`, `TFR.C65_escape`, `TFR.C65_unescape`, `TFR.C65_escape_injective`, `TFR.C65_contains_ignore_case`, `TFR.C66_comparable`, `TFR.C66_strength`, `TFR.C66_classes`, `TFR.C66_monotone`, `TFR.C66_text`, `TFR.C66_label`, `TFR.C67_worst_result`, `TFR.C67_analysis`, `TFR.C67_verdict`, `TFR.C67_pass_iff`, `TFR.C67_worst_statistic`, `TFR.C67_order`, `TFR.C67_schedule_independent`, `TFR.C67_failed_tests`, `TFR.C67_failed_empty`, `TFR.C67_shown`, `TFR.C68_render`, `TFR.C68_history`, `TFR.C68_fault`, `TFR.C69_round_trip_old`, `TFR.C69_round_trip_existing`, `TFR.C69_read`, `TFR.C69_round_trip`, `TFR.C69_missing`, `TFR.C69_file_data`, `TFR.C70_data`, `TFR.C70_header`, `TFR.C70_size`, `TFR.Sffs.C71_candidates`, `TFR.Sffs.C71_best_candidate`, `TFR.Sffs.C71_consistent`, `TFR.Sffs.C71_result`, `TFR.Sffs.C71_progress`, `TFR.Sffs.C71_terminates`, `TFR.Sffs.C71_returns`, `TFR.Sffs.C71_schedule_independent`, `TFR.Sffs.C71_random_vector`, `TFR.C72_seeds`, `TFR.C72_other_words`, `TFR.C72_too_many`, `TFR.C73_segments`, `TFR.C74_prng_setup`, `TFR.C75_top_bits`, `TFR.C75_top_bits64`, `TFR.C75_next_bin`, `TFR.C75_max`, `TFR.C75_rescale_mono`, `TFR.C76_two_tailed`, `TFR.C76_p_value`, `TFR.C76_p_value_pos`, `TFR.C76_strict`, `TFR.C77_sources`, `TFR.C77_combiner_sources`, `TFR.C78_mean`, `TFR.C78_range`, `TFR.C78_complement`, `TFR.C79_uniform`, `TFR.C79_empty`, `TFR.C79_order`, `TFR.C79_range`, `TFR.C79_equidistributed`, `TFR.C80_runs`, `TFR.C81_greedy_unique`, `TFR.C81_serial_avalanche`, `TFR.C81_rare`, `TFR.C82_gap`, `TFR.C82_reported`, `TFR.C83_coupon`, `TFR.C83_reported`, `TFR.C84_divisibility`, `TFR.C84_lowest_bit`, `TFR.C85_size`, `TFR.C85_permutation`, `TFR.C85_small`, `TFR.C86_binary_rank`, `TFR.C87_linear_complexity`, `TFR.C88_sac`, `TFR.C88_bic`, `TFR.C88_affine`, `TFR.C89_stream_tests`, `TFR.C89_mixer_tests`, `TFR.C89_kind`, `TFR.C89_battery`, `TFR.C89_complete`, `TFR.C90_iteration_limit`, `TFR.C90_small_p_values`, `TFR.C90_large_p_values`, `TFR.C90_p_value`, `TFR.C90_many_degrees`, `TFR.C90_law`, `TFR.C90_chi2_stats`, `TFR.C90_g_test`, `TFR.C91_log_gamma`, `TFR.C91_gamma`, `TFR.C91_factorial`, `TFR.C92_combined`, `TFR.C92_range`, `TFR.C92_order`, `TFR.C92_single`, `TFR.C92_none`, `TFR.C93_statistic`, `TFR.C93_order`, `TFR.C93_range`, `TFR.C93_overflow`, `TFR.C93_levels`, `TFR.C93_quartile`, `TFR.C93_monotone`, `TFR.C94_median`, `TFR.C94_median_empty`, `TFR.C94_moments`, `TFR.C94_one_sided`, `TFR.C94_rescale`, `TFR.C95_pairs`, `TFR.C95_pearson_test`, `TFR.C95_kendall_test`, `TFR.C95_spearman_test`, `TFR.C95_bit_flipped`, `TFR.C96_files`, `TFR.C96_report`, `TFR.C96_debug`, `TFR.C96_subjects`, `TFR.C96_test_command`, `TFR.C96_paths`, `TFR.C97_partition`, `TFR.C97_lines`, `TFR.C97_inspect`, `TFR.C97_battery`, `TFR.C97_fail_sources`, `TFR.C98_table`, `TFR.C98_command`, `TFR.C99_exhaust`, `TFR.C99_score`, `TFR.C99_mixers`, `TFR.C99_printed`, `TFR.C99_command_line`, `TFR.C100_uniform`, `TFR.C100_uniform64`, `TFR.C100_linear_complexity`, `TFR.C100_binary_rank`, `TFR.C101_mean`, `TFR.C102_serial_avalanche`, `TFR.C103_sac`, `TFR.C103_bic`, `TFR.C104_runs`, `TFR.C105_score`, `TFR.C105_no_results`, `TFR.C105_range`, `TFR.C105_three_powers`, `TFR.C105_schedule_independent`, `TFR.C105_fitness`, `TFR.C105_not_by_power`, `TFR.C106_fitness`, `TFR.C106_search`, `TFR.C106_wrong_seed`, `TFR.C107_chi_square`, `TFR.C107_z_score`, `TFR.C107_mean`, `TFR.C107_constant`, `TFR.C107_top_bit`, `TFR.C107_stuck_top_bit`, `TFR.C107_rejected`, `TFR.C108_linear`, `TFR.C108_battery`, `TFR.C108_generators`, `TFR.C108_report`, `TFR.C108_report_32`, `TFR.C108_report_64`, `TFR.C109_parity`, `TFR.C109_recurrence`, `TFR.C109_battery`, `TFR.C109_report`, `TFR.C110_predictable`, `TFR.C110_affine`, `TFR.C110_ignored`, `TFR.C110_mixers`, `TFR.C110_battery`, `TFR.C110_report`, `TFR.C110_report_64`, `TFR.C110_report_32`, `TFR.C111_runs`, `TFR.C111_changes`, `TFR.C111_alternating`, `TFR.C111_report`, `TFR.C111_mixers64`, `TFR.C111_mixers32`, `TFR.C111_combiners32`, `TFR.C111_report_64`, `TFR.C111_report_32`, `TFR.Sffs.C112_local_optimum`, `TFR.Sffs.C112_full_seed`, `TFR.C112_search`, `TFR.C113_two_forms`, `TFR.C113_accuracy`, `TFR.C113_bracket`, `TFR.C113_accept`, `TFR.C113_reject`, `TFR.C113_few`, `TFR.C113_few_far`, `TFR.C113_even`, `TFR.C113_constant`, `TFR.C113_small_battery`, `TFR.C114_depth`, `TFR.C114_reflection`, `TFR.C114_ends`, `TFR.C114_double_endless`, `TFR.C114_double_depth`, `TFR.C114_double_halves`, `TFR.C114_student`, `TFR.C114_t_test`, `TFR.C114_correlation`, `TFR.C114_f_distribution`, `TFR.C114_f_swap`, `TFR.C114_f_ties`, `TFR.C114_f_infinite`, `TFR.C114_beta`, `TFR.C114_binomial`, `TFR.C115_harmonic`, `TFR.C115_kolmogorov`, `TFR.C116_aes_mix`, `TFR.C116_aes`, `TFR.C116_aes_128`, `TFR.C116_rdrand_call`, `TFR.C116_rdrand`, `TFR.C117_prediction`, `TFR.C117_repetition`, `TFR.C117_periodic`, `TFR.C117_equidistributed`, `TFR.C117_seeds`, `TFR.C117_not_stuck`, `TFR.C117_linear`, `TFR.C117_rejected`, `TFR.C117_battery`, `TFR.C118_small_mixers`, `TFR.C118_periodic`, `TFR.C118_report_8`, `TFR.C118_report_16`, `TFR.C118_report_32`, `TFR.C118_report_64`, `TFR.C119_uniform`, `TFR.C119_full_period`, `TFR.C119_generators`, `TFR.C119_report`, `TFR.C120_chi_square`, `TFR.C120_expected`, `TFR.C120_uniform`, `TFR.C120_mean`, `TFR.C120_mean_verdict`, `TFR.C120_runs`, `TFR.C120_runs_test`, `TFR.C120_kolmogorov`, `TFR.C121_ppm`, `TFR.C121_faithful`, `TFR.C121_bytes_endless`, `TFR.C121_export`, `TFR.C121_build`, `TFR.C122_test_run`, `TFR.C123_mean_tail`, `TFR.C123_mean_false_alarm`, `TFR.C123_mean_suspicious`, `TFR.C123_mean_all_powers`, `TFR.C124_runs_false_alarm`, `TFR.C124_runs_large`, `TFR.C124_runs_all_powers`, `TFR.C125_search`, `TFR.C126_mean`, `TFR.C126_sac_test`, `TFR.C126_mixer_tests`, `TFR.C126_runs_accepted`, `TFR.C126_runs`, `TFR.C127_number`, `TFR.C127_negative`, `TFR.C127_exact`, `TFR.C127_monotone`, `TFR.C127_zero`, `TFR.C127_p_value`, `TFR.C127_p_value_ends`, `TFR.C128_report`, `TFR.C128_printed`, `TFR.C128_histogram`, `TFR.C128_bars`, `TFR.C129_gap`, `TFR.C129_divisibility`, `TFR.C129_self_check`, `TFR.C129_self_check_linear`, `TFR.C130_code`, `TFR.C130_constants`, `TFR.C130_code_bytes`, `TFR.Sffs.C130_progress`, `TFR.C130_bits`, `TFR.C130_line`, `TFR.C130_search`, `TFR.C131_reports`, `TFR.C131_verdict`, `TFR.C131_exhaust`, `TFR.C131_inspect`, `TFR.C131_per_test`, `TFR.C131_main`, `TFR.C132_too_small`, `TFR.C132_counter`, `TFR.C132_self_check`, `TFR.C133_serial_avalanche`, `TFR.C133_counter`, `TFR.C133_self_check`, `TFR.C134_periodic`, `TFR.C134_counter`, `TFR.C134_self_check`, `TFR.C135_too_regular`, `TFR.C135_too_slow`, `TFR.C135_no_five`, `TFR.C135_few_sets`, `TFR.C135_counter`, `TFR.C135_counter_8`, `TFR.C135_constant`, `TFR.C135_self_check`, `TFR.C136_first_part`, `TFR.C136_text`, `TFR.C137_history`, `TFR.C137_consistent`, `TFR.C138_command`, `TFR.C138_file`, `TFR.C138_mean`, `TFR.C139_export`, `TFR.C139_export_read`, `TFR.C139_export_bad`, `TFR.C139_export_refines`, `TFR.C139_extension`, `TFR.C139_build`, `TFR.Jobs.C140_workers`, `TFR.Jobs.C140_wrap`, `TFR.C140_jobs`, `TFR.C140_test_command`, `TFR.C141_rescaled`, `TFR.C141_sum_words`, `TFR.C141_sum_fractions`, `TFR.C141_sum_whole`, `TFR.C141_sum_negative`, `TFR.C142_stream`, `TFR.C142_reproducible`, `TFR.C143_integer`, `TFR.C143_double`, `TFR.C143_column_size`, `TFR.C143_unambiguous`, `TFR.C143_typed`, `TFR.C143_trailing_blank`, `TFR.C144_stream_tests`, `TFR.C144_mixer_tests`, `TFR.C144_last_value`, `TFR.C144_evaluate`, `TFR.C144_run`, `TFR.C144_recorded`, `TFR.C145_lowest_bit`, `TFR.C145_halves`, `TFR.C145_coupons`, `TFR.C145_ones`, `TFR.C145_rotations`, `TFR.C145_order`, `TFR.C145_complement`, `TFR.C145_bits`, `TFR.C146_reported`, `TFR.C146_names`, `TFR.C146_serial_rows`, `TFR.C146_serial`, `TFR.C146_serial_first`, `TFR.C146_runs`, `TFR.C147_prngs64`, `TFR.C147_prngs32`, `TFR.C147_prngs16`, `TFR.C147_prngs8`, `TFR.C147_minstd`, `TFR.C147_mt19937`, `TFR.C148_apart_64`, `TFR.C148_apart_32_64`, `TFR.C148_apart_32`, `TFR.C148_overlap_32`, `TFR.C148_apart_pcg`, `TFR.C148_overlap_more`, `TFR.C148_apart_xorshift_64`, `TFR.C148_apart_xorshift_32`, `TFR.C148_apart_minstd`
