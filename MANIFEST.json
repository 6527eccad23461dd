{"claims": [
{"property": "C01", "status": "proved", "theorems": ["TFR.C01_ror_bit", "TFR.C01_ror_bit_nat", "TFR.C01_rol_bit_nat", "TFR.C01_ror_rol", "TFR.C01_rol_ror", "TFR.C01_ror_ror", "TFR.C01_rol_rol", "TFR.C01_ror_bitCount", "TFR.C01_rol_bitCount"], "note": ""},
{"property": "C02", "status": "proved", "theorems": ["TFR.C02_flipBit", "TFR.C02_flipBit_out_of_range", "TFR.C02_isBitSet", "TFR.C02_bitCount"], "note": ""},
{"property": "C03", "status": "proved", "theorems": ["TFR.C03_reverseBits_bit", "TFR.C03_reverseBits_involution", "TFR.C03_reverseBits_bijective", "TFR.C03_reverseBits_ror"], "note": ""},
{"property": "C04", "status": "proved", "theorems": ["TFR.C04_byteswap_byte", "TFR.C04_byte_swap_eq_byteswap", "TFR.C04_byteswap_involution", "TFR.C04_byte_swap_involution"], "note": ""},
{"property": "C05", "status": "proved", "theorems": ["TFR.C05_bitWidth", "TFR.C05_bitFloor", "TFR.C05_bitCeil", "TFR.C05_bitCeil_too_large"], "note": ""},
{"property": "C06", "status": "proved", "theorems": ["TFR.C06_forEachBit"], "note": ""},
{"property": "C07", "status": "proved", "theorems": ["TFR.C07_forEachBitBlock", "TFR.C07_forEachBitBlock_zero"], "note": ""},
{"property": "C08", "status": "proved", "theorems": ["TFR.C08_slidingBitWindow_short", "TFR.C08_slidingBitWindow", "TFR.C08_slidingBitWindow_bad"], "note": ""},
{"property": "C09", "status": "proved", "theorems": ["TFR.BitVector.C09_history", "TFR.BitVector.C09_history_sized", "TFR.BitVector.C09_add_get", "TFR.BitVector.C09_add_too_many", "TFR.BitVector.C09_get_past_end"], "note": ""},
{"property": "C10", "status": "proved", "theorems": ["TFR.C10_permute_bit", "TFR.C10_permute_bijective", "TFR.C10_getRrcPermutations"], "note": ""},
{"property": "C11", "status": "proved", "theorems": ["TFR.C11_createRrcSources"], "note": ""},
{"property": "C12", "status": "proved", "theorems": ["TFR.C12_mix8", "TFR.C12_mix16"], "note": ""},
{"property": "C13", "status": "proved", "theorems": ["TFR.C13_mixers32"], "note": ""},
{"property": "C14", "status": "proved", "theorems": ["TFR.C14_mixers64", "TFR.C14_splitmix_same"], "note": ""},
{"property": "C15", "status": "proved", "theorems": ["TFR.C15_combiners_bijective", "TFR.C15_boost_second", "TFR.C15_boost_first_not_injective"], "note": ""},
{"property": "C16", "status": "proved", "theorems": ["TFR.C16_xmx_decode", "TFR.C16_xm2x_decode", "TFR.C16_xm3x_decode", "TFR.C16_decode_injective", "TFR.C16_every_string_exists"], "note": ""},
{"property": "C17", "status": "proved", "theorems": ["TFR.C17_xmx", "TFR.C17_xm2x", "TFR.C17_xm3x", "TFR.C17_u16_overflow"], "note": ""},
{"property": "C18", "status": "proved", "theorems": ["TFR.C18_closed_form_64", "TFR.C18_closed_form_32", "TFR.C18_full_period_64", "TFR.C18_full_period_32"], "note": ""},
{"property": "C19", "status": "proved", "theorems": ["TFR.C19_low_half", "TFR.C19_narrow"], "note": ""},
{"property": "C20", "status": "proved", "theorems": ["TFR.C20_state_period", "TFR.C20_xorshift32", "TFR.C20_xorshift64", "TFR.C20_xorshift_64_top", "TFR.C20_zero_stuck"], "note": ""},
{"property": "C21", "status": "proved", "theorems": ["TFR.C21_state_period", "TFR.C21_outputs_64", "TFR.C21_outputs_32", "TFR.C21_zero_stuck"], "note": ""},
{"property": "C22", "status": "proved", "theorems": ["TFR.C22_reversible", "TFR.C22_cycle_length", "TFR.C22_registered", "TFR.C22_seeds"], "note": ""},
{"property": "C23", "status": "proved", "theorems": ["TFR.C23_increment_odd", "TFR.C23_pcg64", "TFR.C23_rng64_pcg", "TFR.C23_pcg32", "TFR.C23_rng32_pcg", "TFR.C23_state_period"], "note": ""},
{"property": "C24", "status": "proved", "theorems": ["TFR.C24_step", "TFR.C24_minstd"], "note": ""},
{"property": "C25", "status": "proved", "theorems": ["TFR.C25_iterates", "TFR.C25_periodic", "TFR.C25_cycles_disjoint"], "note": ""},
{"property": "C26", "status": "proved", "theorems": ["TFR.C26_counter", "TFR.C26_counter_window"], "note": ""},
{"property": "C27", "status": "proved", "theorems": ["TFR.C27_dataStream", "TFR.C27_dataStream_total", "TFR.C27_rotation", "TFR.C27_empty_faults"], "note": ""},
{"property": "C28", "status": "proved", "theorems": ["TFR.C28_by_ref", "TFR.C28_isolation", "TFR.C28_consumption", "TFR.C28_no_loss"], "note": ""},
{"property": "C29", "status": "proved", "theorems": ["TFR.C29_reverse", "TFR.C29_byteswap", "TFR.C29_ror", "TFR.C29_ror_zero", "TFR.C29_recover"], "note": ""},
{"property": "C30", "status": "proved", "theorems": ["TFR.C30_indices", "TFR.C30_no_index_twice", "TFR.C30_values"], "note": ""},
{"property": "C31", "status": "proved", "theorems": ["TFR.C31_mixer", "TFR.C31_combined", "TFR.C31_incremental"], "note": ""},
{"property": "C32", "status": "proved", "theorems": ["TFR.C32_values", "TFR.C32_calls", "TFR.C32_getRawByRef"], "note": ""},
{"property": "C33", "status": "proved", "theorems": ["TFR.Jobs.C33_exactly_once", "TFR.Jobs.C33_never_twice", "TFR.Jobs.C33_mutual_exclusion"], "note": ""},
{"property": "C34", "status": "proved", "theorems": ["TFR.Jobs.C34_no_deadlock", "TFR.Jobs.C34_bounded", "TFR.Jobs.C34_returns", "TFR.Jobs.C34_zero_threads"], "note": ""},
{"property": "C35", "status": "proved", "theorems": ["TFR.C35_schedule_independent", "TFR.C35_thread_count_independent", "TFR.C35_terminates", "TFR.C35_zero_threads"], "note": ""},
{"property": "C36", "status": "proved", "theorems": ["TFR.C36_passes", "TFR.C36_empty_range", "TFR.C36_out_of_range", "TFR.C36_beyond"], "note": ""},
{"property": "C37", "status": "proved", "theorems": ["TFR.C37_reported_once"], "note": ""},
{"property": "C38", "status": "proved", "theorems": ["TFR.C38_strict_total_order", "TFR.C38_lookup", "TFR.C38_entries"], "note": ""},
{"property": "C39", "status": "proved", "theorems": ["TFR.C39_names", "TFR.C39_key_text", "TFR.C39_catalogue", "TFR.C39_kinds", "TFR.C39_names_injective", "TFR.C39_printed_key_injective"], "note": ""},
{"property": "C40", "status": "proved", "theorems": ["TFR.C40_split", "TFR.C40_split_total", "TFR.C40_split_zero_cap", "TFR.C40_limits", "TFR.C40_slow_powers", "TFR.C40_slower_powers", "TFR.C40_limited_test", "TFR.C40_catalogue", "TFR.C40_power_of_two"], "note": ""},
{"property": "C41", "status": "proved", "theorems": ["TFR.C41_history", "TFR.C41_equality", "TFR.C41_out_of_range"], "note": ""},
{"property": "C42", "status": "proved", "theorems": ["TFR.C42_sac", "TFR.C42_total", "TFR.C42_injective"], "note": ""},
{"property": "C43", "status": "proved", "theorems": ["TFR.C43_bic", "TFR.C43_mass"], "note": ""},
{"property": "C44", "status": "proved", "theorems": ["TFR.C44_serialCounts", "TFR.C44_total"], "note": ""},
{"property": "C45", "status": "proved", "theorems": ["TFR.C45_probabilities", "TFR.C45_probabilities_empty", "TFR.C45_probabilities_half", "TFR.C45_gaps", "TFR.C45_cap_zero", "TFR.C45_lower_half", "TFR.C45_halves_partition"], "note": ""},
{"property": "C46", "status": "proved", "theorems": ["TFR.C46_coupons", "TFR.C46_unique", "TFR.C46_cap_zero"], "note": ""},
{"property": "C47", "status": "proved", "theorems": ["TFR.C47_stirling", "TFR.C47_probability", "TFR.C47_probabilities", "TFR.C47_no_overflow", "TFR.C47_overflow_8"], "note": ""},
{"property": "C48", "status": "proved", "theorems": ["TFR.C48_divisible", "TFR.C48_divisor_zero", "TFR.C48_probability", "TFR.C48_probabilities"], "note": ""},
{"property": "C49", "status": "proved", "theorems": ["TFR.C49_runs", "TFR.C49_runs_exact", "TFR.C49_empty"], "note": ""},
{"property": "C50", "status": "proved", "theorems": ["TFR.C50_histogram", "TFR.C50_total", "TFR.C50_window_too_large"], "note": ""},
{"property": "C51", "status": "proved", "theorems": ["TFR.C51_rank"], "note": ""},
{"property": "C52", "status": "proved", "theorems": ["TFR.C52_forEachMatrix", "TFR.C52_size_zero", "TFR.C52_matrix_size"], "note": ""},
{"property": "C53", "status": "proved", "theorems": ["TFR.C53_rank_probability", "TFR.C53_rank_probabilities", "TFR.C53_rank_counts", "TFR.C53_isolated_rank_counts", "TFR.C53_isolated_size_zero"], "note": ""},
{"property": "C54", "status": "proved", "theorems": ["TFR.C54_berlekamp_massey", "TFR.C54_unique", "TFR.C54_empty"], "note": ""},
{"property": "C55", "status": "proved", "theorems": ["TFR.C55_lfsr_probability", "TFR.C55_lfsr_probabilities"], "note": ""},
{"property": "C56", "status": "proved", "theorems": ["TFR.C56_counts", "TFR.C56_block_size_zero"], "note": ""},
{"property": "C57", "status": "proved", "theorems": ["TFR.C57_bins", "TFR.C57_no_bins", "TFR.C57_bin_count", "TFR.C57_bin_count_zero"], "note": ""},
{"property": "C58", "status": "proved", "theorems": ["TFR.C58_chi2", "TFR.C58_uniform"], "note": ""},
{"property": "C59", "status": "proved", "theorems": ["TFR.C59_g_test"], "note": ""},
{"property": "C60", "status": "proved", "theorems": ["TFR.C60_ks", "TFR.C60_order", "TFR.C60_zero"], "note": ""},
{"property": "C61", "status": "proved", "theorems": ["TFR.C61_binomial", "TFR.C61_flip_coin", "TFR.C61_binomial_pdf", "TFR.C61_binomial_cdf", "TFR.C61_binomial_cdf_ends", "TFR.C61_binomial_float", "TFR.C61_binomial_float_32", "TFR.C61_binomial_float_64", "TFR.C61_binomial_cdf_near"], "note": ""},
{"property": "C62", "status": "proved", "theorems": ["TFR.C62_pearson_range", "TFR.C62_pearson", "TFR.C62_pearson_symm", "TFR.C62_pearson_identical", "TFR.C62_fisher_finite", "TFR.C62_pearson_short", "TFR.C62_kendall_range", "TFR.C62_kendall", "TFR.C62_adjust"], "note": ""},
{"property": "C63", "status": "proved", "theorems": ["TFR.C63_exists", "TFR.C63_inverse", "TFR.C63_unique", "TFR.C63_spearman", "TFR.C63_not_spearman"], "note": ""},
{"property": "C64", "status": "proved", "theorems": ["TFR.C64_merge_bins", "TFR.C64_sums", "TFR.C64_empty", "TFR.C64_short"], "note": ""},
{"property": "C65", "status": "proved", "theorems": ["TFR.C65_contains", "TFR.C65_replace_all", "TFR.C65_replace_none", "TFR.C65_join", "TFR.C65_escape", "TFR.C65_unescape", "TFR.C65_escape_injective", "TFR.C65_contains_ignore_case"], "note": ""},
{"property": "C66", "status": "proved", "theorems": ["TFR.C66_comparable", "TFR.C66_strength", "TFR.C66_classes", "TFR.C66_monotone", "TFR.C66_text", "TFR.C66_label"], "note": ""},
{"property": "C67", "status": "proved", "theorems": ["TFR.C67_worst_result", "TFR.C67_analysis", "TFR.C67_verdict", "TFR.C67_pass_iff", "TFR.C67_worst_statistic", "TFR.C67_order", "TFR.C67_schedule_independent", "TFR.C67_failed_tests", "TFR.C67_failed_empty", "TFR.C67_shown"], "note": ""},
{"property": "C68", "status": "proved", "theorems": ["TFR.C68_render", "TFR.C68_history", "TFR.C68_fault", "TFR.C68_one_column"], "note": ""},
{"property": "C69", "status": "proved", "theorems": ["TFR.C69_round_trip_old", "TFR.C69_round_trip_existing", "TFR.C69_read", "TFR.C69_round_trip", "TFR.C69_frame", "TFR.C69_missing", "TFR.C69_file_data"], "note": ""},
{"property": "C70", "status": "proved", "theorems": ["TFR.C70_data", "TFR.C70_header", "TFR.C70_size", "TFR.C70_never_ends"], "note": ""},
{"property": "C71", "status": "proved", "theorems": ["TFR.Sffs.C71_candidates", "TFR.Sffs.C71_best_candidate", "TFR.Sffs.C71_consistent", "TFR.Sffs.C71_result", "TFR.Sffs.C71_progress", "TFR.Sffs.C71_terminates", "TFR.Sffs.C71_returns", "TFR.Sffs.C71_schedule_independent", "TFR.Sffs.C71_find_seed", "TFR.Sffs.C71_random_vector"], "note": ""},
{"property": "C72", "status": "proved", "theorems": ["TFR.C72_seeds", "TFR.C72_other_words", "TFR.C72_too_many"], "note": ""},
{"property": "C73", "status": "proved", "theorems": ["TFR.C73_segments", "TFR.C73_overlap", "TFR.C73_degenerate"], "note": ""},
{"property": "C74", "status": "proved", "theorems": ["TFR.C74_prng_setup"], "note": ""},
{"property": "C75", "status": "proved", "theorems": ["TFR.C75_top_bits", "TFR.C75_top_bits64", "TFR.C75_next_bin", "TFR.C75_max", "TFR.C75_rescale_mono"], "note": ""},
{"property": "C76", "status": "proved", "theorems": ["TFR.C76_two_tailed", "TFR.C76_p_value", "TFR.C76_p_value_pos", "TFR.C76_strict"], "note": ""},
{"property": "C77", "status": "proved", "theorems": ["TFR.C77_sources", "TFR.C77_combiner_sources", "TFR.C77_third_family"], "note": ""},
{"property": "C78", "status": "proved", "theorems": ["TFR.C78_mean", "TFR.C78_range", "TFR.C78_complement"], "note": ""},
{"property": "C79", "status": "proved", "theorems": ["TFR.C79_uniform", "TFR.C79_empty", "TFR.C79_order", "TFR.C79_range", "TFR.C79_equidistributed"], "note": ""},
{"property": "C80", "status": "proved", "theorems": ["TFR.C80_runs"], "note": ""},
{"property": "C81", "status": "proved", "theorems": ["TFR.C81_greedy_unique", "TFR.C81_serial_avalanche", "TFR.C81_rare"], "note": ""},
{"property": "C82", "status": "proved", "theorems": ["TFR.C82_gap", "TFR.C82_reported"], "note": ""},
{"property": "C83", "status": "proved", "theorems": ["TFR.C83_coupon", "TFR.C83_reported"], "note": ""},
{"property": "C84", "status": "proved", "theorems": ["TFR.C84_divisibility", "TFR.C84_lowest_bit"], "note": ""},
{"property": "C85", "status": "proved", "theorems": ["TFR.C85_size", "TFR.C85_permutation", "TFR.C85_small"], "note": ""},
{"property": "C86", "status": "proved", "theorems": ["TFR.C86_binary_rank"], "note": ""},
{"property": "C87", "status": "proved", "theorems": ["TFR.C87_linear_complexity"], "note": ""},
{"property": "C88", "status": "proved", "theorems": ["TFR.C88_sac", "TFR.C88_bic", "TFR.C88_affine"], "note": ""},
{"property": "C89", "status": "proved", "theorems": ["TFR.C89_stream_tests", "TFR.C89_mixer_tests", "TFR.C89_kind", "TFR.C89_battery", "TFR.C89_complete"], "note": ""},
{"property": "C90", "status": "proved", "theorems": ["TFR.C90_iteration_limit", "TFR.C90_small_p_values", "TFR.C90_large_p_values", "TFR.C90_p_value", "TFR.C90_many_degrees", "TFR.C90_law", "TFR.C90_chi2_stats", "TFR.C90_g_test"], "note": ""},
{"property": "C91", "status": "proved", "theorems": ["TFR.C91_log_gamma", "TFR.C91_gamma", "TFR.C91_factorial"], "note": ""},
{"property": "C92", "status": "proved", "theorems": ["TFR.C92_combined", "TFR.C92_range", "TFR.C92_order", "TFR.C92_single", "TFR.C92_none"], "note": ""},
{"property": "C93", "status": "proved", "theorems": ["TFR.C93_statistic", "TFR.C93_order", "TFR.C93_range", "TFR.C93_overflow", "TFR.C93_levels", "TFR.C93_quartile", "TFR.C93_monotone"], "note": ""},
{"property": "C94", "status": "proved", "theorems": ["TFR.C94_median", "TFR.C94_median_empty", "TFR.C94_moments", "TFR.C94_one_sided", "TFR.C94_rescale"], "note": ""},
{"property": "C95", "status": "proved", "theorems": ["TFR.C95_pairs", "TFR.C95_pearson_test", "TFR.C95_kendall_test", "TFR.C95_spearman_test", "TFR.C95_bit_flipped"], "note": ""},
{"property": "C96", "status": "proved", "theorems": ["TFR.C96_files", "TFR.C96_report", "TFR.C96_debug", "TFR.C96_subjects", "TFR.C96_test_command", "TFR.C96_paths"], "note": ""},
{"property": "C97", "status": "proved", "theorems": ["TFR.C97_partition", "TFR.C97_lines", "TFR.C97_inspect", "TFR.C97_battery", "TFR.C97_fail_sources"], "note": ""},
{"property": "C98", "status": "proved", "theorems": ["TFR.C98_table", "TFR.C98_command"], "note": ""},
{"property": "C99", "status": "proved", "theorems": ["TFR.C99_exhaust", "TFR.C99_score", "TFR.C99_mixers", "TFR.C99_printed", "TFR.C99_command_line"], "note": ""},
{"property": "C100", "status": "proved", "theorems": ["TFR.C100_uniform", "TFR.C100_uniform64", "TFR.C100_linear_complexity", "TFR.C100_binary_rank"], "note": ""},
{"property": "C101", "status": "proved", "theorems": ["TFR.C101_mean"], "note": ""},
{"property": "C102", "status": "proved", "theorems": ["TFR.C102_serial_avalanche"], "note": ""},
{"property": "C103", "status": "proved", "theorems": ["TFR.C103_sac", "TFR.C103_bic"], "note": ""},
{"property": "C104", "status": "proved", "theorems": ["TFR.C104_runs"], "note": ""},
{"property": "C105", "status": "proved", "theorems": ["TFR.C105_score", "TFR.C105_no_results", "TFR.C105_range", "TFR.C105_three_powers", "TFR.C105_schedule_independent", "TFR.C105_fitness", "TFR.C105_not_by_power"], "note": ""},
{"property": "C106", "status": "proved", "theorems": ["TFR.C106_fitness", "TFR.C106_search", "TFR.C106_wrong_seed"], "note": ""},
{"property": "C107", "status": "proved", "theorems": ["TFR.C107_chi_square", "TFR.C107_z_score", "TFR.C107_mean", "TFR.C107_constant", "TFR.C107_top_bit", "TFR.C107_stuck_top_bit", "TFR.C107_rejected"], "note": ""},
{"property": "C108", "status": "proved", "theorems": ["TFR.C108_linear", "TFR.C108_battery", "TFR.C108_generators", "TFR.C108_report", "TFR.C108_report_32", "TFR.C108_report_64"], "note": ""},
{"property": "C109", "status": "proved", "theorems": ["TFR.C109_parity", "TFR.C109_recurrence", "TFR.C109_battery", "TFR.C109_report"], "note": ""},
{"property": "C110", "status": "proved", "theorems": ["TFR.C110_predictable", "TFR.C110_affine", "TFR.C110_ignored", "TFR.C110_mixers", "TFR.C110_battery", "TFR.C110_report", "TFR.C110_report_64", "TFR.C110_report_32"], "note": ""},
{"property": "C111", "status": "proved", "theorems": ["TFR.C111_runs", "TFR.C111_changes", "TFR.C111_alternating", "TFR.C111_report", "TFR.C111_mixers64", "TFR.C111_mixers32", "TFR.C111_combiners32", "TFR.C111_report_64", "TFR.C111_report_32"], "note": ""},
{"property": "C112", "status": "proved", "theorems": ["TFR.Sffs.C112_local_optimum", "TFR.Sffs.C112_full_seed", "TFR.C112_search"], "note": ""},
{"property": "C113", "status": "proved", "theorems": ["TFR.C113_two_forms", "TFR.C113_accuracy", "TFR.C113_bracket", "TFR.C113_accept", "TFR.C113_reject", "TFR.C113_few", "TFR.C113_few_far", "TFR.C113_even", "TFR.C113_constant", "TFR.C113_small_battery"], "note": ""},
{"property": "C114", "status": "proved", "theorems": ["TFR.C114_depth", "TFR.C114_reflection", "TFR.C114_ends", "TFR.C114_double_endless", "TFR.C114_double_depth", "TFR.C114_double_halves", "TFR.C114_student", "TFR.C114_t_test", "TFR.C114_correlation", "TFR.C114_f_distribution", "TFR.C114_f_swap", "TFR.C114_f_ties", "TFR.C114_f_infinite", "TFR.C114_beta", "TFR.C114_binomial"], "note": ""},
{"property": "C115", "status": "proved", "theorems": ["TFR.C115_harmonic", "TFR.C115_kolmogorov"], "note": ""},
{"property": "C116", "status": "proved", "theorems": ["TFR.C116_aes_mix", "TFR.C116_diffusion", "TFR.C116_aes", "TFR.C116_aes_128", "TFR.C116_inverse", "TFR.C116_add64", "TFR.C116_rdrand_call", "TFR.C116_rdrand", "TFR.C116_step"], "note": ""},
{"property": "C117", "status": "proved", "theorems": ["TFR.C117_prediction", "TFR.C117_repetition", "TFR.C117_periodic", "TFR.C117_equidistributed", "TFR.C117_seeds", "TFR.C117_not_stuck", "TFR.C117_linear", "TFR.C117_rejected", "TFR.C117_battery"], "note": ""},
{"property": "C118", "status": "proved", "theorems": ["TFR.C118_names", "TFR.C118_distinct", "TFR.C118_small_mixers", "TFR.C118_periodic", "TFR.C118_report_8", "TFR.C118_report_16", "TFR.C118_report_32", "TFR.C118_report_64"], "note": ""},
{"property": "C119", "status": "proved", "theorems": ["TFR.C119_uniform", "TFR.C119_full_period", "TFR.C119_generators", "TFR.C119_report"], "note": ""},
{"property": "C120", "status": "proved", "theorems": ["TFR.C120_chi_square", "TFR.C120_expected", "TFR.C120_uniform", "TFR.C120_mean", "TFR.C120_mean_verdict", "TFR.C120_runs", "TFR.C120_runs_test", "TFR.C120_kolmogorov"], "note": ""},
{"property": "C121", "status": "proved", "theorems": ["TFR.C121_ppm", "TFR.C121_displayed", "TFR.C121_faithful", "TFR.C121_bytes_endless", "TFR.C121_export", "TFR.C121_build"], "note": ""},
{"property": "C122", "status": "proved", "theorems": ["TFR.C122_test_run"], "note": ""},
{"property": "C123", "status": "proved", "theorems": ["TFR.C123_mean_tail", "TFR.C123_mean_false_alarm", "TFR.C123_mean_suspicious", "TFR.C123_mean_all_powers"], "note": ""},
{"property": "C124", "status": "proved", "theorems": ["TFR.C124_runs_false_alarm", "TFR.C124_runs_large", "TFR.C124_runs_all_powers"], "note": ""},
{"property": "C125", "status": "proved", "theorems": ["TFR.C125_search"], "note": ""},
{"property": "C126", "status": "proved", "theorems": ["TFR.C126_mean", "TFR.C126_sac_test", "TFR.C126_mixer_tests", "TFR.C126_runs_accepted", "TFR.C126_runs"], "note": ""},
{"property": "C127", "status": "proved", "theorems": ["TFR.C127_number", "TFR.C127_negative", "TFR.C127_exact", "TFR.C127_monotone", "TFR.C127_zero", "TFR.C127_p_value", "TFR.C127_p_value_ends"], "note": ""},
{"property": "C128", "status": "proved", "theorems": ["TFR.C128_report", "TFR.C128_printed", "TFR.C128_histogram", "TFR.C128_bars"], "note": ""},
{"property": "C129", "status": "proved", "theorems": ["TFR.C129_gap", "TFR.C129_divisibility", "TFR.C129_self_check", "TFR.C129_self_check_linear"], "note": ""},
{"property": "C130", "status": "proved", "theorems": ["TFR.C130_code", "TFR.C130_constants", "TFR.C130_code_bytes", "TFR.Sffs.C130_every_run", "TFR.Sffs.C130_progress", "TFR.C130_bits", "TFR.C130_line", "TFR.C130_search"], "note": ""},
{"property": "C131", "status": "proved", "theorems": ["TFR.C131_reports", "TFR.C131_verdict", "TFR.C131_exhaust", "TFR.C131_inspect", "TFR.C131_per_test", "TFR.C131_main"], "note": ""},
{"property": "C132", "status": "proved", "theorems": ["TFR.C132_too_small", "TFR.C132_counter", "TFR.C132_self_check"], "note": ""},
{"property": "C133", "status": "proved", "theorems": ["TFR.C133_serial_avalanche", "TFR.C133_counter", "TFR.C133_self_check"], "note": ""},
{"property": "C134", "status": "proved", "theorems": ["TFR.C134_periodic", "TFR.C134_counter", "TFR.C134_self_check"], "note": ""},
{"property": "C135", "status": "proved", "theorems": ["TFR.C135_too_regular", "TFR.C135_too_slow", "TFR.C135_no_five", "TFR.C135_few_sets", "TFR.C135_counter", "TFR.C135_counter_8", "TFR.C135_constant", "TFR.C135_self_check"], "note": ""},
{"property": "C136", "status": "proved", "theorems": ["TFR.C136_first_part", "TFR.C136_text"], "note": ""},
{"property": "C137", "status": "proved", "theorems": ["TFR.C137_history", "TFR.C137_consistent", "TFR.C137_no_config"], "note": ""},
{"property": "C138", "status": "proved", "theorems": ["TFR.C138_command", "TFR.C138_file", "TFR.C138_mean"], "note": ""},
{"property": "C139", "status": "proved", "theorems": ["TFR.C139_export", "TFR.C139_export_read", "TFR.C139_export_bad", "TFR.C139_export_refines", "TFR.C139_extension", "TFR.C139_build"], "note": ""},
{"property": "C140", "status": "proved", "theorems": ["TFR.C140_default", "TFR.Jobs.C140_workers", "TFR.Jobs.C140_parallel", "TFR.Jobs.C140_exact", "TFR.Jobs.C140_wrap", "TFR.C140_jobs", "TFR.C140_test_command"], "note": ""},
{"property": "C141", "status": "proved", "theorems": ["TFR.C141_rescaled", "TFR.C141_sum_words", "TFR.C141_sum_fractions", "TFR.C141_sum_whole", "TFR.C141_sum_negative"], "note": ""},
{"property": "C142", "status": "proved", "theorems": ["TFR.C142_stream", "TFR.C142_start", "TFR.C142_reproducible"], "note": ""},
{"property": "C143", "status": "proved", "theorems": ["TFR.C143_integer", "TFR.C143_double", "TFR.C143_column_size", "TFR.C143_unambiguous", "TFR.C143_typed", "TFR.C143_trailing_blank"], "note": ""},
{"property": "C144", "status": "proved", "theorems": ["TFR.C144_stream_tests", "TFR.C144_mixer_tests", "TFR.C144_last_value", "TFR.C144_evaluate", "TFR.C144_run", "TFR.C144_recorded"], "note": ""},
{"property": "C145", "status": "proved", "theorems": ["TFR.C145_lowest_bit", "TFR.C145_halves", "TFR.C145_coupons", "TFR.C145_ones", "TFR.C145_rotations", "TFR.C145_order", "TFR.C145_complement", "TFR.C145_bits"], "note": ""},
{"property": "C146", "status": "proved", "theorems": ["TFR.C146_reported", "TFR.C146_names", "TFR.C146_serial_rows", "TFR.C146_serial", "TFR.C146_serial_first", "TFR.C146_runs"], "note": ""},
{"property": "C147", "status": "proved", "theorems": ["TFR.C147_mixers32", "TFR.C147_mixers8", "TFR.C147_mixers16", "TFR.C147_mixers64", "TFR.C147_combiners", "TFR.C147_prngs64", "TFR.C147_prngs32", "TFR.C147_prngs16", "TFR.C147_prngs8", "TFR.C147_minstd", "TFR.C147_mt19937", "TFR.C147_aes", "TFR.C147_catalogue"], "note": ""},
{"property": "C148", "status": "proved", "theorems": ["TFR.C148_apart_64", "TFR.C148_apart_32_64", "TFR.C148_apart_32", "TFR.C148_overlap_32", "TFR.C148_apart_pcg", "TFR.C148_overlap_more", "TFR.C148_apart_xorshift_64", "TFR.C148_apart_xorshift_32", "TFR.C148_apart_minstd"], "note": ""}
]}
