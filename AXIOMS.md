# Axioms of the claimed theorems

Output of `#print axioms` for every theorem named in MANIFEST.json, all in namespace `Nestcheck`.
`std` stands for `propext, Classical.choice, Quot.sound`.

| property | theorem | axioms |
|---|---|---|
| C01 | `C01_nlive_exact` | std |
| C02 | `C02_thread_partition` | std |
| C02 | `C02_maximal` | std |
| C02 | `C02_order` | std |
| C03 | `C03_valid_lossless` | std |
| C04 | `C04_row_order` | std |
| C05 | `C05_birth_inds` | std |
| C06 | `C06_sample_less` | std |
| C06 | `C06_outcome_independent` | std |
| C07 | `C07_no_warning` | std |
| C08 | `C08_threads` | std |
| C08 | `C08_raises` | std |
| C08 | `C08_order` | std |
| C09 | `C09_unsorted` | std |
| C09 | `C09_birth_above` | std |
| C09 | `C09_unknown_contour` | std |
| C09 | `C09_dup_assert` | std |
| C10 | `C10_birth_inds` | std |
| C10 | `C10_threads` | std |
| C10 | `C10_process_samples` | std |
| C10 | `C10_combine_threads` | propext, Quot.sound |
| C10 | `C10_leak_on_error` | std |
| C10 | `C10_combine_leak_on_error` | std |
| C11 | `C11_returns` | std |
| C11 | `C11_accepts` | std |
| C11 | `C11_constant` | std |
| C11 | `C11_missing` | std |
| C12 | `C12_static` | std |
| C12 | `C12_rejects` | std |
| C13 | `C13` | std |
| C13 | `C13_error` | std |
| C13 | `C13_sequential` | std |
| C13 | `C13_untagged` | std |
| C14 | `C14_written` | std |
| C14 | `C14_read_back` | std |
| C14 | `C14_round_trip` | std |
| C15 | `C15_dead_birth_roundtrip` | std |
| C16 | `C16_processed` | std |
| C16 | `C16_rewrite` | std |
| C16 | `C16_rewrite_nlive` | std |
| C16 | `C16_static` | std |
| C16 | `C16_static_same` | std |
| C16 | `C16_threads_change` | std |
| C16 | `C16_labels_change` | std |
| C17 | `C17_split` | std |
| C18 | `C18_split_combine` | std |
| C18 | `C18_lowest_birth_fails` | std |
| C19 | `C19_combine_runs` | std |
| C19 | `C19_lowest_birth_fails` | std |
| C20 | `C20_order` | std |
| C20 | `C20_stages` | std |
| C21 | `C21_output` | propext, Quot.sound |
| C21 | `C21_single` | propext, Quot.sound |
| C21 | `C21_empty` | propext, Quot.sound |
| C22 | `C22_static` | std |
| C22 | `C22_ties_fail` | std |
| C23 | `C23_dynamic` | std |
| C23 | `combineThreads_lowest` | std |
| C23 | `combineThreads_below` | std |
| C24 | `C24_check_ns_run` | std |
| C24 | `C24_warning` | std |
| C24 | `C24_dup_warn` | std |
| C24 | `C24_keys` | std |
| C24 | `C24_keys_error` | std |
| C25 | `C25_volumes` | std |
| C26 | `C26_expected` | std |
| C26 | `C26_simulated` | std |
| C26 | `C26_assert` | std |
| C27 | `C27_log_subtract` | std |
| C28 | `C28_rel_weights` | std |
| C28 | `C28_shift` | std |
| C29 | `C29_evidence` | std |
| C29 | `C29_scaling` | std |
| C30 | `C30_param_mean` | std |
| C30 | `C30_affine` | std |
| C30 | `C30_rescale` | std |
| C30 | `C30_squared` | std |
| C30 | `C30_missing` | std |
| C31 | `C31_assert` | std |
| C31 | `C31_quantile` | std |
| C31 | `C31_scale` | std |
| C31 | `C31_order` | std |
| C31 | `C31_exact` | std |
| C31 | `C31_param_cred` | std |
| C32 | `C32_r_mean` | std |
| C32 | `C32_r_cred` | std |
| C33 | `C33_run_estimators` | std |
| C33 | `C33_builtin` | std |
| C34 | `C34_bootstrap` | std |
| C34 | `C34_threads` | propext, Quot.sound |
| C35 | `C35_seeded` | propext, Quot.sound |
| C35 | `C35_values` | std |
| C35 | `C35_builtin` | std |
| C35 | `C35_leak_on_error` | std |
| C36 | `C36_static` | std |
| C37 | `C37_dynamic` | std |
| C37 | `C37_ninit_sep_fails` | std |
| C38 | `C38_flip` | std |
| C38 | `C38_std` | std |
| C39 | `C39_monotone` | std |
| C39 | `C39_formula` | std |
| C40 | `C40_replication` | std |
| C40 | `C40_single` | std |
| C41 | `C41_elements` | std |
| C41 | `C41_monotone` | std |
| C41 | `C41_reproducible` | std |
| C41 | `C41_negative` | std |
| C41 | `C41_entropy` | std |
| C41 | `C41_seed_free` | std |
| C42 | `C42_pairs` | std |
| C43 | `C43_step` | std |
| C43 | `C43` | std |
| C43 | `C43_once` | std |
| C43 | `C43_dirs` | std |
| C43 | `C43_dirname` | propext, Quot.sound |
| C44 | `C44_keeps` | std |
| C44 | `C44_saves` | std |
| C44 | `C44_history` | std |
| C44 | `C44_collision` | std |
| C45 | `C45_safe` | std |
| C45 | `C45_opening` | std |
| C45 | `C45_repair` | std |
| C45 | `C45_poisoned` | std |
| C45 | `C45_mkdir` | std |
| C46 | `C46_apply` | std |
| C46 | `C46_apply_error` | std |
| C46 | `C46_sequential` | propext |
| C46 | `C46_schedule` | std |
| C46 | `C46_map` | propext, Quot.sound |
| C46 | `C46_chunksize` | propext |
| C47 | `C47_values` | std |
| C47 | `C47_values_error` | std |
| C47 | `C47_bootstrap` | std |
| C47 | `C47_threads` | std |
| C47 | `C47_threads_schedule` | std |
| C47 | `C47_no_runs` | std |
| C47 | `C47_no_estimators` | std |
| C47 | `C47_one_run` | std |
| C48 | `C48` | std |
| C48 | `C48_rmse` | std |
| C48 | `C48_axis` | std |
| C48 | `C48_list` | std |
| C48 | `C48_errors` | std |
| C48 | `C48_nan` | std |
| C48 | `C48_order` | std |
| C48 | `C48_inputs` | std |
| C48 | `C48_labels` | std |
| C49 | `C49` | std |
| C49 | `C49_laws` | std |
| C49 | `C49_zero` | std |
| C50 | `C50_formula` | std |
| C50 | `C50_density` | std |
| C50 | `C50_mean` | std |
| C50 | `C50_rescale` | std |
| C50 | `C50_degenerate` | std |
| C50 | `C50_lengths` | std |
| C50 | `C50_equal` | std |
| C50 | `C50_order` | std |
| C50 | `C50_shift` | std |
| C51 | `C51_lossless` | std |
| C51 | `C51_rows` | std |
| C51 | `C51_nan` | std |
| C51 | `C51_nan_even` | std |
| C52 | `C52_formula` | std |
| C52 | `C52` | std |
| C52 | `C52_shift` | std |
| C52 | `C52_constant` | std |
| C52 | `C52_simulated` | std |
| C53 | `C53_bs` | std |
| C53 | `C53_bs_leak` | std |
| C53 | `C53_bs_many` | std |
| C53 | `C53_logx` | std |
| C53 | `C53_thin` | std |
| C53 | `C53_thin_leak` | std |
| C53 | `C53_thin_changes` | std |
| C53 | `C53_four_runs` | std |
| C54 | `C54_effect` | std |
| C54 | `C54_unchanged` | std |
| C54 | `C54_lines` | std |
| C54 | `C54_returns` | std |
| C55 | `C55` | std |
| C55 | `C55_finite_start` | std |
| C55 | `C55_labels` | std |
| C55 | `C55_process` | std |
| C56 | `C56` | std |
| C56 | `C56_lowest_start` | std |
| C57 | `C57_simulate` | std |
| C57 | `C57_returns` | std |
| C57 | `C57_single` | std |
| C58 | `C58_threads` | std |
| C58 | `C58_returns` | std |
| C59 | `C59_returns` | std |
| C59 | `C59_names` | std |
| C59 | `C59_keywords` | std |
| C59 | `C59_titles` | std |
| C59 | `C59_text` | std |
| C60 | `C60_timing` | propext |
| C60 | `C60_no_name` | std |
| C60 | `C60_no_name_warns` | std |
| C61 | `C61_values` | std |
| C61 | `C61_std` | std |
| C61 | `C61_returns` | std |
| C62 | `C62_errors` | std |
| C62 | `C62_stats_never_fail` | std |
| C62 | `C62_nlike` | std |
| C62 | `C62_layout` | std |
| C63 | `C63_dynamic` | std |
| C63 | `C63_no_counts` | std |
| C63 | `C63_rejects` | std |
| C64 | `C64_process` | std |
| C64 | `C64_threads` | std |
| C64 | `C64_combine_threads` | std |
| C64 | `C64_combine_runs` | std |
| C65 | `C13` | std |
| C66 | `C66` | std |
| C66 | `C66_order` | std |
| C66 | `C66_labels` | std |
| C67 | `C67` | std |
| C68 | `C68_reproducible` | std |
| C68 | `C68_schedule` | std |
| C68 | `C68_content` | std |
| C68 | `C68_summary` | std |
| C69 | `C69_areas` | std |
| C69 | `C69_figure` | std |
| C69 | `C69_returns` | std |
| C70 | `C70_rows` | std |
| C70 | `C70_means` | std |
| C70 | `C70_returns` | std |
| C70 | `C70_bs_returns` | std |
| C70 | `C70_logx_returns` | std |
| C71 | `C71_round_trip` | std |
| C71 | `C71_nlive` | std |
| C71 | `C71_file` | std |
| C72 | `C72_posteriors` | std |
| C72 | `C72_equals` | std |
| C72 | `C72_distribution` | std |
| C73 | `C73_stats` | std |
| C73 | `C73_returns` | std |
| C73 | `C73_rejects` | std |
| C74 | `C74_values` | std |
| C74 | `C74_inputs_kept` | std |
| C74 | `C74_shared_fails` | std |
| C74 | `C74_shared_assertion` | std |
| C75 | `C75` | std |
| C75 | `C75_collision` | std |
| C75 | `C75_nan` | std |
| C75 | `rint_spec` | std |
| C75 | `paperName_shown` | std |
| C76 | `C76` | std |
| C76 | `C76_inside` | std |
| C76 | `C76_heights` | std |
| C76 | `C76_default` | std |
| C76 | `C76_fails` | std |
| C77 | `C77` | std |
| C77 | `C77_law` | std |
| C77 | `C77_evidence` | std |
| C78 | `C78` | std |
| C78 | `C78_count` | std |
| C79 | `C79_logx` | std |
| C79 | `C79_weights` | std |
| C79 | `C79_logz` | std |
| C79 | `C79_minus_inf` | std |
| C79 | `C79_all_minus_inf` | std |
| C79 | `C79_zero_draw` | std |
| C79 | `C79_exact` | std |
| C79 | `C79_exact_weights` | std |
| C79 | `C79_exact_logz` | std |
| C80 | `C80_complete` | std |
| C80 | `C80_progress` | std |
| C80 | `C80_truncated` | std |
| C80 | `C80_one_writer` | std |
| C80 | `C80_same_value` | propext, Quot.sound |
| C80 | `C80_small` | std |
| C80 | `C80_own` | propext |
| C80 | `C80_holes` | propext |
| C80 | `C80_holes_killed` | std |
| C80 | `C80_mixture` | propext |
| C81 | `C81_ks` | std |
| C81 | `C81_emd` | std |
| C81 | `C81_emd_dual` | std |
| C81 | `C81_energy` | std |
| C81 | `C81_zero` | std |
| C81 | `C81_symmetric` | std |
| C81 | `C81_triangle` | std |
| C81 | `C81_order` | std |
| C81 | `C81_ks_invariant` | std |
| C81 | `C81_scale` | std |
| C81 | `C81_returns` | std |
| C82 | `C82_process` | std |
| C82 | `C82_estimates` | std |
| C82 | `C82_simulate` | std |
| C82 | `C82_threads` | std |
| C82 | `C82_bootstrap` | std |
| C82 | `C82_end_to_end` | std |
| C82 | `C82_multinest` | std |
| C83 | `C83_shift` | std |
| C83 | `C83_logz` | std |
| C83 | `C83_param_mean` | std |
| C83 | `C83_squared` | std |
| C83 | `C83_r_mean` | std |
| C83 | `C83_quantile_weights` | std |
| C83 | `C83_quantile_values` | std |
| C83 | `C83_param_cred` | std |
| C83 | `C83_r_cred` | std |
| C83 | `C83_jump` | std |
| C83 | `C83_written` | std |
| C84 | `C84_logw` | std |
| C84 | `C84_logz` | std |
| C84 | `C84_param_mean` | std |
| C84 | `C84_exact` | std |
| C84 | `C84_binary` | std |
| C84 | `C84_binary64_logz` | std |
| C84 | `C84_binary64_param_mean` | std |
| C85 | `C85_array` | std |
| C85 | `C85_round_trip` | std |
| C85 | `C85_injective` | std |
| C85 | `C85_live_threads` | std |
| C85 | `C85_processed` | std |
| C86 | `C86_split` | propext, Quot.sound |
| C86 | `C86_combine_threads` | std |
| C86 | `C86_combine_runs` | std |
| C86 | `C86_process` | propext, Quot.sound |
| C86 | `C86_resample` | std |
| C86 | `C86_evidence` | std |
| C86 | `C86_mean` | std |
| C86 | `C86_squared` | std |
| C86 | `C86_r_mean` | std |
| C86 | `C86_cred` | std |
| C86 | `C86_r_cred` | std |
| C86 | `C86_estimators` | std |
| C86 | `C86_values` | std |
| C86 | `C86_std` | std |
| C86 | `C86_ci` | std |
| C86 | `C86_simulate` | std |
| C86 | `C86_reflection` | std |
| C86 | `C86_negative_fails` | std |
| C87 | `C87_consistent` | propext, Quot.sound |
| C87 | `C87_replay` | std |
| C87 | `C87_lineages` | std |
| C87 | `C87_interrupted` | std |
| C87 | `C87_standard` | std |
| C87 | `C87_multinest` | std |
| C87 | `C87_realised` | std |
| C88 | `C88_threads` | std |
| C88 | `C88_merge` | std |
| C88 | `C88_lowest_birth_fails` | std |
| C89 | `C89_process` | std |
| C89 | `C89_dead_birth` | std |
| C89 | `C89_split` | std |
| C89 | `C89_combine_runs` | std |
| C89 | `C89_combine_threads` | std |
| C89 | `C89_resample` | std |
| C89 | `C89_nearest_fails` | std |
| C89 | `C89_stable` | std |
| C89 | `C89_affine` | std |
| C89 | `C89_shift` | std |
| C89 | `C89_estimators` | std |
| C89 | `C89_values` | std |
| C89 | `C89_std` | std |
| C89 | `C89_ci` | std |
| C89 | `C89_simulate` | std |
| C90 | `C90_unknown_process` | std |
| C90 | `C90_unknown_polychord` | std |
| C90 | `C90_unknown_combine` | std |
| C90 | `C90_unknown_bootstrap` | std |
| C90 | `C90_unknown_std` | std |
| C90 | `C90_unknown_ci` | std |
| C90 | `C90_unknown_apply` | std |
| C90 | `C90_unknown_batch` | std |
| C90 | `C90_unknown_error_values` | std |
| C90 | `C90_unknown_estimator_values` | std |
| C90 | `C90_unknown_others` | std |
| C90 | `C90_order` | std |
| C90 | `C90_dict_process` | std |
| C90 | `C90_dict_bootstrap` | std |
| C90 | `C90_dict_apply` | std |
| C90 | `C90_dict_batch` | std |
| C90 | `C90_dict_tables` | std |
| C90 | `C90_process` | std |
| C90 | `C90_combine` | std |
| C90 | `C90_polychord` | std |
| C90 | `C90_bootstrap` | std |
| C90 | `C90_required` | std |
| C90 | `C90_ci` | std |
| C90 | `C90_summary` | std |
| C90 | `C90_error_values` | std |
| C90 | `C90_apply` | std |
| C90 | `C90_batch` | std |
| C90 | `C90_func_unknown` | std |
| C90 | `C90_no_files` | std |
| C90 | `C90_func_kwargs_after` | std |
| C90 | `C90_cached` | std |
| C90 | `C90_uncached` | std |
| C90 | `C90_summary_uncached` | std |
| C90 | `C90_truth` | std |
| C90 | `C90_others` | std |
| C90 | `C90_dummy` | std |
| C90 | `C90_error_summary` | std |
| C90 | `C90_unknown_write` | std |
| C90 | `C90_write` | std |
| C90 | `C90_multi` | std |
| C90 | `C90_unknown_multi` | std |
| C90 | `C90_unknown_multi_level` | std |
| C90 | `C90_random_seed_none` | std |
| C91 | `C91_run` | std |
| C91 | `C91_law` | std |
| C91 | `C91_moments` | std |
| C92 | `C92_uniform` | std |
| C92 | `C92_run` | std |
| C92 | `C92_logx` | std |
| C92 | `C92_mean` | std |
| C92 | `exAdaptive` | std |
| C92 | `C92_stopped` | std |
| C93 | `C93_independent` | std |
| C93 | `C93_law` | std |
| C93 | `C93_combined` | std |
| C93 | `C93_combined_law` | std |
| C94 | `C94_integral` | std |
| C94 | `C94_evidence` | std |
| C94 | `C94_logz` | std |
| C94 | `C94_static` | std |
| C95 | `C95_integral` | std |
| C95 | `C95_evidence` | std |
| C95 | `C95_logz` | std |
| C95 | `C95_combined` | std |
| C96 | `C96_run` | std |
| C96 | `C96_average` | std |
| C96 | `C96_param_mean` | std |
| C96 | `C96_squared` | std |
| C96 | `C96_r_mean` | std |
| C97 | `C97_weights` | std |
| C97 | `C97_param_cred` | std |
| C97 | `C97_r_cred` | std |
| C98 | `C98_run` | std |
| C98 | `C98_evidence` | std |
| C98 | `C98_logz` | std |
| C99 | `C99_average` | std |
| C99 | `C99_param_mean` | std |
| C99 | `C99_squared` | std |
| C99 | `C99_r_mean` | std |
| C99 | `C99_weights` | std |
| C99 | `C99_param_cred` | std |
| C99 | `C99_r_cred` | std |
| C100 | `C100_param_mean` | std |
| C100 | `C100_minus_inf` | std |
| C100 | `C100_length` | std |
| C101 | `C101_run` | std |
| C102 | `C102_evidence` | std |
| C102 | `C102_logz` | std |
| C102 | `C102_deviation` | std |
| C103 | `C103_values` | std |
| C103 | `C103_std` | std |
| C103 | `C103_ci` | std |
| C104 | `C104_unknown_nlive` | std |
| C104 | `C104_unknown_bs` | std |
| C104 | `C104_unknown_dists` | std |
| C104 | `C104_unknown_logx` | std |
| C104 | `C104_unknown_kde` | std |
| C104 | `C104_nlive` | std |
| C104 | `C104_bs` | std |
| C104 | `C104_dists` | std |
| C104 | `C104_logx` | std |
| C104 | `C104_kde` | std |
| C104 | `C104_columns` | std |
| C104 | `C104_order` | std |
| C104 | `C104_dict` | std |
| C104 | `C104_rng` | std |
| C104 | `C104_rng_logx` | std |
| C104 | `C104_four_runs` | std |
| C105 | `C105_logz` | std |
| C105 | `C105_evidence` | std |
| C105 | `C105_param_mean` | std |
| C105 | `C105_squared` | std |
| C105 | `C105_r_mean` | std |
| C105 | `C105_param_cred` | std |
| C105 | `C105_r_cred` | std |
| C106 | `C106_logz` | std |
| C106 | `C106_evidence` | std |
| C106 | `C106_param_mean` | std |
| C106 | `C106_squared` | std |
| C106 | `C106_r_mean` | std |
| C106 | `C106_param_cred` | std |
| C106 | `C106_r_cred` | std |
| C106 | `C106_static` | std |
| C107 | `C107` | std |
| C107 | `C107_index` | std |
| C107 | `C107_levels` | std |
| C107 | `C107_errors` | std |
| C107 | `C107_refines` | std |
| C108 | `C108_exists` | std |
| C108 | `C108_run` | std |
| C108 | `C108_logz` | std |
| C108 | `C108_param_mean` | std |
| C108 | `C108_squared` | std |
| C108 | `C108_r_mean` | std |
| C108 | `C108_param_cred` | std |
| C108 | `C108_r_cred` | std |
| C108 | `C108_simulated_logz` | std |
| C108 | `C108_simulated_param_mean` | std |
| C108 | `C108_simulated_squared` | std |
| C108 | `C108_simulated_r_mean` | std |
| C108 | `C108_simulated_param_cred` | std |
| C108 | `C108_simulated_r_cred` | std |
| C109 | `C109_combine` | std |
| C109 | `C109_threads` | propext, Quot.sound |
| C109 | `C109_dynesty` | propext, Quot.sound |
| C109 | `C109_multinest` | std |
| C109 | `C109_dummy` | propext |
| C109 | `C109_empty` | std |
| C109 | `C109_lengths` | std |
| C109 | `C109_gain` | std |
| C109 | `C109_gain_names` | std |
| C109 | `C109_nlive` | std |
| C109 | `C109_figures` | std |
| C109 | `C109_kde` | std |
| C110 | `C110_negative` | std |
| C110 | `C110_nonneg` | std |
| C110 | `C110_outside` | std |
| C111 | `C111_evidence` | std |
| C111 | `C111_squared` | std |
| C111 | `C111_r_mean` | std |
| C111 | `C111_exact` | std |
| C111 | `C111_binary64_evidence` | std |
| C111 | `C111_binary64_squared` | std |
| C111 | `C111_binary64_r_mean` | std |
| C112 | `C112_logw` | std |
| C112 | `C112_logz` | std |
| C112 | `C112_evidence` | std |
| C112 | `C112_param_mean` | std |
| C112 | `C112_squared` | std |
| C112 | `C112_r_mean` | std |
| C112 | `C112_exact` | std |
| C112 | `C112_binary64_logz` | std |
| C112 | `C112_binary64_param_mean` | std |
| C113 | `C113_check_logl` | std |
| C113 | `C113_check_threads` | std |
| C113 | `C113_check_numbers` | std |
| C113 | `C113_process_logl` | std |
| C113 | `C113_process_birth` | std |
| C113 | `C113_process_numbers` | std |
| C113 | `C113_polychord` | std |
| C113 | `C113_polychord_numbers` | std |
| C113 | `C113_multinest` | std |
| C113 | `C113_multinest_logl` | std |
| C113 | `C113_multinest_numbers` | std |
| C113 | `C113_dict` | std |
| C113 | `C113_dict_numbers` | propext, Quot.sound |
| C113 | `C113_dynesty` | std |
| C113 | `C113_dynesty_static` | std |
| C113 | `C113_dynesty_numbers` | std |
| C114 | `C114_numbers` | std |
| C114 | `C114_other_columns` | std |
| C114 | `C114_mean` | std |
| C114 | `C114_r_mean` | std |
| C114 | `C114_quantile_nan` | std |
| C114 | `C114_quantile_number` | std |
| C114 | `C114_quantile_value` | std |
| C114 | `C114_order_exists` | std |
| C114 | `C114_param_cred` | std |
| C115 | `C115_returns` | std |
| C115 | `C115_fails` | std |
| C115 | `C115_exceptions` | std |
| C115 | `C115_empty` | std |
| C115 | `C115_causes` | std |
| C115 | `C115_strict` | std |
| C115 | `C115_live` | std |
| C115 | `C115_estimable` | std |
| C115 | `C115_estimates` | std |
| C115 | `C115_proper` | std |
| C115 | `C115_bootstrap` | std |
| C115 | `C115_no_live_points` | std |
| C116 | `C116_default` | std |
| C116 | `C116_untouched` | std |
| C116 | `C116_after_fault` | std |
| C116 | `C116_round_trip` | std |
| C116 | `C116_keeps` | std |
| C116 | `C116_lost` | std |
