PyV.Props.C01_greedy_terminates: propext, Classical.choice, Quot.sound
PyV.Props.C01_greedy_returns: propext, Classical.choice, Quot.sound
PyV.Props.C02_greedy_within_budget: propext, Classical.choice, Quot.sound
PyV.Props.C02_greedy_never_raises: propext, Classical.choice, Quot.sound
PyV.Props.C03_cash_conserved: propext, Classical.choice, Quot.sound
PyV.Props.C04_whole_lots: propext, Classical.choice, Quot.sound
PyV.Props.C05_within_one_lot: propext, Classical.choice, Quot.sound
PyV.Props.C06_no_affordable_underweight: propext, Classical.choice, Quot.sound
PyV.Props.C07_normalised: propext, Classical.choice, Quot.sound
PyV.Props.C07_validation_iff: propext, Classical.choice, Quot.sound
PyV.Props.C08_milp_optimal: propext, Classical.choice, Quot.sound
PyV.Props.C08_optimum_exists: propext, Classical.choice, Quot.sound
PyV.Props.C09_milp_long_short_partial: propext, Classical.choice, Quot.sound
PyV.Props.C09_leverage_infeasible: propext, Classical.choice, Quot.sound
PyV.Props.C09_long_leg_capped: propext, Classical.choice, Quot.sound
PyV.Props.C10_matrices_mean_spec: propext, Classical.choice, Quot.sound
PyV.Props.C10_default_is_simplex: propext, Classical.choice, Quot.sound
PyV.Props.C11_rejects_iff_invalid: propext, Classical.choice, Quot.sound
PyV.Props.C12_cvar_is_ru_minimum: propext, Classical.choice, Quot.sound
PyV.Props.C12_defaults: propext, Classical.choice, Quot.sound
PyV.Props.C13_var_cvar_bracket: propext, Classical.choice, Quot.sound
PyV.Props.C14_homogeneous: propext, Classical.choice, Quot.sound
PyV.Props.C14_subadditive: propext, Classical.choice, Quot.sound
PyV.Props.C14_translation: propext, Classical.choice, Quot.sound
PyV.Props.C14_monotone: propext, Classical.choice, Quot.sound
PyV.Props.C14_confidence_mono: propext, Classical.choice, Quot.sound
PyV.Props.C14_demean: propext, Classical.choice, Quot.sound
PyV.Props.C15_scenario_order: propext, Classical.choice, Quot.sound
PyV.Props.C16_normalize_contract: propext, Classical.choice, Quot.sound
PyV.Props.C16_rejects_nonfinite: propext, Classical.choice, Quot.sound
PyV.Props.C16_resolve: propext, Classical.choice, Quot.sound
PyV.Props.C17_exp_decay: propext, Classical.choice, Quot.sound
PyV.Props.C18_gaussian_kernel: propext, Classical.choice, Quot.sound
PyV.Props.C18_defaults: propext, Classical.choice, Quot.sound
PyV.Props.C18_normal_ratio: propext, Classical.choice, Quot.sound
PyV.Props.C18_silverman: propext, Classical.choice, Quot.sound
PyV.Props.C18_little_data: propext, Classical.choice, Quot.sound
PyV.Props.C19_entropy_bounds: propext, Classical.choice, Quot.sound
PyV.Props.C19_hhi_bounds: propext, Classical.choice, Quot.sound
PyV.Props.C20_posterior_is_distribution: propext, Classical.choice, Quot.sound
PyV.Props.C20_failure_modes: propext, Classical.choice, Quot.sound
PyV.Props.C20_bad_input_rejected: propext, Classical.choice, Quot.sound
PyV.Props.C21_kl_optimal: propext, Classical.choice, Quot.sound
PyV.Props.C21_kl_optimal_eq: propext, Classical.choice, Quot.sound
PyV.Props.C21_localMin_of_kkt: propext, Classical.choice, Quot.sound
PyV.Props.C22_gradient_exact: propext, Classical.choice, Quot.sound
PyV.Props.C22_clipped_unbounded_below: propext, Classical.choice, Quot.sound
PyV.Props.C23_mean_rows_iff: propext, Classical.choice, Quot.sound
PyV.Props.C23_mean_accepts_iff: propext, Classical.choice, Quot.sound
PyV.Props.C24_vol_rows_iff: propext, Classical.choice, Quot.sound
PyV.Props.C24_var_rows_iff: propext, Classical.choice, Quot.sound
PyV.Props.C24_skew_rows_iff: propext, Classical.choice, Quot.sound
PyV.Props.C24_corr_rows_iff: propext, Classical.choice, Quot.sound
PyV.Props.C24_variance_gap: propext, Classical.choice, Quot.sound
PyV.Props.C25_cvar_partial: propext, Classical.choice, Quot.sound
PyV.Props.C25_corr_distortion: propext, Classical.choice, Quot.sound
PyV.Props.C25_higher_partial: propext, Classical.choice, Quot.sound
PyV.Props.C25_sequential_last_partial: propext, Classical.choice, Quot.sound
PyV.Props.C25_simultaneous_partial: propext, Classical.choice, Quot.sound
PyV.Props.C25_quantile_partial: propext, Classical.choice, Quot.sound
PyV.Props.C25_sequential_partial: propext, Classical.choice, Quot.sound
PyV.Props.C25_counterexample: propext, Classical.choice, Quot.sound
PyV.Props.C26_no_views_prior: propext, Classical.choice, Quot.sound
PyV.Props.C26_single_column_fails: propext, Classical.choice, Quot.sound
PyV.Props.C27_counterexample: propext, Classical.choice, Quot.sound
PyV.Props.C27_unchanged_partial: propext, Classical.choice, Quot.sound
PyV.Props.C28_ranking: propext, Classical.choice, Quot.sound
PyV.Props.C28_processor: propext, Classical.choice, Quot.sound
PyV.Props.C29_rows_pin_tail: propext, Classical.choice, Quot.sound
PyV.Props.C29_solver: propext, Classical.choice, Quot.sound
PyV.Props.C29_search: propext, Classical.choice, Quot.sound
PyV.Props.C29_accepts_iff: propext, Classical.choice, Quot.sound
PyV.Props.C30_helpers: propext, Classical.choice, Quot.sound
PyV.Props.C30_between: propext, Classical.choice, Quot.sound
PyV.Props.C30_helper_targets_finite_partial: propext, Classical.choice, Quot.sound
PyV.Props.C30_raw_between_nan_accepted: propext, Classical.choice, Quot.sound
PyV.Props.C31_normal_equations: propext, Classical.choice, Quot.sound
PyV.Props.C31_posterior_mode: propext, Classical.choice, Quot.sound
PyV.Props.C31_processor: propext, Classical.choice, Quot.sound
PyV.Props.C32_covariance_bounds: propext, Classical.choice, Quot.sound
PyV.Props.C32_no_views: propext, Classical.choice, Quot.sound
PyV.Props.C33_idzorek_tilt: propext, Classical.choice, Quot.sound
PyV.Props.C33_idzorek_asset: propext, Classical.choice, Quot.sound
PyV.Props.C34_pick_matrix_partial: propext, Classical.choice, Quot.sound
PyV.Props.C34_counterexample: propext, Classical.choice, Quot.sound
PyV.Props.C35_sample_moments: propext, Classical.choice, Quot.sound
PyV.Props.C35_translation: propext, Classical.choice, Quot.sound
PyV.Props.C35_rejects: propext, Classical.choice, Quot.sound
PyV.Props.C36_jorion: propext, Classical.choice, Quot.sound
PyV.Props.C36_jorion_between: propext, Classical.choice, Quot.sound
PyV.Props.C36_jorion_rejects: propext, Classical.choice, Quot.sound
PyV.Props.C37_james_stein_partial: propext, Classical.choice, Quot.sound
PyV.Props.C37_intensity: propext, Classical.choice, Quot.sound
PyV.Props.C37_counterexample: propext, Classical.choice, Quot.sound
PyV.Props.C38_convex_combination_partial: propext, Classical.choice, Quot.sound
PyV.Props.C38_no_shrinkage: propext, Classical.choice, Quot.sound
PyV.Props.C38_single_asset_fails: propext, Classical.choice, Quot.sound
PyV.Props.C38_counterexample: propext, Classical.choice, Quot.sound
PyV.Props.C39_oas: propext, Classical.choice, Quot.sound
PyV.Props.C39_intensity: propext, Classical.choice, Quot.sound
PyV.Props.C39_oas_single: propext, Classical.choice, Quot.sound
PyV.Props.C40_ewma: propext, Classical.choice, Quot.sound
PyV.Props.C40_ewma_succeeds: propext, Classical.choice, Quot.sound
PyV.Props.C40_span_zero: propext, Classical.choice, Quot.sound
PyV.Props.C40_small_span: propext, Classical.choice, Quot.sound
PyV.Props.C41_trace_partial: propext, Classical.choice, Quot.sound
PyV.Props.C41_counterexample: propext, Classical.choice, Quot.sound
PyV.Props.C41_succeeds: propext, Classical.choice, Quot.sound
PyV.Props.C41_single_asset_fails: propext, Classical.choice, Quot.sound
PyV.Props.C42_variances_and_shrinkage: propext, Classical.choice, Quot.sound
PyV.Props.C42_zero_threshold: propext, Classical.choice, Quot.sound
PyV.Props.C42_after_guard: propext, Classical.choice, Quot.sound
PyV.Props.C42_succeeds: propext, Classical.choice, Quot.sound
PyV.Props.C42_rejects: propext, Classical.choice, Quot.sound
PyV.Props.C43_huber_range: propext, Classical.choice, Quot.sound
PyV.Props.C43_median_of_means: propext, Classical.choice, Quot.sound
PyV.Props.C44_partition: propext, Classical.choice, Quot.sound
PyV.Props.C44_one_block: propext, Classical.choice, Quot.sound
PyV.Props.C44_auto_blocks: propext, Classical.choice, Quot.sound
PyV.Props.C44_requested_blocks: propext, Classical.choice, Quot.sound
PyV.Props.C45_guard_result: propext, Classical.choice, Quot.sound
PyV.Props.C45_guard_identity: propext, Classical.choice, Quot.sound
PyV.Props.C45_guard_repair: propext, Classical.choice, Quot.sound
PyV.Props.C45_tolerance_gap: propext, Classical.choice, Quot.sound
PyV.Props.C46_average: propext, Classical.choice, Quot.sound
PyV.Props.C46_linear: propext, Classical.choice, Quot.sound
PyV.Props.C46_equality: propext, Classical.choice, Quot.sound
PyV.Props.C46_between: propext, Classical.choice, Quot.sound
PyV.Props.C46_relabel: propext, Classical.choice, Quot.sound
PyV.Props.C46_negative_accepted: propext, Classical.choice, Quot.sound
PyV.Props.C47_folds: propext, Classical.choice, Quot.sound
PyV.Props.C47_rejects: propext, Classical.choice, Quot.sound
PyV.Props.C48_objective: propext, Classical.choice, Quot.sound
PyV.Props.C48_result: propext, Classical.choice, Quot.sound
PyV.Props.C48_optimum_exists: propext, Classical.choice, Quot.sound
PyV.Props.C49_restored: propext, Quot.sound
PyV.Props.C49_stacking: propext, Classical.choice, Quot.sound
PyV.Props.C49_in_effect: propext, Classical.choice, Quot.sound
PyV.Props.C49_quiet: propext, Classical.choice, Quot.sound
PyV.Props.C50_counterexample: propext, Classical.choice, Quot.sound
PyV.Props.C50_default_partial: propext, Classical.choice, Quot.sound
PyV.Props.C51_reusable_partial: propext, Classical.choice, Quot.sound
PyV.Props.C51_counterexample: propext, Classical.choice, Quot.sound
PyV.Props.C52_min_risk: propext, Classical.choice, Quot.sound
PyV.Props.C52_min_risk_errors: propext, Classical.choice, Quot.sound
PyV.Props.C52_max_return: propext, Classical.choice, Quot.sound
PyV.Props.C52_tangency: propext, Classical.choice, Quot.sound
PyV.Props.C52_tangency_error: propext, Quot.sound
PyV.Props.C53_at_risk: propext, Classical.choice, Quot.sound
PyV.Props.C53_at_return: propext, Classical.choice, Quot.sound
PyV.Props.C53_infeasible: propext, Classical.choice, Quot.sound
PyV.Props.C53_closest_risk: propext, Classical.choice, Quot.sound
PyV.Props.C54_percentiles: propext, Classical.choice, Quot.sound
PyV.Props.C54_percentile_input: propext, Classical.choice, Quot.sound
PyV.Props.C54_nan_accepted: propext, Quot.sound
PyV.Props.C54_at_percentile: propext, Classical.choice, Quot.sound
PyV.Props.C55_envelope: propext, Classical.choice, Quot.sound
PyV.Props.C55_upper_partial: propext, Classical.choice, Quot.sound
PyV.Props.C55_counterexample_tie: propext, Classical.choice, Quot.sound
PyV.Props.C56_per_call: propext, Classical.choice, Quot.sound
PyV.Props.C56_constructor_partial: propext, Classical.choice, Quot.sound
PyV.Props.C56_shortcuts_partial: propext, Classical.choice, Quot.sound
PyV.Props.C56_counterexample: propext, Classical.choice, Quot.sound
PyV.Props.C57_scenarios_round_trip: propext, Classical.choice, Quot.sound
PyV.Props.C57_log_simple_log: propext, Classical.choice, Quot.sound
PyV.Props.C57_simple_log_simple: propext, Classical.choice, Quot.sound
PyV.Props.C57_symmetric: propext, Classical.choice, Quot.sound
PyV.Props.C58_project: propext, Classical.choice, Quot.sound
PyV.Props.C58_positive_rows: propext, Classical.choice, Quot.sound
PyV.Props.C58_paths: propext, Classical.choice, Quot.sound
PyV.Props.C58_agree: propext, Classical.choice, Quot.sound
PyV.Props.C58_paths_succeed: propext, Classical.choice, Quot.sound
PyV.Props.C59_zero_move: propext, Quot.sound
PyV.Props.C59_difference: propext, Quot.sound
PyV.Props.C59_taylor: propext, Quot.sound
PyV.Props.C59_compose: propext, Quot.sound
PyV.Props.C59_compose_zero: propext, Quot.sound
PyV.Props.C59_compose_accepts: propext, Classical.choice, Quot.sound
PyV.Props.C59_doc_example: propext, Classical.choice, Quot.sound
PyV.Props.C60_fraction: propext, Classical.choice, Quot.sound
PyV.Props.C60_largest_loss: propext, Classical.choice, Quot.sound
PyV.Props.C60_zero_iff_partial: propext, Classical.choice, Quot.sound
PyV.Props.C60_counterexample: propext, Classical.choice, Quot.sound
PyV.Props.C60_summary: propext, Classical.choice, Quot.sound
PyV.Props.C60_report: propext, Classical.choice, Quot.sound
PyV.Props.C61_align: propext, Quot.sound
PyV.Props.C61_align_order: propext, Classical.choice, Quot.sound
PyV.Props.C61_stress_order: propext, Classical.choice, Quot.sound
PyV.Props.C61_stress_rejects: propext, Classical.choice, Quot.sound
PyV.Props.C61_report_order: propext, Classical.choice, Quot.sound
PyV.Props.C61_report_missing: propext, Classical.choice, Quot.sound
PyV.Props.C61_pnl_missing_nan: propext, Classical.choice, Quot.sound
PyV.Props.C61_extra_ignored: propext, Classical.choice, Quot.sound
PyV.Props.C62_is_kl: propext, Classical.choice, Quot.sound
PyV.Props.C62_nonneg_partial: propext, Classical.choice, Quot.sound
PyV.Props.C62_counterexample: propext, Classical.choice, Quot.sound
PyV.Props.C63_conjugate: propext, Classical.choice, Quot.sound
PyV.Props.C63_update: propext, Classical.choice, Quot.sound
PyV.Props.C63_total: propext, Classical.choice, Quot.sound
PyV.Props.C63_fractional_t0: propext, Classical.choice, Quot.sound
PyV.Props.C64_before: propext, Classical.choice, Quot.sound
PyV.Props.C64_after_partial: propext, Classical.choice, Quot.sound
PyV.Props.C64_getters_answer: propext, Classical.choice, Quot.sound
PyV.Props.C64_counterexample: propext, Classical.choice, Quot.sound
PyV.Props.C65_retry_bounded: propext, Classical.choice, Quot.sound
PyV.Props.C65_factor_meaning: propext, Classical.choice, Quot.sound
PyV.Props.C65_shape: propext, Classical.choice, Quot.sound
PyV.Props.C66_lp_value: propext, Classical.choice, Quot.sound
PyV.Props.C66_minimises_cvar: propext, Classical.choice, Quot.sound
PyV.Props.C66_total: propext, Classical.choice, Quot.sound
PyV.Props.C67_right_iff_diagonal: propext, Classical.choice, Quot.sound
PyV.Props.C67_actual_objective: propext, Classical.choice, Quot.sound
PyV.Props.C67_diagonal_partial: propext, Classical.choice, Quot.sound
PyV.Props.C67_counterexample: propext, Classical.choice, Quot.sound
PyV.Props.C68_bounds_always_fail: propext, Classical.choice, Quot.sound
PyV.Props.C68_counterexample: propext, Classical.choice, Quot.sound
PyV.Props.C68_max_sharpe_partial: propext, Classical.choice, Quot.sound
PyV.Props.C68_long_only_excess: propext, Classical.choice, Quot.sound
PyV.Props.C68_negative_excess_is_worst: propext, Classical.choice, Quot.sound
PyV.Props.C68_worst_counterexample: propext, Classical.choice, Quot.sound
PyV.Props.C69_linear_turnover_value: propext, Classical.choice, Quot.sound
PyV.Props.C69_minimises_cvar_plus_turnover: propext, Classical.choice, Quot.sound
PyV.Props.C69_negative_cost_fails: propext, Classical.choice, Quot.sound
PyV.Props.C69_quadratic_turnover_value: propext, Classical.choice, Quot.sound
PyV.Props.C70_feasible_iff: propext, Classical.choice, Quot.sound
PyV.Props.C70_clip: propext, Classical.choice, Quot.sound
PyV.Props.C71_min_risk_partial: propext, Classical.choice, Quot.sound
PyV.Props.C71_counterexample_raw: propext, Classical.choice, Quot.sound
PyV.Props.C71_counterexample_mean: propext, Classical.choice, Quot.sound
PyV.Props.C72_optimiser: propext, Classical.choice, Quot.sound
PyV.Props.C72_spec_partial: propext, Classical.choice, Quot.sound
PyV.Props.C72_default_partial: propext, Classical.choice, Quot.sound
PyV.Props.C72_unknown: propext, Classical.choice, Quot.sound
PyV.Props.C72_counterexample: propext, Classical.choice, Quot.sound
PyV.Props.C73_own_frontier_partial: propext, Classical.choice, Quot.sound
PyV.Props.C73_counterexample: propext, Classical.choice, Quot.sound
PyV.Props.C74_contents: propext, Classical.choice, Quot.sound
PyV.Props.C74_accepts_iff: propext, Classical.choice, Quot.sound
PyV.Props.C74_value_error: propext, Classical.choice, Quot.sound
PyV.Props.C75_log2simple_psd: propext, Classical.choice, Quot.sound
PyV.Props.C75_scaled_psd: propext, Classical.choice, Quot.sound
PyV.Props.C76_compounding: propext, Classical.choice, Quot.sound
PyV.Props.C77_uniform_accepts: propext, Classical.choice, Quot.sound
PyV.Props.C77_accepts_partial: propext, Classical.choice, Quot.sound
PyV.Props.C77_accepts_iff: propext, Classical.choice, Quot.sound
PyV.Props.C77_counterexample: propext, Classical.choice, Quot.sound
PyV.Props.C77_negative_paths: propext, Classical.choice, Quot.sound
PyV.Props.C78_accepts: propext, Classical.choice, Quot.sound
PyV.Props.C79_stress_nominal: propext, Classical.choice, Quot.sound
PyV.Props.C79_stress_stressed: propext, Classical.choice, Quot.sound
PyV.Props.C79_report: propext, Classical.choice, Quot.sound
PyV.Props.C79_consistent: propext, Classical.choice, Quot.sound
PyV.Props.C80_affine_report: propext, Classical.choice, Quot.sound
PyV.Props.C80_linear_stress: propext, Classical.choice, Quot.sound
PyV.Props.C80_null_stress: propext, Classical.choice, Quot.sound
PyV.Props.C81_no_views_partial: propext, Classical.choice, Quot.sound
PyV.Props.C81_in_order_partial: propext, Classical.choice, Quot.sound
PyV.Props.C81_counterexample: propext, Classical.choice, Quot.sound
PyV.Props.C82_rows: propext, Classical.choice, Quot.sound
PyV.Props.C82_no_duplicate_rows: propext, Classical.choice, Quot.sound
PyV.Props.C83_counterexample: propext, Quot.sound
PyV.Props.C83_broadcast: propext, Quot.sound
PyV.Props.C83_same_count_partial: propext, Quot.sound
PyV.Props.C84_sequential: propext, Classical.choice, Quot.sound
PyV.Props.C85_bundle: propext, Classical.choice, Quot.sound
PyV.Props.C86_worst_mean: propext, Classical.choice, Quot.sound
PyV.Props.C87_worst_variance: propext, Classical.choice, Quot.sound
PyV.Props.C88_log_units: propext, Classical.choice, Quot.sound
PyV.Props.C88_simple_units: propext, Classical.choice, Quot.sound
PyV.Props.C88_exact_partial: propext, Classical.choice, Quot.sound
PyV.Props.C88_counterexample: propext, Classical.choice, Quot.sound
PyV.Props.C89_labels_partial: propext, Classical.choice, Quot.sound
PyV.Props.C89_prior_mismatch: propext, Classical.choice, Quot.sound
PyV.Props.C89_counterexample: propext, Classical.choice, Quot.sound
PyV.Props.C90_min_variance: propext, Classical.choice, Quot.sound
PyV.Props.C90_min_variance_with_ridge: propext, Classical.choice, Quot.sound
PyV.Props.C90_total: propext, Classical.choice, Quot.sound
PyV.Props.C91_mean_variance_frontier: propext, Classical.choice, Quot.sound
PyV.Props.C91_mean_cvar_frontier: propext, Classical.choice, Quot.sound
PyV.Props.C91_mean_variance_total: propext, Classical.choice, Quot.sound
PyV.Props.C91_no_inequality: propext, Classical.choice, Quot.sound
PyV.Props.C91_mean_cvar_total: propext, Classical.choice, Quot.sound
PyV.Props.C92_lambda_monotone: propext, Classical.choice, Quot.sound
PyV.Props.C92_frontier: propext, Classical.choice, Quot.sound
PyV.Props.C92_accepts_iff: propext, Classical.choice, Quot.sound
PyV.Props.C92_frontier_total: propext, Classical.choice, Quot.sound
PyV.Props.C93_gamma_cap: propext, Classical.choice, Quot.sound
PyV.Props.C93_accepts_iff: propext, Classical.choice, Quot.sound
PyV.Props.C94_costs_always_fail: propext, Classical.choice, Quot.sound
PyV.Props.C94_counterexample: propext, Classical.choice, Quot.sound
PyV.Props.C94_wrapper: propext, Classical.choice, Quot.sound
PyV.Props.C95_zero_lambda_risk_undetermined: propext, Classical.choice, Quot.sound
PyV.Props.C95_positive_lambda_partial: propext, Classical.choice, Quot.sound
PyV.Props.C95_counterexample: propext, Classical.choice, Quot.sound
PyV.Props.C96_solution: propext, Classical.choice, Quot.sound
PyV.Props.C96_total: propext, Classical.choice, Quot.sound
PyV.Props.C97_diagonal_partial: propext, Classical.choice, Quot.sound
PyV.Props.C97_counterexample: propext, Classical.choice, Quot.sound
PyV.Props.C98_max_return_partial: propext, Classical.choice, Quot.sound
PyV.Props.C98_counterexample: propext, Classical.choice, Quot.sound
PyV.Props.C99_counterexample: propext, Classical.choice, Quot.sound
PyV.Props.C99_insufficient_partial: propext, Classical.choice, Quot.sound
PyV.Props.C100_method_names: propext, Classical.choice, Quot.sound
PyV.Props.C101_returns: propext, Classical.choice, Quot.sound
PyV.Props.C101_compounding: propext, Classical.choice, Quot.sound
PyV.Props.C101_array_accepts_iff: propext, Classical.choice, Quot.sound
PyV.Props.C101_value_error: propext, Classical.choice, Quot.sound
PyV.Props.C101_counterexample: propext, Classical.choice, Quot.sound
PyV.Props.C102_conversion: propext, Classical.choice, Quot.sound
PyV.Props.C102_log_scenarios: propext, Classical.choice, Quot.sound
PyV.Props.C103_simple: propext, Classical.choice, Quot.sound
PyV.Props.C103_log: propext, Classical.choice, Quot.sound
PyV.Props.C103_round_trip: propext, Classical.choice, Quot.sound
PyV.Props.C103_mismatch: propext, Classical.choice, Quot.sound
PyV.Props.C103_counterexample_broadcast: propext, Classical.choice, Quot.sound
PyV.Props.C103_log_lengths: propext, Classical.choice, Quot.sound
PyV.Props.C103_bad_covariance: propext, Classical.choice, Quot.sound
PyV.Props.C103_counterexample_infinite: propext, Classical.choice, Quot.sound
PyV.Props.C104_factor_free: propext, Classical.choice, Quot.sound
PyV.Props.C104_same_weights: propext, Classical.choice, Quot.sound
PyV.Props.C104_total: propext, Classical.choice, Quot.sound
PyV.Props.C105_constructor: propext, Classical.choice, Quot.sound
PyV.Props.C105_variance_frontier_partial: propext, Classical.choice, Quot.sound
PyV.Props.C105_counterexample: propext, Classical.choice, Quot.sound
PyV.Props.C106_selectors: propext, Classical.choice, Quot.sound
PyV.Props.C107_unbounded: propext, Classical.choice, Quot.sound
PyV.Props.C107_min_variance_at_return: propext, Classical.choice, Quot.sound
PyV.Props.C108_log_moments_partial: propext, Classical.choice, Quot.sound
PyV.Props.C108_counterexample: propext, Classical.choice, Quot.sound
PyV.Props.C109_min_cvar_at_return_partial: propext, Classical.choice, Quot.sound
PyV.Props.C109_counterexample: propext, Classical.choice, Quot.sound
PyV.Props.C110_robust_frontier_partial: propext, Classical.choice, Quot.sound
PyV.Props.C110_counterexample: propext, Classical.choice, Quot.sound
PyV.Props.C111_total: propext, Classical.choice, Quot.sound
PyV.Props.C111_base_error: propext, Classical.choice, Quot.sound
PyV.Props.C111_result_partial: propext, Classical.choice, Quot.sound
PyV.Props.C111_attained: propext, Classical.choice, Quot.sound
PyV.Props.C111_raised: propext, Classical.choice, Quot.sound
PyV.Props.C111_counterexample: propext, Classical.choice, Quot.sound
PyV.Props.C112_frontier: propext, Classical.choice, Quot.sound
PyV.Props.C113_constructor: propext, Classical.choice, Quot.sound
PyV.Props.C113_impact_partial: propext, Classical.choice, Quot.sound
PyV.Props.C113_proportional_partial: propext, Classical.choice, Quot.sound
PyV.Props.C113_counterexample: propext, Classical.choice, Quot.sound
PyV.Props.C113_unused_ignored: propext, Classical.choice, Quot.sound
PyV.Props.C114_cvar_frontier: propext, Classical.choice, Quot.sound
PyV.Props.C115_exp_decay: propext, Classical.choice, Quot.sound
PyV.Props.C115_kernel_focus: propext, Classical.choice, Quot.sound
PyV.Props.C115_entropy_pooling: propext, Classical.choice, Quot.sound
PyV.Props.C115_exp_decay_total: propext, Classical.choice, Quot.sound
PyV.Props.C115_kernel_focus_total: propext, Classical.choice, Quot.sound
PyV.Props.C116_transform: propext, Classical.choice, Quot.sound
PyV.Props.C116_pnl: propext, Classical.choice, Quot.sound
PyV.Props.C117_gamma_partial: propext, Classical.choice, Quot.sound
PyV.Props.C117_counterexample: propext, Classical.choice, Quot.sound
PyV.Props.C118_tangency: propext, Classical.choice, Quot.sound
PyV.Props.C118_min_risk: propext, Classical.choice, Quot.sound
PyV.Props.C118_max_return: propext, Classical.choice, Quot.sound
PyV.Props.C118_risk_target: propext, Classical.choice, Quot.sound
PyV.Props.C118_risk_match: propext, Classical.choice, Quot.sound
PyV.Props.C118_risk_percentile: propext, Classical.choice, Quot.sound
PyV.Props.C118_percentile_range: propext, Classical.choice, Quot.sound
PyV.Props.C118_column: propext, Classical.choice, Quot.sound
PyV.Props.C118_rejects: propext, Classical.choice, Quot.sound
PyV.Props.C119_selected: propext, Classical.choice, Quot.sound
PyV.Props.C119_frontier: propext, Classical.choice, Quot.sound
PyV.Props.C119_rejects: propext, Classical.choice, Quot.sound
PyV.Props.C119_propagates: propext, Classical.choice, Quot.sound
PyV.Props.C120_result_partial: propext, Classical.choice, Quot.sound
PyV.Props.C120_rejects: propext, Classical.choice, Quot.sound
PyV.Props.C120_counterexample: propext, Classical.choice, Quot.sound
PyV.Props.C121_priority: propext, Classical.choice, Quot.sound
PyV.Props.C121_scenarios: propext, Classical.choice, Quot.sound
PyV.Props.C121_moments: propext, Classical.choice, Quot.sound
PyV.Props.C121_rejects_weights: propext, Classical.choice, Quot.sound
PyV.Props.C121_propagates: propext, Classical.choice, Quot.sound
PyV.Props.C122_size: propext, Classical.choice, Quot.sound
PyV.Props.C122_collect: propext, Classical.choice, Quot.sound
PyV.Props.C123_aligned_partial: propext, Classical.choice, Quot.sound
PyV.Props.C123_missing: propext, Classical.choice, Quot.sound
PyV.Props.C123_counterexample: propext, Classical.choice, Quot.sound
PyV.Props.C124_function: propext, Classical.choice, Quot.sound
PyV.Props.C124_default: propext, Classical.choice, Quot.sound
PyV.Props.C124_instruments: propext, Classical.choice, Quot.sound
PyV.Props.C124_array_dict: propext, Classical.choice, Quot.sound
PyV.Props.C124_accepts: propext, Classical.choice, Quot.sound
PyV.Props.C125_conditions: propext, Classical.choice, Quot.sound
PyV.Props.C125_auto: propext, Classical.choice, Quot.sound
PyV.Props.C125_errors: propext, Classical.choice, Quot.sound
PyV.Props.C125_near_optimal: propext, Classical.choice, Quot.sound
PyV.Props.C125_counterexample: propext, Classical.choice, Quot.sound
PyV.Props.C126_equal_weights_partial: propext, Classical.choice, Quot.sound
PyV.Props.C126_counterexample_single: propext, Classical.choice, Quot.sound
PyV.Props.C126_weighted_partial: propext, Classical.choice, Quot.sound
PyV.Props.C126_weights_ignored: propext, Classical.choice, Quot.sound
PyV.Props.C126_counterexample: propext, Classical.choice, Quot.sound
PyV.Props.C127_covariance: propext, Classical.choice, Quot.sound
PyV.Props.C127_names: propext, Classical.choice, Quot.sound
PyV.Props.C127_mean: propext, Classical.choice, Quot.sound
PyV.Props.C127_cov: propext, Classical.choice, Quot.sound
PyV.Props.C128_frame_partial: propext, Classical.choice, Quot.sound
PyV.Props.C128_array_weights: propext, Classical.choice, Quot.sound
PyV.Props.C128_counterexample_square: propext, Classical.choice, Quot.sound
PyV.Props.C128_counterexample_array: propext, Classical.choice, Quot.sound
PyV.Props.C129_from_niw: propext, Classical.choice, Quot.sound
PyV.Props.C130_prior: propext, Classical.choice, Quot.sound
PyV.Props.C130_no_views: propext, Classical.choice, Quot.sound
PyV.Props.C130_symmetrised: propext, Classical.choice, Quot.sound
PyV.Props.C130_rejects: propext, Classical.choice, Quot.sound
PyV.Props.C130_length_partial: propext, Classical.choice, Quot.sound
PyV.Props.C130_counterexample: propext, Classical.choice, Quot.sound
PyV.Props.C130_sized: propext, Classical.choice, Quot.sound
PyV.Props.C131_views: propext, Classical.choice, Quot.sound
PyV.Props.C131_formula: propext, Classical.choice, Quot.sound
PyV.Props.C132_unchanged_partial: propext, Classical.choice, Quot.sound
PyV.Props.C132_counterexample: propext, Classical.choice, Quot.sound
PyV.Props.C133_accepts_iff: propext, Classical.choice, Quot.sound
PyV.Props.C133_errors: propext, Classical.choice, Quot.sound
PyV.Props.C133_date: propext, Classical.choice, Quot.sound
PyV.Props.C134_entries: propext, Classical.choice, Quot.sound
PyV.Props.C134_raw: propext, Classical.choice, Quot.sound
PyV.Props.C134_complete_partial: propext, Classical.choice, Quot.sound
PyV.Props.C134_counterexample: propext, Classical.choice, Quot.sound
PyV.Props.C134_counterexample_nonpositive: propext, Classical.choice, Quot.sound
PyV.Props.C134_drop: propext, Classical.choice, Quot.sound
PyV.Props.C135_series: propext, Classical.choice, Quot.sound
PyV.Props.C136_average: propext, Classical.choice, Quot.sound
PyV.Props.C136_linear: propext, Classical.choice, Quot.sound
PyV.Props.C136_equality: propext, Classical.choice, Quot.sound
PyV.Props.C136_columns: propext, Classical.choice, Quot.sound
PyV.Props.C137_stack: propext, Classical.choice, Quot.sound
PyV.Props.C137_linear: propext, Classical.choice, Quot.sound
PyV.Props.C137_succeeds: propext, Classical.choice, Quot.sound
PyV.Props.C137_folds_bounded: propext, Classical.choice, Quot.sound
PyV.Props.C137_counterexample: propext, Classical.choice, Quot.sound
PyV.Props.C138_selections: propext, Classical.choice, Quot.sound
PyV.Props.C138_aligned: propext, Classical.choice, Quot.sound
PyV.Props.C139_dict: propext, Classical.choice, Quot.sound
PyV.Props.C139_order: propext, Classical.choice, Quot.sound
PyV.Props.C140_frame: propext, Classical.choice, Quot.sound
PyV.Props.C141_column: propext, Classical.choice, Quot.sound
PyV.Props.C141_greedy: propext, Classical.choice, Quot.sound
PyV.Props.C142_poet_decomposition: propext, Classical.choice, Quot.sound
PyV.Props.C142_succeeds: propext, Classical.choice, Quot.sound
PyV.Props.C143_simulation: propext, Classical.choice, Quot.sound
PyV.Props.C143_exact_moments: propext, Classical.choice, Quot.sound
PyV.Props.C143_custom_generator: propext, Classical.choice, Quot.sound
PyV.Props.C143_rejects: propext, Classical.choice, Quot.sound
PyV.Props.C143_generator_error: propext, Classical.choice, Quot.sound
PyV.Props.C144_labels_partial: propext, Classical.choice, Quot.sound
PyV.Props.C144_counterexample: propext, Classical.choice, Quot.sound
PyV.Props.C145_accessors: propext, Classical.choice, Quot.sound
PyV.Props.C145_scenarios: propext, Classical.choice, Quot.sound
PyV.Props.C145_moments: propext, Classical.choice, Quot.sound
PyV.Props.C146_variance: propext, Classical.choice, Quot.sound
PyV.Props.C146_cvar: propext, Classical.choice, Quot.sound
PyV.Props.C147_pins: propext, Classical.choice, Quot.sound
PyV.Props.C147_wrong_length: propext, Classical.choice, Quot.sound
PyV.Props.C147_cvar_vector: propext, Classical.choice, Quot.sound
PyV.Props.C148_floating_partial: propext, Classical.choice, Quot.sound
PyV.Props.C148_integer_values_partial: propext, Classical.choice, Quot.sound
PyV.Props.C148_losses_vanish: propext, Classical.choice, Quot.sound
PyV.Props.C148_counterexample: propext, Classical.choice, Quot.sound
PyV.Props.C149_counterexample: propext, Classical.choice, Quot.sound
PyV.Props.C149_positional: propext, Classical.choice, Quot.sound
PyV.Props.C149_same_order_partial: propext, Classical.choice, Quot.sound
PyV.Props.C150_requests: propext, Classical.choice, Quot.sound
PyV.Props.C150_nothing: propext, Classical.choice, Quot.sound
PyV.Props.C150_mode: propext, Classical.choice, Quot.sound
PyV.Props.C150_accessors: propext, Classical.choice, Quot.sound
PyV.Props.C151_metadata: propext, Classical.choice, Quot.sound
PyV.Props.C151_repeated: propext, Classical.choice, Quot.sound
PyV.Props.C151_result: propext, Classical.choice, Quot.sound
PyV.Props.C152_asset_order: propext, Classical.choice, Quot.sound
PyV.Props.C153_scenario_order: propext, Classical.choice, Quot.sound
PyV.Props.C153_ewma_ordered: propext, Classical.choice, Quot.sound
PyV.Props.C154_translation: propext, Classical.choice, Quot.sound
PyV.Props.C154_oas_default: propext, Classical.choice, Quot.sound
PyV.Props.C155_units_partial: propext, Classical.choice, Quot.sound
PyV.Props.C155_counterexample: propext, Classical.choice, Quot.sound
PyV.Props.C156_rejects: propext, Classical.choice, Quot.sound
PyV.Props.C156_accepts: propext, Classical.choice, Quot.sound
PyV.Props.C156_accepts_skew: propext, Classical.choice, Quot.sound
PyV.Props.C156_skew: propext, Classical.choice, Quot.sound
PyV.Props.C157_source: propext, Classical.choice, Quot.sound
PyV.Props.C157_no_views: propext, Classical.choice, Quot.sound
PyV.Props.C158_variance_overlay: propext, Classical.choice, Quot.sound
PyV.Props.C158_variance_log: propext, Classical.choice, Quot.sound
PyV.Props.C158_cvar_overlay: propext, Classical.choice, Quot.sound
PyV.Props.C158_robust_columns: propext, Classical.choice, Quot.sound
PyV.Props.C158_robust_overlay: propext, Classical.choice, Quot.sound
PyV.Props.C158_robust_source: propext, Classical.choice, Quot.sound
PyV.Props.C158_counterexample: propext, Classical.choice, Quot.sound
PyV.Props.C158_relaxed_overlay: propext, Classical.choice, Quot.sound
PyV.Props.C159_percentages_partial: propext, Classical.choice, Quot.sound
PyV.Props.C159_counterexample: propext, Classical.choice, Quot.sound
PyV.Props.C159_clipped_partial: propext, Classical.choice, Quot.sound
PyV.Props.C159_counterexample_clipped: propext, Classical.choice, Quot.sound
PyV.Props.C160_missing_moments: propext, Classical.choice, Quot.sound
PyV.Props.C160_missing_scenarios: propext, Classical.choice, Quot.sound
PyV.Props.C161_simulated: propext, Classical.choice, Quot.sound
PyV.Props.C161_in_force: propext, Classical.choice, Quot.sound
PyV.Props.C162_one_shot: propext, Classical.choice, Quot.sound
PyV.Props.C162_defaults: propext, Classical.choice, Quot.sound
PyV.Props.C162_no_views: propext, Classical.choice, Quot.sound
PyV.Props.C162_needs_confidences: propext, Classical.choice, Quot.sound
PyV.Props.C163_counterexample: propext, Classical.choice, Quot.sound
PyV.Props.C163_keys_partial: propext, Classical.choice, Quot.sound
PyV.Props.C164_moments: propext, Classical.choice, Quot.sound
PyV.Props.C164_variance: propext, Classical.choice, Quot.sound
PyV.Props.C164_optimum: propext, Classical.choice, Quot.sound
PyV.Props.C165_column: propext, Classical.choice, Quot.sound
PyV.Props.C165_prices_to_shares: propext, Classical.choice, Quot.sound
PyV.Props.C166_labels: propext, Classical.choice, Quot.sound
PyV.Props.C166_rows: propext, Classical.choice, Quot.sound
PyV.Props.C166_assets: propext, Classical.choice, Quot.sound
PyV.Props.C167_accepts_iff: propext, Classical.choice, Quot.sound
PyV.Props.C167_counterexample: propext, Classical.choice, Quot.sound
PyV.Props.C167_rejects_partial: propext, Classical.choice, Quot.sound
PyV.Props.C168_solver_independent: propext, Classical.choice, Quot.sound
PyV.Props.C168_min_variance: propext, Classical.choice, Quot.sound
PyV.Props.C169_asset_order: propext, Classical.choice, Quot.sound
PyV.Props.C170_no_fallback: propext, Classical.choice, Quot.sound
PyV.Props.C170_cap_hands_over: propext, Classical.choice, Quot.sound
PyV.Props.C171_draws: propext, Classical.choice, Quot.sound
PyV.Props.C171_selectors: propext, Classical.choice, Quot.sound
PyV.Props.C171_succeeds: propext, Classical.choice, Quot.sound
PyV.Props.C171_errors: propext, Classical.choice, Quot.sound
PyV.Props.C172_grid_partial: propext, Classical.choice, Quot.sound
PyV.Props.C172_counterexample: propext, Classical.choice, Quot.sound
PyV.Props.C173_report_partial: propext, Classical.choice, Quot.sound
PyV.Props.C173_succeeds_partial: propext, Classical.choice, Quot.sound
PyV.Props.C173_errors: propext, Classical.choice, Quot.sound
PyV.Props.C173_counterexample: propext, Classical.choice, Quot.sound
PyV.Props.C173_given_weights: propext, Classical.choice, Quot.sound
PyV.Props.C174_top_n: propext, Quot.sound
PyV.Props.C175_param_impact: propext, Classical.choice, Quot.sound
PyV.Props.C175_errors: propext, Quot.sound
PyV.Props.C175_surface: propext, Classical.choice, Quot.sound
PyV.Props.C176_axes_partial: propext, Classical.choice, Quot.sound
PyV.Props.C176_shares_partial: propext, Classical.choice, Quot.sound
PyV.Props.C176_scenarios: propext, Classical.choice, Quot.sound
PyV.Props.C176_counterexample: propext, Classical.choice, Quot.sound
PyV.Props.C177_mesh: propext, Classical.choice, Quot.sound
PyV.Props.C177_symmetric_part: propext, Classical.choice, Quot.sound
PyV.Props.C177_closed: propext, Classical.choice, Quot.sound
PyV.Props.C177_extent: propext, Classical.choice, Quot.sound
PyV.Props.C178_thinned: propext, Classical.choice, Quot.sound
PyV.Props.C179_min_cvar: propext, Classical.choice, Quot.sound
PyV.Props.C179_frontier_partial: propext, Classical.choice, Quot.sound
PyV.Props.C179_counterexample: propext, Classical.choice, Quot.sound
PyV.Props.C179_returns_partial: propext, Classical.choice, Quot.sound
PyV.Props.C180_variance: propext, Classical.choice, Quot.sound
PyV.Props.C180_cvar: propext, Classical.choice, Quot.sound
PyV.Props.C181_variance: propext, Classical.choice, Quot.sound
PyV.Props.C181_cvar: propext, Classical.choice, Quot.sound
PyV.Props.C182_min_variance: propext, Classical.choice, Quot.sound
PyV.Props.C182_frontier_partial: propext, Classical.choice, Quot.sound
PyV.Props.C182_counterexample: propext, Classical.choice, Quot.sound
PyV.Props.C183_lots_are_shares: propext, Classical.choice, Quot.sound
PyV.Props.C184_relative_weights: propext, Classical.choice, Quot.sound
PyV.Props.C185_currency_partial: propext, Classical.choice, Quot.sound
PyV.Props.C185_counterexample: propext, Classical.choice, Quot.sound
PyV.Props.C186_order: propext, Classical.choice, Quot.sound
PyV.Props.C187_greedy: propext, Classical.choice, Quot.sound
PyV.Props.C187_milp: propext, Classical.choice, Quot.sound
PyV.Props.C187_round_trip: propext, Classical.choice, Quot.sound
PyV.Props.C188_satisfied_views_partial: propext, Classical.choice, Quot.sound
PyV.Props.C188_counterexample: propext, Classical.choice, Quot.sound
PyV.Props.C189_view_order_partial: propext, Classical.choice, Quot.sound
PyV.Props.C189_counterexample: propext, Classical.choice, Quot.sound
PyV.Props.C190_scenario_order: propext, Classical.choice, Quot.sound
PyV.Props.C191_asset_order: propext, Classical.choice, Quot.sound
PyV.Props.C192_variance_one: propext, Classical.choice, Quot.sound
PyV.Props.C192_variance_many: propext, Classical.choice, Quot.sound
PyV.Props.C192_volatility: propext, Classical.choice, Quot.sound
PyV.Props.C192_coherent: propext, Classical.choice, Quot.sound
PyV.Props.C192_scenarios: propext, Classical.choice, Quot.sound
PyV.Props.C192_shapes_partial: propext, Classical.choice, Quot.sound
PyV.Props.C192_counterexample: propext, Classical.choice, Quot.sound
PyV.Props.C193_columns: propext, Classical.choice, Quot.sound
PyV.Props.C193_meaning: propext, Classical.choice, Quot.sound
PyV.Props.C193_rejects_partial: propext, Classical.choice, Quot.sound
PyV.Props.C193_counterexample: propext, Classical.choice, Quot.sound
PyV.Props.C194_agreeing_views: propext, Classical.choice, Quot.sound
PyV.Props.C194_targets: propext, Classical.choice, Quot.sound
PyV.Props.C194_halfway: propext, Classical.choice, Quot.sound
PyV.Props.C195_view_order: propext, Classical.choice, Quot.sound
PyV.Props.C196_asset_order: propext, Classical.choice, Quot.sound
PyV.Props.C197_units: propext, Classical.choice, Quot.sound
PyV.Props.C198_variance: propext, Classical.choice, Quot.sound
PyV.Props.C198_cvar: propext, Classical.choice, Quot.sound
PyV.Props.C199_risk: propext, Classical.choice, Quot.sound
PyV.Props.C199_moments: propext, Classical.choice, Quot.sound
PyV.Props.C199_min_cvar: propext, Classical.choice, Quot.sound
PyV.Props.C199_frontier: propext, Classical.choice, Quot.sound
PyV.Props.C200_constructor: propext, Classical.choice, Quot.sound
PyV.Props.C201_report: propext, Classical.choice, Quot.sound
PyV.Props.C201_selection: propext, Classical.choice, Quot.sound
PyV.Props.C201_custom: propext, Classical.choice, Quot.sound
PyV.Props.C201_wrong_length: propext, Quot.sound
PyV.Props.C201_average: propext, Classical.choice, Quot.sound
PyV.Props.C202_measures: propext, Quot.sound
PyV.Props.C203_rows_partial: propext, Classical.choice, Quot.sound
PyV.Props.C203_both: propext, Classical.choice, Quot.sound
PyV.Props.C203_roles: propext, Classical.choice, Quot.sound
PyV.Props.C203_counterexample: propext, Classical.choice, Quot.sound
PyV.Props.C203_moments: propext, Classical.choice, Quot.sound
PyV.Props.C203_held: propext, Classical.choice, Quot.sound
PyV.Props.C203_mean_variance: propext, Classical.choice, Quot.sound
PyV.Props.C204_array_partial: propext, Classical.choice, Quot.sound
PyV.Props.C204_transposed: propext, Classical.choice, Quot.sound
PyV.Props.C204_counterexample: propext, Classical.choice, Quot.sound
PyV.Props.C205_same_law_partial: propext, Classical.choice, Quot.sound
PyV.Props.C205_copies_partial: propext, Classical.choice, Quot.sound
PyV.Props.C205_counterexample: propext, Classical.choice, Quot.sound
PyV.Props.C206_towards_truth: propext, Classical.choice, Quot.sound
PyV.Props.C207_stronger_views: propext, Classical.choice, Quot.sound
PyV.Props.C208_instalments: propext, Classical.choice, Quot.sound
PyV.Props.C209_min_variance: propext, Classical.choice, Quot.sound
PyV.Props.C209_min_cvar: propext, Classical.choice, Quot.sound
PyV.Props.C210_min_variance: propext, Classical.choice, Quot.sound
PyV.Props.C210_min_cvar: propext, Classical.choice, Quot.sound
PyV.Props.C211_reads: propext, Classical.choice, Quot.sound
PyV.Props.C211_unchanged_partial: propext, Classical.choice, Quot.sound
PyV.Props.C211_own_fields: propext, Classical.choice, Quot.sound
PyV.Props.C211_by_contents: propext, Classical.choice, Quot.sound
PyV.Props.C211_counterexample: propext, Classical.choice, Quot.sound
PyV.Props.C212_unchanged_partial: propext, Classical.choice, Quot.sound
PyV.Props.C212_counterexample: propext, Classical.choice, Quot.sound
PyV.Props.C213_variance: propext, Classical.choice, Quot.sound
PyV.Props.C213_cvar: propext, Classical.choice, Quot.sound
PyV.Props.C214_deeper_tails: propext, Classical.choice, Quot.sound
PyV.Props.C215_min_variance: propext, Classical.choice, Quot.sound
PyV.Props.C215_min_cvar: propext, Classical.choice, Quot.sound
PyV.Props.C215_frontier_partial: propext, Classical.choice, Quot.sound
PyV.Props.C215_counterexample: propext, Classical.choice, Quot.sound
PyV.Props.C216_min_variance: propext, Classical.choice, Quot.sound
PyV.Props.C216_min_cvar: propext, Classical.choice, Quot.sound
PyV.Props.C216_accepted: propext, Classical.choice, Quot.sound
PyV.Props.C217_min_variance: propext, Classical.choice, Quot.sound
PyV.Props.C217_min_cvar: propext, Classical.choice, Quot.sound
PyV.Props.C217_default: propext, Classical.choice, Quot.sound
PyV.Props.C218_variance: propext, Classical.choice, Quot.sound
PyV.Props.C218_cvar: propext, Classical.choice, Quot.sound
PyV.Props.C219_never_worse_partial: propext, Classical.choice, Quot.sound
PyV.Props.C219_units: propext, Classical.choice, Quot.sound
PyV.Props.C219_counterexample: propext, Classical.choice, Quot.sound
PyV.Props.C220_large_amounts: propext, Classical.choice, Quot.sound
PyV.Props.C221_no_views: propext, Classical.choice, Quot.sound
PyV.Props.C221_views: propext, Classical.choice, Quot.sound
PyV.Props.C221_seeds: propext, Classical.choice, Quot.sound
PyV.Props.C222_next_seed_partial: propext, Classical.choice, Quot.sound
PyV.Props.C222_counterexample: propext, Classical.choice, Quot.sound
PyV.Props.C223_accepts_partial: propext, Classical.choice, Quot.sound
PyV.Props.C223_counterexample: propext, Classical.choice, Quot.sound
PyV.Props.C224_selected: propext, Classical.choice, Quot.sound
PyV.Props.C224_frontier: propext, Classical.choice, Quot.sound
PyV.Props.C225_average_partial: propext, Classical.choice, Quot.sound
PyV.Props.C225_leave_one_out_partial: propext, Classical.choice, Quot.sound
PyV.Props.C225_counterexample: propext, Classical.choice, Quot.sound
PyV.Props.C226_diagonal_partial: propext, Classical.choice, Quot.sound
PyV.Props.C226_counterexample: propext, Classical.choice, Quot.sound
PyV.Props.C227_portfolios_partial: propext, Classical.choice, Quot.sound
PyV.Props.C227_units_and_order: propext, Classical.choice, Quot.sound
PyV.Props.C227_counterexample: propext, Classical.choice, Quot.sound
PyV.Props.C228_other_assets: propext, Classical.choice, Quot.sound
PyV.Props.C229_other_assets: propext, Classical.choice, Quot.sound
PyV.Props.C230_units_partial: propext, Classical.choice, Quot.sound
PyV.Props.C230_counterexample: propext, Classical.choice, Quot.sound
PyV.Props.C231_portfolios: propext, Classical.choice, Quot.sound
PyV.Props.C231_other_assets: propext, Classical.choice, Quot.sound
PyV.Props.C232_finer_lots: propext, Classical.choice, Quot.sound
PyV.Props.C233_min_variance: propext, Classical.choice, Quot.sound
PyV.Props.C233_min_cvar: propext, Classical.choice, Quot.sound
PyV.Props.C233_frontier: propext, Classical.choice, Quot.sound
PyV.Props.C233_zero_bounds: propext, Classical.choice, Quot.sound
PyV.Props.C233_cvar_frontier: propext, Classical.choice, Quot.sound
PyV.Props.C234_from_prices: propext, Classical.choice, Quot.sound
PyV.Props.C234_returns: propext, Classical.choice, Quot.sound
PyV.Props.C235_no_look_ahead: propext, Classical.choice, Quot.sound
PyV.Props.C236_half_life: propext, Classical.choice, Quot.sound
PyV.Props.C236_bandwidth: propext, Classical.choice, Quot.sound
PyV.Props.C236_equal: propext, Classical.choice, Quot.sound
PyV.Props.C237_own_risk_as_cap: propext, Classical.choice, Quot.sound
PyV.Props.C237_loose_cap: propext, Classical.choice, Quot.sound
PyV.Props.C238_data_wins: propext, Classical.choice, Quot.sound
PyV.Props.C238_prior_wins: propext, Classical.choice, Quot.sound
PyV.Props.C238_regions: propext, Classical.choice, Quot.sound
PyV.Props.C239_constraints: propext, Classical.choice, Quot.sound
PyV.Props.C239_min_variance: propext, Classical.choice, Quot.sound
PyV.Props.C239_min_cvar: propext, Classical.choice, Quot.sound
PyV.Props.C239_cvar_frontier: propext, Classical.choice, Quot.sound
PyV.Props.C240_cash_cap: propext, Classical.choice, Quot.sound
PyV.Props.C240_best_within_cap: propext, Classical.choice, Quot.sound
PyV.Props.C240_looser_cap: propext, Classical.choice, Quot.sound
PyV.Props.C241_milp: propext, Classical.choice, Quot.sound
PyV.Props.C241_greedy_partial: propext, Classical.choice, Quot.sound
PyV.Props.C241_counterexample: propext, Classical.choice, Quot.sound
PyV.Props.C242_diagonal_partial: propext, Classical.choice, Quot.sound
PyV.Props.C242_counterexample: propext, Classical.choice, Quot.sound
PyV.Props.C243_optimiser: propext, Classical.choice, Quot.sound
PyV.Props.C243_wrapper: propext, Classical.choice, Quot.sound
PyV.Props.C244_robust: propext, Classical.choice, Quot.sound
PyV.Props.C245_units_partial: propext, Classical.choice, Quot.sound
PyV.Props.C245_counterexample: propext, Classical.choice, Quot.sound
PyV.Props.C246_target: propext, Classical.choice, Quot.sound
PyV.Props.C246_penalty: propext, Classical.choice, Quot.sound
PyV.Props.C246_convex: propext, Classical.choice, Quot.sound
PyV.Props.C247_tangency: propext, Classical.choice, Quot.sound
PyV.Props.C247_at_risk: propext, Classical.choice, Quot.sound
PyV.Props.C247_at_return: propext, Classical.choice, Quot.sound
PyV.Props.C247_closest_risk: propext, Classical.choice, Quot.sound
PyV.Props.C247_percentile: propext, Classical.choice, Quot.sound
PyV.Props.C248_firmer_partial: propext, Classical.choice, Quot.sound
PyV.Props.C248_counterexample: propext, Classical.choice, Quot.sound
PyV.Props.C249_certain: propext, Classical.choice, Quot.sound
PyV.Props.C249_vague: propext, Classical.choice, Quot.sound
PyV.Props.C250_robust: propext, Classical.choice, Quot.sound
PyV.Props.C250_min_variance: propext, Classical.choice, Quot.sound
PyV.Props.C250_min_cvar: propext, Classical.choice, Quot.sound
PyV.Props.C250_frontier_partial: propext, Classical.choice, Quot.sound
PyV.Props.C250_counterexample: propext, Classical.choice, Quot.sound
PyV.Props.C251_min_risk: propext, Classical.choice, Quot.sound
PyV.Props.C252_scale_partial: propext, Classical.choice, Quot.sound
PyV.Props.C252_default_partial: propext, Classical.choice, Quot.sound
PyV.Props.C252_counterexample: propext, Classical.choice, Quot.sound
PyV.Props.C253_containers: propext, Classical.choice, Quot.sound
PyV.Props.C253_posterior: propext, Classical.choice, Quot.sound
PyV.Props.C253_by_label_partial: propext, Classical.choice, Quot.sound
PyV.Props.C253_counterexample: propext, Classical.choice, Quot.sound
PyV.Props.C254_ignored: propext, Classical.choice, Quot.sound
PyV.Props.C255_units: propext, Classical.choice, Quot.sound
PyV.Props.C255_order: propext, Classical.choice, Quot.sound
PyV.Props.C255_stress: propext, Classical.choice, Quot.sound
PyV.Props.C256_level: propext, Classical.choice, Quot.sound
PyV.Props.C256_bundle: propext, Classical.choice, Quot.sound
PyV.Props.C257_variance: propext, Classical.choice, Quot.sound
PyV.Props.C257_cvar: propext, Classical.choice, Quot.sound
PyV.Props.C258_threshold: propext, Classical.choice, Quot.sound
PyV.Props.C258_huber: propext, Classical.choice, Quot.sound
PyV.Props.C258_estimate: propext, Classical.choice, Quot.sound
PyV.Props.C259_huber: propext, Classical.choice, Quot.sound
PyV.Props.C259_median_of_means: propext, Classical.choice, Quot.sound
PyV.Props.C260_unlimited: propext, Classical.choice, Quot.sound
PyV.Props.C261_two_funds: propext, Classical.choice, Quot.sound
PyV.Props.C262_certificate: propext, Classical.choice, Quot.sound
PyV.Props.C262_covariance: propext, Classical.choice, Quot.sound
PyV.Props.C263_cvar: propext, Classical.choice, Quot.sound
PyV.Props.C263_hhi: propext, Classical.choice, Quot.sound
PyV.Props.C263_entropy: propext, Classical.choice, Quot.sound
PyV.Props.C263_moments: propext, Classical.choice, Quot.sound
PyV.Props.C264_rounding: propext, Classical.choice, Quot.sound
PyV.Props.C265_moment_bounds: propext, Classical.choice, Quot.sound
PyV.Props.C265_methods: propext, Classical.choice, Quot.sound
PyV.Props.C266_fixed_point: propext, Classical.choice, Quot.sound
PyV.Props.C266_floor: propext, Classical.choice, Quot.sound
PyV.Props.C266_positive_definite: propext, Classical.choice, Quot.sound
PyV.Props.C266_full_shrinkage: propext, Classical.choice, Quot.sound
PyV.Props.C267_compounding: propext, Classical.choice, Quot.sound
PyV.Props.C267_whole_periods: propext, Classical.choice, Quot.sound
PyV.Props.C267_horizons: propext, Classical.choice, Quot.sound
PyV.Props.C267_wrapper: propext, Classical.choice, Quot.sound
PyV.Props.C268_instalments_partial: propext, Classical.choice, Quot.sound
PyV.Props.C268_counterexample: propext, Classical.choice, Quot.sound
PyV.Props.C269_rebuild_partial: propext, Classical.choice, Quot.sound
PyV.Props.C269_rebuild_iff: propext, Classical.choice, Quot.sound
PyV.Props.C269_same_result_partial: propext, Classical.choice, Quot.sound
PyV.Props.C269_counterexample: propext, Classical.choice, Quot.sound
PyV.Props.C270_best_return: propext, Classical.choice, Quot.sound
PyV.Props.C271_risk: propext, Classical.choice, Quot.sound
PyV.Props.C271_idempotent: propext, Classical.choice, Quot.sound
PyV.Props.C271_symmetric_part: propext, Classical.choice, Quot.sound
PyV.Props.C272_alike: propext, Classical.choice, Quot.sound
PyV.Props.C272_equal_weights: propext, Classical.choice, Quot.sound
PyV.Props.C273_robust_frontier: propext, Classical.choice, Quot.sound
PyV.Props.C273_robust_gamma: propext, Classical.choice, Quot.sound
PyV.Props.C273_not_at_target: propext, Classical.choice, Quot.sound
PyV.Props.C274_riskier: propext, Classical.choice, Quot.sound
PyV.Props.C275_scenarios: propext, Classical.choice, Quot.sound
PyV.Props.C275_probabilities: propext, Classical.choice, Quot.sound
PyV.Props.C275_var_jumps: propext, Classical.choice, Quot.sound
PyV.Props.C276_covariance_error: propext, Classical.choice, Quot.sound
PyV.Props.C276_mean_error: propext, Classical.choice, Quot.sound
PyV.Props.C277_scenario_error: propext, Classical.choice, Quot.sound
PyV.Props.C278_worst_case: propext, Classical.choice, Quot.sound
PyV.Props.C278_stress: propext, Classical.choice, Quot.sound
PyV.Props.C279_moved: propext, Classical.choice, Quot.sound
PyV.Props.C279_pinsker: propext, Classical.choice, Quot.sound
PyV.Props.C279_stress: propext, Classical.choice, Quot.sound
PyV.Props.C280_min_cvar: propext, Classical.choice, Quot.sound
PyV.Props.C280_frontier: propext, Classical.choice, Quot.sound
PyV.Props.C281_diagonal_partial: propext, Classical.choice, Quot.sound
PyV.Props.C281_actual: propext, Classical.choice, Quot.sound
PyV.Props.C281_counterexample: propext, Classical.choice, Quot.sound
PyV.Props.C282_longer: propext, Classical.choice, Quot.sound
PyV.Props.C282_level: propext, Classical.choice, Quot.sound
PyV.Props.C283_min_cvar: propext, Classical.choice, Quot.sound
PyV.Props.C283_default: propext, Classical.choice, Quot.sound
PyV.Props.C284_penalty: propext, Classical.choice, Quot.sound
PyV.Props.C285_merge: propext, Classical.choice, Quot.sound
PyV.Props.C285_product: propext, Classical.choice, Quot.sound
PyV.Props.C285_blend: propext, Classical.choice, Quot.sound
PyV.Props.C286_pooled: propext, Classical.choice, Quot.sound
PyV.Props.C286_exp_decay: propext, Classical.choice, Quot.sound
PyV.Props.C286_new_observation: propext, Classical.choice, Quot.sound
PyV.Props.C286_ewma: propext, Classical.choice, Quot.sound
PyV.Props.C287_posterior: propext, Classical.choice, Quot.sound
PyV.Props.C287_round_trip: propext, Classical.choice, Quot.sound
PyV.Props.C288_tilts: propext, Classical.choice, Quot.sound
PyV.Props.C288_untouched: propext, Classical.choice, Quot.sound
PyV.Props.C288_unique: propext, Classical.choice, Quot.sound
PyV.Props.C289_impact: propext, Classical.choice, Quot.sound
PyV.Props.C289_proportional: propext, Classical.choice, Quot.sound
PyV.Props.C290_history: propext, Classical.choice, Quot.sound
PyV.Props.C290_stays: propext, Classical.choice, Quot.sound
PyV.Props.C290_announces: propext, Classical.choice, Quot.sound
PyV.Props.C290_root: propext, Classical.choice, Quot.sound
PyV.Props.C291_min_variance: propext, Classical.choice, Quot.sound
PyV.Props.C291_min_cvar: propext, Classical.choice, Quot.sound
PyV.Props.C291_min_cvar_risk: propext, Classical.choice, Quot.sound
PyV.Props.C291_admissible: propext, Classical.choice, Quot.sound
PyV.Props.C292_exceptions: propext, Classical.choice, Quot.sound
PyV.Props.C292_determined: propext, Classical.choice, Quot.sound
PyV.Props.C293_answers_iff_bounded: propext, Classical.choice, Quot.sound
PyV.Props.C293_bounded_return: propext, Classical.choice, Quot.sound
PyV.Props.C293_money_machine: propext, Classical.choice, Quot.sound
PyV.Props.C294_market_line: propext, Classical.choice, Quot.sound
PyV.Props.C294_every_target: propext, Classical.choice, Quot.sound
PyV.Props.C294_all_cash: propext, Classical.choice, Quot.sound
PyV.Props.C295_discrete_input: propext, Quot.sound
PyV.Props.C295_normalize_weights: propext, Quot.sound
PyV.Props.C295_average_exposures: propext, Classical.choice, Quot.sound
PyV.Props.C295_probabilities: propext, Quot.sound
PyV.Props.C295_portfolio_var: propext, Classical.choice, Quot.sound
PyV.Props.C295_frontier: propext, Classical.choice, Quot.sound
PyV.Props.C295_scenario_probabilities: propext, Classical.choice, Quot.sound
PyV.Props.C295_optimiser_key: propext, Classical.choice, Quot.sound
PyV.Props.C295_trading_costs: propext, Classical.choice, Quot.sound
PyV.Props.C295_sample_moments: propext, Classical.choice, Quot.sound
PyV.Props.C295_ledoit_wolf: propext, Classical.choice, Quot.sound
PyV.Props.C295_poet_threshold: propext, Classical.choice, Quot.sound
PyV.Props.C295_simple_to_log: propext, Classical.choice, Quot.sound
PyV.Props.C295_exp_decay: propext, Classical.choice, Quot.sound
PyV.Props.C295_niw: propext, Classical.choice, Quot.sound
PyV.Props.C295_niw_update: propext, Classical.choice, Quot.sound
PyV.Props.C295_sigma1: propext, Classical.choice, Quot.sound
PyV.Props.C295_labelled_averages: propext, Quot.sound
PyV.Props.C295_view_value: propext, Classical.choice, Quot.sound
PyV.Props.C295_column: propext, Classical.choice, Quot.sound
PyV.Props.C295_sampling: propext, Classical.choice, Quot.sound
PyV.Props.C295_square: propext, Classical.choice, Quot.sound
PyV.Props.C296_frontier_iff: propext, Classical.choice, Quot.sound
PyV.Props.C297_cvar_frontier_iff: propext, Classical.choice, Quot.sound
PyV.Props.C298_var_many: propext, Classical.choice, Quot.sound
PyV.Props.C298_max_drawdown: propext, Quot.sound
PyV.Props.C298_average_selected: propext, Quot.sound
PyV.Props.C298_discrete_column: propext, Classical.choice, Quot.sound
PyV.Props.C298_compose_repricers: propext, Classical.choice, Quot.sound
PyV.Props.C298_plot_missing: propext, Quot.sound
PyV.Props.C298_plot_grid_empty: propext, Quot.sound
PyV.Props.C298_stress_test: propext, Classical.choice, Quot.sound
PyV.Props.C298_linear_map: propext, Classical.choice, Quot.sound
PyV.Props.C298_view_value: propext, Classical.choice, Quot.sound
PyV.Props.C298_view_asset: propext, Classical.choice, Quot.sound
PyV.Props.C298_prior_missing: propext, Classical.choice, Quot.sound
PyV.Props.C298_risk_aversion: propext, Classical.choice, Quot.sound
PyV.Props.C298_date_column: propext, Classical.choice, Quot.sound
PyV.Props.C298_wrap: propext, Classical.choice, Quot.sound
PyV.Props.C298_square: propext, Classical.choice, Quot.sound
PyV.Props.C298_scenario_inputs: propext, Classical.choice, Quot.sound
PyV.Props.C298_cost_lengths: propext, Classical.choice, Quot.sound
PyV.Props.C298_no_penalties: propext, Classical.choice, Quot.sound
PyV.Props.C298_relaxed_risk_parity: propext, Classical.choice, Quot.sound
PyV.Props.C298_graphical_lasso: propext, Classical.choice, Quot.sound
PyV.Props.C299_entropy_pooling: propext, Classical.choice, Quot.sound
PyV.Props.C299_simulated_prior: propext, Classical.choice, Quot.sound
PyV.Props.C299_stressed_dictionary: propext, Classical.choice, Quot.sound
