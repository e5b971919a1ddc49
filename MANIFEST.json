{
 "claims": [
  {
   "property": "C01",
   "status": "proved",
   "theorems": [
    "PyV.Props.C01_greedy_terminates",
    "PyV.Props.C01_greedy_returns"
   ],
   "note": ""
  },
  {
   "property": "C02",
   "status": "proved",
   "theorems": [
    "PyV.Props.C02_greedy_within_budget",
    "PyV.Props.C02_greedy_never_raises"
   ],
   "note": ""
  },
  {
   "property": "C03",
   "status": "proved",
   "theorems": [
    "PyV.Props.C03_cash_conserved"
   ],
   "note": ""
  },
  {
   "property": "C04",
   "status": "proved",
   "theorems": [
    "PyV.Props.C04_whole_lots"
   ],
   "note": ""
  },
  {
   "property": "C05",
   "status": "proved",
   "theorems": [
    "PyV.Props.C05_within_one_lot"
   ],
   "note": ""
  },
  {
   "property": "C06",
   "status": "proved",
   "theorems": [
    "PyV.Props.C06_no_affordable_underweight"
   ],
   "note": ""
  },
  {
   "property": "C07",
   "status": "proved",
   "theorems": [
    "PyV.Props.C07_normalised",
    "PyV.Props.C07_validation_iff"
   ],
   "note": ""
  },
  {
   "property": "C08",
   "status": "proved",
   "theorems": [
    "PyV.Props.C08_milp_optimal",
    "PyV.Props.C08_optimum_exists"
   ],
   "note": "exact MILP solver as hypothesis (MipOptimal); C08_optimum_exists shows it is attained"
  },
  {
   "property": "C09",
   "status": "partial",
   "theorems": [
    "PyV.Props.C09_milp_long_short_partial",
    "PyV.Props.C09_leverage_infeasible",
    "PyV.Props.C09_long_leg_capped"
   ],
   "note": "false of the code for legs above 100%: C09_leverage_infeasible is the counterexample, C09_long_leg_capped its extent; proved for weights of size at most 100%"
  },
  {
   "property": "C10",
   "status": "proved",
   "theorems": [
    "PyV.Props.C10_matrices_mean_spec",
    "PyV.Props.C10_default_is_simplex"
   ],
   "note": ""
  },
  {
   "property": "C11",
   "status": "proved",
   "theorems": [
    "PyV.Props.C11_rejects_iff_invalid"
   ],
   "note": ""
  },
  {
   "property": "C12",
   "status": "proved",
   "theorems": [
    "PyV.Props.C12_cvar_is_ru_minimum",
    "PyV.Props.C12_defaults"
   ],
   "note": ""
  },
  {
   "property": "C13",
   "status": "proved",
   "theorems": [
    "PyV.Props.C13_var_cvar_bracket"
   ],
   "note": ""
  },
  {
   "property": "C14",
   "status": "proved",
   "theorems": [
    "PyV.Props.C14_homogeneous",
    "PyV.Props.C14_subadditive",
    "PyV.Props.C14_translation",
    "PyV.Props.C14_monotone",
    "PyV.Props.C14_confidence_mono",
    "PyV.Props.C14_demean"
   ],
   "note": ""
  },
  {
   "property": "C15",
   "status": "proved",
   "theorems": [
    "PyV.Props.C15_scenario_order"
   ],
   "note": ""
  },
  {
   "property": "C16",
   "status": "proved",
   "theorems": [
    "PyV.Props.C16_normalize_contract",
    "PyV.Props.C16_rejects_nonfinite",
    "PyV.Props.C16_resolve"
   ],
   "note": ""
  },
  {
   "property": "C17",
   "status": "proved",
   "theorems": [
    "PyV.Props.C17_exp_decay"
   ],
   "note": ""
  },
  {
   "property": "C18",
   "status": "proved",
   "theorems": [
    "PyV.Props.C18_gaussian_kernel",
    "PyV.Props.C18_defaults",
    "PyV.Props.C18_normal_ratio",
    "PyV.Props.C18_silverman",
    "PyV.Props.C18_little_data"
   ],
   "note": ""
  },
  {
   "property": "C19",
   "status": "proved",
   "theorems": [
    "PyV.Props.C19_entropy_bounds",
    "PyV.Props.C19_hhi_bounds"
   ],
   "note": ""
  },
  {
   "property": "C20",
   "status": "proved",
   "theorems": [
    "PyV.Props.C20_posterior_is_distribution",
    "PyV.Props.C20_failure_modes",
    "PyV.Props.C20_bad_input_rejected"
   ],
   "note": ""
  },
  {
   "property": "C21",
   "status": "proved",
   "theorems": [
    "PyV.Props.C21_kl_optimal",
    "PyV.Props.C21_kl_optimal_eq",
    "PyV.Props.C21_localMin_of_kkt"
   ],
   "note": ""
  },
  {
   "property": "C22",
   "status": "proved",
   "theorems": [
    "PyV.Props.C22_gradient_exact",
    "PyV.Props.C22_clipped_unbounded_below"
   ],
   "note": ""
  },
  {
   "property": "C23",
   "status": "proved",
   "theorems": [
    "PyV.Props.C23_mean_rows_iff",
    "PyV.Props.C23_mean_accepts_iff"
   ],
   "note": ""
  },
  {
   "property": "C24",
   "status": "proved",
   "theorems": [
    "PyV.Props.C24_vol_rows_iff",
    "PyV.Props.C24_var_rows_iff",
    "PyV.Props.C24_skew_rows_iff",
    "PyV.Props.C24_corr_rows_iff",
    "PyV.Props.C24_variance_gap"
   ],
   "note": ""
  },
  {
   "property": "C25",
   "status": "partial",
   "theorems": [
    "PyV.Props.C25_cvar_partial",
    "PyV.Props.C25_corr_distortion",
    "PyV.Props.C25_higher_partial",
    "PyV.Props.C25_sequential_last_partial",
    "PyV.Props.C25_simultaneous_partial",
    "PyV.Props.C25_quantile_partial",
    "PyV.Props.C25_sequential_partial",
    "PyV.Props.C25_counterexample"
   ],
   "note": "false of the code: C25_counterexample (quantile step drops the mean rows), C25_corr_distortion gives the exact miss of correlation views; proved: mean (and pinned vol/var) views in simultaneous mode, mean views in sequential mode with one block, quantile views without CVaR views, the CVaR view applied last (C25_cvar_partial), and every volatility, variance, skewness or correlation view whose linearisation moments the solve left alone, in both modes (C25_higher_partial, C25_sequential_last_partial)"
  },
  {
   "property": "C26",
   "status": "proved",
   "theorems": [
    "PyV.Props.C26_no_views_prior",
    "PyV.Props.C26_single_column_fails"
   ],
   "note": "for at least two columns; C26_single_column_fails shows one column is always rejected"
  },
  {
   "property": "C27",
   "status": "partial",
   "theorems": [
    "PyV.Props.C27_counterexample",
    "PyV.Props.C27_unchanged_partial"
   ],
   "note": "false of the code: C27_counterexample (rank_mean inserts into the caller's dictionary); proved: unchanged without rank_mean or when all pairs are present, and never loses or alters entries"
  },
  {
   "property": "C28",
   "status": "proved",
   "theorems": [
    "PyV.Props.C28_ranking",
    "PyV.Props.C28_processor"
   ],
   "note": "simultaneous mode, no quantile/CVaR views; entropy-pooling oracle assumed sound (EpSound, discharged per call by epOf_klPosterior)"
  },
  {
   "property": "C29",
   "status": "proved",
   "theorems": [
    "PyV.Props.C29_rows_pin_tail",
    "PyV.Props.C29_solver",
    "PyV.Props.C29_search",
    "PyV.Props.C29_accepts_iff"
   ],
   "note": ""
  },
  {
   "property": "C30",
   "status": "partial",
   "theorems": [
    "PyV.Props.C30_helpers",
    "PyV.Props.C30_between",
    "PyV.Props.C30_helper_targets_finite_partial",
    "PyV.Props.C30_raw_between_nan_accepted"
   ],
   "note": "helpers: proved; a raw ('between', nan, nan) tuple is accepted (C30_raw_between_nan_accepted), so 'every accepted value has finite targets' holds only for helper-built values"
  },
  {
   "property": "C31",
   "status": "proved",
   "theorems": [
    "PyV.Props.C31_normal_equations",
    "PyV.Props.C31_posterior_mode",
    "PyV.Props.C31_processor"
   ],
   "note": ""
  },
  {
   "property": "C32",
   "status": "proved",
   "theorems": [
    "PyV.Props.C32_covariance_bounds",
    "PyV.Props.C32_no_views"
   ],
   "note": ""
  },
  {
   "property": "C33",
   "status": "proved",
   "theorems": [
    "PyV.Props.C33_idzorek_tilt",
    "PyV.Props.C33_idzorek_asset"
   ],
   "note": ""
  },
  {
   "property": "C34",
   "status": "partial",
   "theorems": [
    "PyV.Props.C34_pick_matrix_partial",
    "PyV.Props.C34_counterexample"
   ],
   "note": "false of the code for a degenerate relative view (A, A): C34_counterexample; proved for absolute views and relative views on distinct assets"
  },
  {
   "property": "C35",
   "status": "proved",
   "theorems": [
    "PyV.Props.C35_sample_moments",
    "PyV.Props.C35_translation",
    "PyV.Props.C35_rejects"
   ],
   "note": ""
  },
  {
   "property": "C36",
   "status": "proved",
   "theorems": [
    "PyV.Props.C36_jorion",
    "PyV.Props.C36_jorion_between",
    "PyV.Props.C36_jorion_rejects"
   ],
   "note": ""
  },
  {
   "property": "C37",
   "status": "partial",
   "theorems": [
    "PyV.Props.C37_james_stein_partial",
    "PyV.Props.C37_intensity",
    "PyV.Props.C37_counterexample"
   ],
   "note": "false of the code for N=1 with a custom target (C37_counterexample: the estimate overshoots); proved for N>=2"
  },
  {
   "property": "C38",
   "status": "partial",
   "theorems": [
    "PyV.Props.C38_convex_combination_partial",
    "PyV.Props.C38_no_shrinkage",
    "PyV.Props.C38_single_asset_fails",
    "PyV.Props.C38_counterexample"
   ],
   "note": "convex combination with intensity in [0,1] proved; 'shrinks' is false of the code: C38_no_shrinkage / C38_counterexample (intensity 0), and C38_single_asset_fails (N=1 always raises)"
  },
  {
   "property": "C39",
   "status": "proved",
   "theorems": [
    "PyV.Props.C39_oas",
    "PyV.Props.C39_intensity",
    "PyV.Props.C39_oas_single"
   ],
   "note": ""
  },
  {
   "property": "C40",
   "status": "proved",
   "theorems": [
    "PyV.Props.C40_ewma",
    "PyV.Props.C40_ewma_succeeds",
    "PyV.Props.C40_span_zero",
    "PyV.Props.C40_small_span"
   ],
   "note": ""
  },
  {
   "property": "C41",
   "status": "partial",
   "theorems": [
    "PyV.Props.C41_trace_partial",
    "PyV.Props.C41_counterexample",
    "PyV.Props.C41_succeeds",
    "PyV.Props.C41_single_asset_fails"
   ],
   "note": "false of the code: C41_counterexample shows every successful call returns trace = sample trace / N; C41_trace_partial gives the exact trace"
  },
  {
   "property": "C42",
   "status": "proved",
   "theorems": [
    "PyV.Props.C42_variances_and_shrinkage",
    "PyV.Props.C42_zero_threshold",
    "PyV.Props.C42_after_guard",
    "PyV.Props.C42_succeeds",
    "PyV.Props.C42_rejects"
   ],
   "note": ""
  },
  {
   "property": "C43",
   "status": "proved",
   "theorems": [
    "PyV.Props.C43_huber_range",
    "PyV.Props.C43_median_of_means"
   ],
   "note": ""
  },
  {
   "property": "C44",
   "status": "proved",
   "theorems": [
    "PyV.Props.C44_partition",
    "PyV.Props.C44_one_block",
    "PyV.Props.C44_auto_blocks",
    "PyV.Props.C44_requested_blocks"
   ],
   "note": ""
  },
  {
   "property": "C45",
   "status": "proved",
   "theorems": [
    "PyV.Props.C45_guard_result",
    "PyV.Props.C45_guard_identity",
    "PyV.Props.C45_guard_repair",
    "PyV.Props.C45_tolerance_gap"
   ],
   "note": "with the code's tolerance; C45_tolerance_gap shows the tolerance is real: some slightly indefinite matrices are returned unchanged"
  },
  {
   "property": "C46",
   "status": "proved",
   "theorems": [
    "PyV.Props.C46_average",
    "PyV.Props.C46_linear",
    "PyV.Props.C46_equality",
    "PyV.Props.C46_between",
    "PyV.Props.C46_relabel",
    "PyV.Props.C46_negative_accepted"
   ],
   "note": "non-negative weights as in the statement; C46_negative_accepted shows the code does not enforce the documented non-negativity"
  },
  {
   "property": "C47",
   "status": "proved",
   "theorems": [
    "PyV.Props.C47_folds",
    "PyV.Props.C47_rejects"
   ],
   "note": ""
  },
  {
   "property": "C48",
   "status": "proved",
   "theorems": [
    "PyV.Props.C48_objective",
    "PyV.Props.C48_result",
    "PyV.Props.C48_optimum_exists"
   ],
   "note": "QP solver assumed sound (SolverSound); C48_optimum_exists shows an optimum always exists"
  },
  {
   "property": "C49",
   "status": "proved",
   "theorems": [
    "PyV.Props.C49_restored",
    "PyV.Props.C49_stacking",
    "PyV.Props.C49_in_effect",
    "PyV.Props.C49_quiet"
   ],
   "note": ""
  },
  {
   "property": "C50",
   "status": "partial",
   "theorems": [
    "PyV.Props.C50_counterexample",
    "PyV.Props.C50_default_partial"
   ],
   "note": "false of the code for one specification (C50_counterexample); proved for two or more"
  },
  {
   "property": "C51",
   "status": "partial",
   "theorems": [
    "PyV.Props.C51_reusable_partial",
    "PyV.Props.C51_counterexample"
   ],
   "note": "false of the code for min_risk with a risk label (C51_counterexample); proved for all other built-in selectors and any call history"
  },
  {
   "property": "C52",
   "status": "proved",
   "theorems": [
    "PyV.Props.C52_min_risk",
    "PyV.Props.C52_min_risk_errors",
    "PyV.Props.C52_max_return",
    "PyV.Props.C52_tangency",
    "PyV.Props.C52_tangency_error"
   ],
   "note": ""
  },
  {
   "property": "C53",
   "status": "proved",
   "theorems": [
    "PyV.Props.C53_at_risk",
    "PyV.Props.C53_at_return",
    "PyV.Props.C53_infeasible",
    "PyV.Props.C53_closest_risk"
   ],
   "note": ""
  },
  {
   "property": "C54",
   "status": "proved",
   "theorems": [
    "PyV.Props.C54_percentiles",
    "PyV.Props.C54_percentile_input",
    "PyV.Props.C54_nan_accepted",
    "PyV.Props.C54_at_percentile"
   ],
   "note": "C54_nan_accepted: a NaN percentile is not rejected and selects the first column"
  },
  {
   "property": "C55",
   "status": "partial",
   "theorems": [
    "PyV.Props.C55_envelope",
    "PyV.Props.C55_upper_partial",
    "PyV.Props.C55_counterexample_tie"
   ],
   "note": "monotone, convex, minorant of the running maximum proved; 'never above the running maximum' is false for tied top returns (C55_counterexample_tie), proved up to M*1e-12/g for returns at least g apart"
  },
  {
   "property": "C56",
   "status": "partial",
   "theorems": [
    "PyV.Props.C56_per_call",
    "PyV.Props.C56_constructor_partial",
    "PyV.Props.C56_shortcuts_partial",
    "PyV.Props.C56_counterexample"
   ],
   "note": "false for constraint specifications that produce no rows (C56_counterexample: replaced by the long-only default); proved for per-call constraints and for constructor constraints that exclude at least one vector"
  },
  {
   "property": "C57",
   "status": "proved",
   "theorems": [
    "PyV.Props.C57_scenarios_round_trip",
    "PyV.Props.C57_scenarios_round_trip",
    "PyV.Props.C57_log_simple_log",
    "PyV.Props.C57_simple_log_simple",
    "PyV.Props.C57_symmetric"
   ],
   "note": ""
  },
  {
   "property": "C58",
   "status": "proved",
   "theorems": [
    "PyV.Props.C58_project",
    "PyV.Props.C58_positive_rows",
    "PyV.Props.C58_paths",
    "PyV.Props.C58_agree",
    "PyV.Props.C58_paths_succeed"
   ],
   "note": ""
  },
  {
   "property": "C59",
   "status": "proved",
   "theorems": [
    "PyV.Props.C59_zero_move",
    "PyV.Props.C59_difference",
    "PyV.Props.C59_taylor",
    "PyV.Props.C59_compose",
    "PyV.Props.C59_compose_zero",
    "PyV.Props.C59_compose_accepts",
    "PyV.Props.C59_doc_example"
   ],
   "note": ""
  },
  {
   "property": "C60",
   "status": "partial",
   "theorems": [
    "PyV.Props.C60_fraction",
    "PyV.Props.C60_largest_loss",
    "PyV.Props.C60_zero_iff_partial",
    "PyV.Props.C60_counterexample",
    "PyV.Props.C60_summary",
    "PyV.Props.C60_report"
   ],
   "note": "proved for the dates of the simulated path; the starting wealth 1 is not one of them (C60_counterexample: an immediate loss is not a drawdown)"
  },
  {
   "property": "C61",
   "status": "partial",
   "theorems": [
    "PyV.Props.C61_align",
    "PyV.Props.C61_align_order",
    "PyV.Props.C61_stress_order",
    "PyV.Props.C61_stress_rejects",
    "PyV.Props.C61_report_order",
    "PyV.Props.C61_report_missing",
    "PyV.Props.C61_pnl_missing_nan",
    "PyV.Props.C61_extra_ignored"
   ],
   "note": "stress_test: proved (order invariance, rejection of missing and extra labels); false of scenario_pnl (C61_pnl_missing_nan) and of performance_report for extra labels (C61_extra_ignored); order invariance proved for all three"
  },
  {
   "property": "C62",
   "status": "partial",
   "theorems": [
    "PyV.Props.C62_is_kl",
    "PyV.Props.C62_nonneg_partial",
    "PyV.Props.C62_counterexample"
   ],
   "note": "false with entries below 1e-16 (C62_counterexample: negative value for different vectors); proved for every stressed vector when no nominal entry is below 1e-16; for arbitrary vectors C279_moved shows the reported number is at least -T * 1e-16"
  },
  {
   "property": "C63",
   "status": "proved",
   "theorems": [
    "PyV.Props.C63_conjugate",
    "PyV.Props.C63_update",
    "PyV.Props.C63_total",
    "PyV.Props.C63_fractional_t0"
   ],
   "note": "conjugacy proved against the normal-inverse-Wishart density; integer pseudo-counts as documented (C63_fractional_t0: 0 < t0 < 1 is accepted and then every update raises ZeroDivisionError)"
  },
  {
   "property": "C64",
   "status": "partial",
   "theorems": [
    "PyV.Props.C64_before",
    "PyV.Props.C64_after_partial",
    "PyV.Props.C64_getters_answer",
    "PyV.Props.C64_counterexample"
   ],
   "note": "false of the code when the caller writes to the array returned by get_mu_ce (C64_counterexample); proved for all histories of method calls"
  },
  {
   "property": "C65",
   "status": "proved",
   "theorems": [
    "PyV.Props.C65_retry_bounded",
    "PyV.Props.C65_factor_meaning",
    "PyV.Props.C65_shape"
   ],
   "note": ""
  },
  {
   "property": "C66",
   "status": "proved",
   "theorems": [
    "PyV.Props.C66_lp_value",
    "PyV.Props.C66_minimises_cvar",
    "PyV.Props.C66_total"
   ],
   "note": ""
  },
  {
   "property": "C67",
   "status": "partial",
   "theorems": [
    "PyV.Props.C67_right_iff_diagonal",
    "PyV.Props.C67_actual_objective",
    "PyV.Props.C67_diagonal_partial",
    "PyV.Props.C67_counterexample"
   ],
   "note": "false of the code for a non-diagonal uncertainty matrix: C67_right_iff_diagonal, C67_counterexample (the cone uses L where the doc needs its transpose); C67_actual_objective states what is optimised, proved for diagonal matrices"
  },
  {
   "property": "C68",
   "status": "partial",
   "theorems": [
    "PyV.Props.C68_bounds_always_fail",
    "PyV.Props.C68_counterexample",
    "PyV.Props.C68_max_sharpe_partial",
    "PyV.Props.C68_long_only_excess",
    "PyV.Props.C68_negative_excess_is_worst",
    "PyV.Props.C68_worst_counterexample"
   ],
   "note": "false of the code: C68_bounds_always_fail / C68_counterexample (right-hand sides are dropped), C68_negative_excess_is_worst (returns the worst Sharpe ratio when no excess return is positive); proved for homogeneous constraints and positive excess"
  },
  {
   "property": "C69",
   "status": "proved",
   "theorems": [
    "PyV.Props.C69_linear_turnover_value",
    "PyV.Props.C69_minimises_cvar_plus_turnover",
    "PyV.Props.C69_negative_cost_fails",
    "PyV.Props.C69_quadratic_turnover_value"
   ],
   "note": ""
  },
  {
   "property": "C70",
   "status": "proved",
   "theorems": [
    "PyV.Props.C70_feasible_iff",
    "PyV.Props.C70_clip"
   ],
   "note": ""
  },
  {
   "property": "C71",
   "status": "partial",
   "theorems": [
    "PyV.Props.C71_min_risk_partial",
    "PyV.Props.C71_counterexample_raw",
    "PyV.Props.C71_counterexample_mean"
   ],
   "note": "false of the code: C71_counterexample_raw (negative CVaRs are reported as absolute values, so the selector picks another column), C71_counterexample_mean (explicit mean orders the frontier differently from the optimised scenario mean); C71_min_risk_partial"
  },
  {
   "property": "C72",
   "status": "partial",
   "theorems": [
    "PyV.Props.C72_optimiser",
    "PyV.Props.C72_spec_partial",
    "PyV.Props.C72_default_partial",
    "PyV.Props.C72_unknown",
    "PyV.Props.C72_counterexample"
   ],
   "note": "optimiser dispatch and specifications of unconstrained simple-return wrappers proved; false of the code in general (C72_counterexample: make_ensemble_spec keeps only the distribution, dropping the wrapper's constraints; it also drops costs, return type and uncertainty matrix)"
  },
  {
   "property": "C73",
   "status": "partial",
   "theorems": [
    "PyV.Props.C73_own_frontier_partial",
    "PyV.Props.C73_counterexample"
   ],
   "note": "false of the code for repeated specification names (C73_counterexample); proved for distinct names"
  },
  {
   "property": "C74",
   "status": "proved",
   "theorems": [
    "PyV.Props.C74_contents",
    "PyV.Props.C74_accepts_iff",
    "PyV.Props.C74_value_error"
   ],
   "note": "array and labelled arguments; unique labels; argument types outside arrays/Series/DataFrames not modelled"
  },
  {
   "property": "C75",
   "status": "proved",
   "theorems": [
    "PyV.Props.C75_log2simple_psd",
    "PyV.Props.C75_scaled_psd"
   ],
   "note": ""
  },
  {
   "property": "C76",
   "status": "proved",
   "theorems": [
    "PyV.Props.C76_compounding"
   ],
   "note": ""
  },
  {
   "property": "C77",
   "status": "partial",
   "theorems": [
    "PyV.Props.C77_uniform_accepts",
    "PyV.Props.C77_accepts_partial",
    "PyV.Props.C77_accepts_iff",
    "PyV.Props.C77_counterexample",
    "PyV.Props.C77_negative_paths"
   ],
   "note": "false of the code: C77_counterexample (a positive vector whose sum is within 1e-5 but not 2^-26 of one is rejected by project_scenarios) and C77_negative_paths (simulate_paths accepts all-negative weights); proved for sums within 2^-26; the exact acceptance condition of both functions is C77_accepts_iff"
  },
  {
   "property": "C78",
   "status": "proved",
   "theorems": [
    "PyV.Props.C78_accepts"
   ],
   "note": ""
  },
  {
   "property": "C79",
   "status": "proved",
   "theorems": [
    "PyV.Props.C79_stress_nominal",
    "PyV.Props.C79_stress_stressed",
    "PyV.Props.C79_report",
    "PyV.Props.C79_consistent"
   ],
   "note": ""
  },
  {
   "property": "C80",
   "status": "proved",
   "theorems": [
    "PyV.Props.C80_affine_report",
    "PyV.Props.C80_linear_stress",
    "PyV.Props.C80_null_stress"
   ],
   "note": ""
  },
  {
   "property": "C81",
   "status": "partial",
   "theorems": [
    "PyV.Props.C81_no_views_partial",
    "PyV.Props.C81_in_order_partial",
    "PyV.Props.C81_counterexample"
   ],
   "note": "false of the code with stress views (C81_counterexample: weights read by position); proved without views, and with views when the weights are labelled in instrument order (C81_in_order_partial: labels are then never read)"
  },
  {
   "property": "C82",
   "status": "proved",
   "theorems": [
    "PyV.Props.C82_rows",
    "PyV.Props.C82_no_duplicate_rows"
   ],
   "note": ""
  },
  {
   "property": "C83",
   "status": "partial",
   "theorems": [
    "PyV.Props.C83_counterexample",
    "PyV.Props.C83_broadcast",
    "PyV.Props.C83_same_count_partial"
   ],
   "note": "false of the code when the number of instruments differs from the number of drivers (C83_counterexample, C83_broadcast); proved for equal numbers"
  },
  {
   "property": "C84",
   "status": "proved",
   "theorems": [
    "PyV.Props.C84_sequential"
   ],
   "note": ""
  },
  {
   "property": "C85",
   "status": "proved",
   "theorems": [
    "PyV.Props.C85_bundle"
   ],
   "note": ""
  },
  {
   "property": "C86",
   "status": "proved",
   "theorems": [
    "PyV.Props.C86_worst_mean"
   ],
   "note": ""
  },
  {
   "property": "C87",
   "status": "proved",
   "theorems": [
    "PyV.Props.C87_worst_variance"
   ],
   "note": ""
  },
  {
   "property": "C88",
   "status": "partial",
   "theorems": [
    "PyV.Props.C88_log_units",
    "PyV.Props.C88_simple_units",
    "PyV.Props.C88_exact_partial",
    "PyV.Props.C88_counterexample"
   ],
   "note": "log units and default simple units proved; exact=True is false for horizons other than 1 (C88_counterexample)"
  },
  {
   "property": "C89",
   "status": "partial",
   "theorems": [
    "PyV.Props.C89_labels_partial",
    "PyV.Props.C89_prior_mismatch",
    "PyV.Props.C89_counterexample"
   ],
   "note": "false of the code (C89_counterexample: sample labels are ignored); proved for samples listed in the prior's order and for rejection of inconsistent prior labels"
  },
  {
   "property": "C90",
   "status": "proved",
   "theorems": [
    "PyV.Props.C90_min_variance",
    "PyV.Props.C90_min_variance_with_ridge",
    "PyV.Props.C90_total"
   ],
   "note": ""
  },
  {
   "property": "C91",
   "status": "proved",
   "theorems": [
    "PyV.Props.C91_mean_variance_frontier",
    "PyV.Props.C91_mean_cvar_frontier",
    "PyV.Props.C91_mean_variance_total",
    "PyV.Props.C91_no_inequality",
    "PyV.Props.C91_mean_cvar_total"
   ],
   "note": ""
  },
  {
   "property": "C92",
   "status": "proved",
   "theorems": [
    "PyV.Props.C92_lambda_monotone",
    "PyV.Props.C92_frontier",
    "PyV.Props.C92_accepts_iff",
    "PyV.Props.C92_frontier_total"
   ],
   "note": ""
  },
  {
   "property": "C93",
   "status": "proved",
   "theorems": [
    "PyV.Props.C93_gamma_cap",
    "PyV.Props.C93_accepts_iff"
   ],
   "note": ""
  },
  {
   "property": "C94",
   "status": "partial",
   "theorems": [
    "PyV.Props.C94_costs_always_fail",
    "PyV.Props.C94_counterexample",
    "PyV.Props.C94_wrapper"
   ],
   "note": "false of the code: C94_costs_always_fail, C94_wrapper (every such construction raises); C94_counterexample"
  },
  {
   "property": "C95",
   "status": "partial",
   "theorems": [
    "PyV.Props.C95_zero_lambda_risk_undetermined",
    "PyV.Props.C95_positive_lambda_partial",
    "PyV.Props.C95_counterexample"
   ],
   "note": "false of the code at lambda = 0, the first point of the default grid (C95_zero_lambda_risk_undetermined; C95_counterexample: a correct solver with which the API reports too large a risk); proved for lambda > 0"
  },
  {
   "property": "C96",
   "status": "proved",
   "theorems": [
    "PyV.Props.C96_solution",
    "PyV.Props.C96_total"
   ],
   "note": ""
  },
  {
   "property": "C97",
   "status": "partial",
   "theorems": [
    "PyV.Props.C97_diagonal_partial",
    "PyV.Props.C97_counterexample"
   ],
   "note": "false of the code for correlated assets (C97_counterexample); proved for diagonal covariance matrices, equal and unequal budgets"
  },
  {
   "property": "C98",
   "status": "partial",
   "theorems": [
    "PyV.Props.C98_max_return_partial",
    "PyV.Props.C98_counterexample"
   ],
   "note": "false of the code when the user gives equalities without a budget row (C98_counterexample: every call with a target raises); proved otherwise"
  },
  {
   "property": "C99",
   "status": "partial",
   "theorems": [
    "PyV.Props.C99_counterexample",
    "PyV.Props.C99_insufficient_partial"
   ],
   "note": "false of the code: C99_counterexample (mu alone, or cov alone, is accepted); C99_insufficient_partial: nothing at all is rejected"
  },
  {
   "property": "C100",
   "status": "proved",
   "theorems": [
    "PyV.Props.C100_method_names"
   ],
   "note": ""
  },
  {
   "property": "C101",
   "status": "partial",
   "theorems": [
    "PyV.Props.C101_returns",
    "PyV.Props.C101_compounding",
    "PyV.Props.C101_array_accepts_iff",
    "PyV.Props.C101_value_error",
    "PyV.Props.C101_counterexample"
   ],
   "note": "array input fully proved (accepted iff positive, finite, at least two rows); false of the code for a DataFrame with an infinite price (C101_counterexample: accepted, a -100% scenario)"
  },
  {
   "property": "C102",
   "status": "proved",
   "theorems": [
    "PyV.Props.C102_conversion",
    "PyV.Props.C102_log_scenarios"
   ],
   "note": "any return_type string other than 'log' is treated as simple"
  },
  {
   "property": "C103",
   "status": "partial",
   "theorems": [
    "PyV.Props.C103_simple",
    "PyV.Props.C103_log",
    "PyV.Props.C103_round_trip",
    "PyV.Props.C103_mismatch",
    "PyV.Props.C103_counterexample_broadcast",
    "PyV.Props.C103_log_lengths",
    "PyV.Props.C103_bad_covariance",
    "PyV.Props.C103_counterexample_infinite"
   ],
   "note": "simple and log moments, labels and the simple2log round trip proved; shape rejection proved for simple moments but false in log mode (C103_counterexample_broadcast: length-one mean broadcast; C103_counterexample_infinite: -inf accepted)"
  },
  {
   "property": "C104",
   "status": "proved",
   "theorems": [
    "PyV.Props.C104_factor_free",
    "PyV.Props.C104_same_weights",
    "PyV.Props.C104_total"
   ],
   "note": "stated as: every column solves a problem that does not mention the factor; equal weights when that problem has one solution"
  },
  {
   "property": "C105",
   "status": "partial",
   "theorems": [
    "PyV.Props.C105_constructor",
    "PyV.Props.C105_variance_frontier_partial",
    "PyV.Props.C105_counterexample"
   ],
   "note": "proved whenever the constraints limit something besides total weight and equality rows; false without any inequality: the linear program for the largest return is handed G=None, which CVXOPT rejects, so the frontier fails even where one portfolio is allowed (C105_counterexample)"
  },
  {
   "property": "C106",
   "status": "proved",
   "theorems": [
    "PyV.Props.C106_selectors"
   ],
   "note": ""
  },
  {
   "property": "C107",
   "status": "proved",
   "theorems": [
    "PyV.Props.C107_unbounded",
    "PyV.Props.C107_min_variance_at_return"
   ],
   "note": ""
  },
  {
   "property": "C108",
   "status": "partial",
   "theorems": [
    "PyV.Props.C108_log_moments_partial",
    "PyV.Props.C108_counterexample"
   ],
   "note": "false of the code: C108_counterexample (log moments are minimised, simple moments reported); C108_log_moments_partial states what is minimised"
  },
  {
   "property": "C109",
   "status": "partial",
   "theorems": [
    "PyV.Props.C109_min_cvar_at_return_partial",
    "PyV.Props.C109_counterexample"
   ],
   "note": "false of the code when the wrapper has an explicit mean differing from the scenario mean (C109_counterexample: reported return below the request); proved when they agree (the risk reported is the absolute value of the CVaR, see C71)"
  },
  {
   "property": "C110",
   "status": "partial",
   "theorems": [
    "PyV.Props.C110_robust_frontier_partial",
    "PyV.Props.C110_counterexample"
   ],
   "note": "false of the code for wrappers of log returns (C110_counterexample: reported returns decrease); everything else proved for all wrappers, with positive definite uncertainty matrix and no proportional costs (C94: those always fail)"
  },
  {
   "property": "C111",
   "status": "partial",
   "theorems": [
    "PyV.Props.C111_total",
    "PyV.Props.C111_base_error",
    "PyV.Props.C111_result_partial",
    "PyV.Props.C111_attained",
    "PyV.Props.C111_raised",
    "PyV.Props.C111_counterexample"
   ],
   "note": "totality and the error cases proved in full; 'never above the requested target' is false of the code (C111_counterexample: an explicit 5% target is silently raised to the 10% risk parity return); C111_result_partial, C111_attained and C111_raised state the target used"
  },
  {
   "property": "C112",
   "status": "proved",
   "theorems": [
    "PyV.Props.C112_frontier"
   ],
   "note": "the CVaR overlay is not modelled"
  },
  {
   "property": "C113",
   "status": "partial",
   "theorems": [
    "PyV.Props.C113_constructor",
    "PyV.Props.C113_impact_partial",
    "PyV.Props.C113_proportional_partial",
    "PyV.Props.C113_counterexample",
    "PyV.Props.C113_unused_ignored"
   ],
   "note": "constructor: exact (iff). Methods: false of the code (C113_counterexample: length-one vectors are broadcast and accepted; C113_unused_ignored; CVXOPT TypeError instead of ValueError for proportional costs)"
  },
  {
   "property": "C114",
   "status": "proved",
   "theorems": [
    "PyV.Props.C114_cvar_frontier"
   ],
   "note": ""
  },
  {
   "property": "C115",
   "status": "proved",
   "theorems": [
    "PyV.Props.C115_exp_decay",
    "PyV.Props.C115_kernel_focus",
    "PyV.Props.C115_entropy_pooling",
    "PyV.Props.C115_exp_decay_total",
    "PyV.Props.C115_kernel_focus_total"
   ],
   "note": ""
  },
  {
   "property": "C116",
   "status": "proved",
   "theorems": [
    "PyV.Props.C116_transform",
    "PyV.Props.C116_pnl"
   ],
   "note": ""
  },
  {
   "property": "C117",
   "status": "partial",
   "theorems": [
    "PyV.Props.C117_gamma_partial",
    "PyV.Props.C117_counterexample"
   ],
   "note": "false of the code for wrappers of log returns (C117_counterexample: log units); at gamma_mu = 0 the reported risk is not determined (see C95); the rest proved"
  },
  {
   "property": "C118",
   "status": "proved",
   "theorems": [
    "PyV.Props.C118_tangency",
    "PyV.Props.C118_min_risk",
    "PyV.Props.C118_max_return",
    "PyV.Props.C118_risk_target",
    "PyV.Props.C118_risk_match",
    "PyV.Props.C118_risk_percentile",
    "PyV.Props.C118_percentile_range",
    "PyV.Props.C118_column",
    "PyV.Props.C118_rejects"
   ],
   "note": ""
  },
  {
   "property": "C119",
   "status": "proved",
   "theorems": [
    "PyV.Props.C119_selected",
    "PyV.Props.C119_frontier",
    "PyV.Props.C119_rejects",
    "PyV.Props.C119_propagates"
   ],
   "note": ""
  },
  {
   "property": "C120",
   "status": "partial",
   "theorems": [
    "PyV.Props.C120_result_partial",
    "PyV.Props.C120_rejects",
    "PyV.Props.C120_counterexample"
   ],
   "note": "false of the code when both conversion keys are present (C120_counterexample: log_to_simple and to_simple together raise ValueError); proved otherwise"
  },
  {
   "property": "C121",
   "status": "proved",
   "theorems": [
    "PyV.Props.C121_priority",
    "PyV.Props.C121_scenarios",
    "PyV.Props.C121_moments",
    "PyV.Props.C121_rejects_weights",
    "PyV.Props.C121_propagates"
   ],
   "note": "the estimator, preprocessing step and factory are arbitrary functions; indices with unique labels"
  },
  {
   "property": "C122",
   "status": "proved",
   "theorems": [
    "PyV.Props.C122_size",
    "PyV.Props.C122_collect"
   ],
   "note": ""
  },
  {
   "property": "C123",
   "status": "partial",
   "theorems": [
    "PyV.Props.C123_aligned_partial",
    "PyV.Props.C123_missing",
    "PyV.Props.C123_counterexample"
   ],
   "note": "false of the code for different asset universes (C123_counterexample: a missing asset makes weights NaN); proved when every specification covers the same assets in any order"
  },
  {
   "property": "C124",
   "status": "proved",
   "theorems": [
    "PyV.Props.C124_function",
    "PyV.Props.C124_default",
    "PyV.Props.C124_instruments",
    "PyV.Props.C124_array_dict",
    "PyV.Props.C124_accepts"
   ],
   "note": ""
  },
  {
   "property": "C125",
   "status": "partial",
   "theorems": [
    "PyV.Props.C125_conditions",
    "PyV.Props.C125_auto",
    "PyV.Props.C125_errors",
    "PyV.Props.C125_near_optimal",
    "PyV.Props.C125_counterexample"
   ],
   "note": "Everything except 'the precision is sparse' is proved; that part is false: the unthresholded iterate is returned (C125_counterexample: a diagonal optimum, non-zero off-diagonal entry returned)."
  },
  {
   "property": "C126",
   "status": "partial",
   "theorems": [
    "PyV.Props.C126_equal_weights_partial",
    "PyV.Props.C126_counterexample_single",
    "PyV.Props.C126_weighted_partial",
    "PyV.Props.C126_weights_ignored",
    "PyV.Props.C126_counterexample"
   ],
   "note": "false of the code: C126_counterexample (Huber/OAS and most other estimators ignore p: two different probability vectors, same output), C126_counterexample_single (N = 1 without p); proved for the sample estimators (C126_weighted_partial) and for omitting p when N > 1 (C126_equal_weights_partial)"
  },
  {
   "property": "C127",
   "status": "proved",
   "theorems": [
    "PyV.Props.C127_covariance",
    "PyV.Props.C127_names",
    "PyV.Props.C127_mean",
    "PyV.Props.C127_cov"
   ],
   "note": "EWMA with span >= 1, Tyler with ensure_psd (its default); the nonlinear shrinkage and graphical lasso go through the documented oracles"
  },
  {
   "property": "C128",
   "status": "partial",
   "theorems": [
    "PyV.Props.C128_frame_partial",
    "PyV.Props.C128_array_weights",
    "PyV.Props.C128_counterexample_square",
    "PyV.Props.C128_counterexample_array"
   ],
   "note": "false of the code when T = N with Series probabilities (C128_counterexample_square: ValueError) and for ndarray scenarios with Series probabilities (C128_counterexample_array: assets get scenario labels or ValueError); C128_frame_partial, C128_array_weights"
  },
  {
   "property": "C129",
   "status": "proved",
   "theorems": [
    "PyV.Props.C129_from_niw"
   ],
   "note": ""
  },
  {
   "property": "C130",
   "status": "partial",
   "theorems": [
    "PyV.Props.C130_prior",
    "PyV.Props.C130_no_views",
    "PyV.Props.C130_symmetrised",
    "PyV.Props.C130_rejects",
    "PyV.Props.C130_length_partial",
    "PyV.Props.C130_counterexample",
    "PyV.Props.C130_sized"
   ],
   "note": "false of the code in two points (C130_counterexample: pi, market_weights and prior_mean together are accepted; an array covariance without views accepts and returns a prior mean of any length); everything else proved; weights summing to zero give NaN in NumPy and an error in the model"
  },
  {
   "property": "C131",
   "status": "proved",
   "theorems": [
    "PyV.Props.C131_views",
    "PyV.Props.C131_formula"
   ],
   "note": ""
  },
  {
   "property": "C132",
   "status": "partial",
   "theorems": [
    "PyV.Props.C132_unchanged_partial",
    "PyV.Props.C132_counterexample"
   ],
   "note": "false of the code (C132_counterexample: float market weights are normalised in the caller's array); C132_unchanged_partial; only market_weights is ever written to, the other arguments are only read"
  },
  {
   "property": "C133",
   "status": "proved",
   "theorems": [
    "PyV.Props.C133_accepts_iff",
    "PyV.Props.C133_errors",
    "PyV.Props.C133_date"
   ],
   "note": ""
  },
  {
   "property": "C134",
   "status": "partial",
   "theorems": [
    "PyV.Props.C134_entries",
    "PyV.Props.C134_raw",
    "PyV.Props.C134_complete_partial",
    "PyV.Props.C134_counterexample",
    "PyV.Props.C134_counterexample_nonpositive",
    "PyV.Props.C134_drop"
   ],
   "note": "entries and fill rules proved for all inputs (C134_entries, C134_drop), compounding for complete positive prices (C134_complete_partial); false with a missing price (C134_counterexample: the default forward-fills *returns*, 21% becomes 33.1%) and non-positive prices are accepted (C134_counterexample_nonpositive)"
  },
  {
   "property": "C135",
   "status": "proved",
   "theorems": [
    "PyV.Props.C135_series"
   ],
   "note": ""
  },
  {
   "property": "C136",
   "status": "proved",
   "theorems": [
    "PyV.Props.C136_average",
    "PyV.Props.C136_linear",
    "PyV.Props.C136_equality",
    "PyV.Props.C136_columns"
   ],
   "note": ""
  },
  {
   "property": "C137",
   "status": "proved",
   "theorems": [
    "PyV.Props.C137_stack",
    "PyV.Props.C137_linear",
    "PyV.Props.C137_succeeds",
    "PyV.Props.C137_folds_bounded",
    "PyV.Props.C137_counterexample"
   ],
   "note": "as the Args section documents; the Notes sentence that full frontier matrices are used without selections is false (C137_counterexample), and the module example exposure_stack_frontiers([a, b], L=3) always raises (C137_folds_bounded)"
  },
  {
   "property": "C138",
   "status": "proved",
   "theorems": [
    "PyV.Props.C138_selections",
    "PyV.Props.C138_aligned"
   ],
   "note": ""
  },
  {
   "property": "C139",
   "status": "proved",
   "theorems": [
    "PyV.Props.C139_dict",
    "PyV.Props.C139_order"
   ],
   "note": ""
  },
  {
   "property": "C140",
   "status": "proved",
   "theorems": [
    "PyV.Props.C140_frame"
   ],
   "note": ""
  },
  {
   "property": "C141",
   "status": "proved",
   "theorems": [
    "PyV.Props.C141_column",
    "PyV.Props.C141_greedy"
   ],
   "note": ""
  },
  {
   "property": "C142",
   "status": "proved",
   "theorems": [
    "PyV.Props.C142_poet_decomposition",
    "PyV.Props.C142_succeeds"
   ],
   "note": ""
  },
  {
   "property": "C143",
   "status": "proved",
   "theorems": [
    "PyV.Props.C143_simulation",
    "PyV.Props.C143_exact_moments",
    "PyV.Props.C143_custom_generator",
    "PyV.Props.C143_rejects",
    "PyV.Props.C143_generator_error"
   ],
   "note": ""
  },
  {
   "property": "C144",
   "status": "partial",
   "theorems": [
    "PyV.Props.C144_labels_partial",
    "PyV.Props.C144_counterexample"
   ],
   "note": "false of the code: C144_counterexample (a mean labelled a, b with a covariance labelled b, a is accepted and read by position); C144_labels_partial: equal labels, or labels on one argument only"
  },
  {
   "property": "C145",
   "status": "proved",
   "theorems": [
    "PyV.Props.C145_accessors",
    "PyV.Props.C145_scenarios",
    "PyV.Props.C145_moments"
   ],
   "note": "for prior weights whose sum is one or differs from one by more than the normalisation's tolerance (weights within it are used unnormalised); ndarray or DataFrame scenarios with finite entries; at least two assets (C26: one asset always raises)"
  },
  {
   "property": "C146",
   "status": "proved",
   "theorems": [
    "PyV.Props.C146_variance",
    "PyV.Props.C146_cvar"
   ],
   "note": "the composition of C145 with C105/C106 and C114; constraints given explicitly, no trading costs"
  },
  {
   "property": "C147",
   "status": "proved",
   "theorems": [
    "PyV.Props.C147_pins",
    "PyV.Props.C147_wrong_length",
    "PyV.Props.C147_cvar_vector"
   ],
   "note": ""
  },
  {
   "property": "C148",
   "status": "partial",
   "theorems": [
    "PyV.Props.C148_floating_partial",
    "PyV.Props.C148_integer_values_partial",
    "PyV.Props.C148_losses_vanish",
    "PyV.Props.C148_counterexample"
   ],
   "note": "false of the code: repriced values are stored in an array of the drivers' type, so integer drivers truncate them toward zero (C148_counterexample: drawdown 0 instead of 1 - 1/e; C148_losses_vanish: integer log returns <= 0 reprice to 0 at every step); proved for floating-point drivers (C148_floating_partial) and integer-valued repricing (C148_integer_values_partial)"
  },
  {
   "property": "C149",
   "status": "partial",
   "theorems": [
    "PyV.Props.C149_counterexample",
    "PyV.Props.C149_positional",
    "PyV.Props.C149_same_order_partial"
   ],
   "note": "false of the code (C149_counterexample: weights are taken by position, labels are ignored; C149_positional); C149_same_order_partial: portfolios listed in column order"
  },
  {
   "property": "C150",
   "status": "proved",
   "theorems": [
    "PyV.Props.C150_requests",
    "PyV.Props.C150_nothing",
    "PyV.Props.C150_mode",
    "PyV.Props.C150_accessors"
   ],
   "note": "strip() knows blank, tab and line ends; lower() the ASCII letters"
  },
  {
   "property": "C151",
   "status": "proved",
   "theorems": [
    "PyV.Props.C151_metadata",
    "PyV.Props.C151_repeated",
    "PyV.Props.C151_result"
   ],
   "note": ""
  },
  {
   "property": "C152",
   "status": "proved",
   "theorems": [
    "PyV.Props.C152_asset_order"
   ],
   "note": "for an ndarray probability vector, or a Series when T differs from N (C128); pinv and nonlinshrink are assumed to respect reorderings (penrose_reorders: true of the Moore-Penrose inverse), eigen-solvers to decompose symmetric matrices"
  },
  {
   "property": "C153",
   "status": "proved",
   "theorems": [
    "PyV.Props.C153_scenario_order",
    "PyV.Props.C153_ewma_ordered"
   ],
   "note": "the three excluded estimators group observations by position by design (C153_ewma_ordered)"
  },
  {
   "property": "C154",
   "status": "proved",
   "theorems": [
    "PyV.Props.C154_translation",
    "PyV.Props.C154_oas_default"
   ],
   "note": "Huber (relative stopping rule), EWMA (about zero by design) and nonlinshrink (external) are outside; C154_oas_default: with its default assume_centered=True OAS does depend on the shift"
  },
  {
   "property": "C155",
   "status": "partial",
   "theorems": [
    "PyV.Props.C155_units_partial",
    "PyV.Props.C155_counterexample"
   ],
   "note": "false of the code: C155_counterexample (constant-correlation Ledoit-Wolf: the rho term has the wrong homogeneity, so shrinkage vanishes or saturates depending on the units); absolute constants also break it for Jorion (1e-8 jitter), Huber, Tyler, POET and the graphical lasso; proved for sample, James-Stein and median-of-means means and sample, Ledoit-Wolf (identity), OAS and EWMA covariances"
  },
  {
   "property": "C156",
   "status": "proved",
   "theorems": [
    "PyV.Props.C156_rejects",
    "PyV.Props.C156_accepts",
    "PyV.Props.C156_accepts_skew",
    "PyV.Props.C156_skew"
   ],
   "note": "acceptance for solvers that return; hand-written ('between', lo, hi) tuples with non-finite bounds raise in the model (the code only tests their order); distinct labels"
  },
  {
   "property": "C157",
   "status": "proved",
   "theorems": [
    "PyV.Props.C157_source",
    "PyV.Props.C157_no_views"
   ],
   "note": "strictly positive probabilities summing to one, N != 1 (C26: one asset always raises)"
  },
  {
   "property": "C158",
   "status": "partial",
   "theorems": [
    "PyV.Props.C158_variance_overlay",
    "PyV.Props.C158_variance_log",
    "PyV.Props.C158_cvar_overlay",
    "PyV.Props.C158_robust_columns",
    "PyV.Props.C158_robust_overlay",
    "PyV.Props.C158_robust_source",
    "PyV.Props.C158_counterexample",
    "PyV.Props.C158_relaxed_overlay"
   ],
   "note": "false of the code in one case: for a wrapper from a robust posterior the 'Volatility' of robust_lambda_frontier is that of log returns while its returns are simple (C158_counterexample); everything else proved; an indefinite return_cov gives NaN in NumPy and 0 in the model"
  },
  {
   "property": "C159",
   "status": "partial",
   "theorems": [
    "PyV.Props.C159_percentages_partial",
    "PyV.Props.C159_counterexample",
    "PyV.Props.C159_clipped_partial",
    "PyV.Props.C159_counterexample_clipped"
   ],
   "note": "false of the code for log-return wrappers (C159_counterexample: log-return contributions over simple-return variance) and for dropped targets (C159_counterexample_clipped: target_clipped is False when the target is abandoned); C159_percentages_partial, C159_clipped_partial"
  },
  {
   "property": "C160",
   "status": "proved",
   "theorems": [
    "PyV.Props.C160_missing_moments",
    "PyV.Props.C160_missing_scenarios"
   ],
   "note": ""
  },
  {
   "property": "C161",
   "status": "proved",
   "theorems": [
    "PyV.Props.C161_simulated",
    "PyV.Props.C161_in_force"
   ],
   "note": ""
  },
  {
   "property": "C162",
   "status": "proved",
   "theorems": [
    "PyV.Props.C162_one_shot",
    "PyV.Props.C162_defaults",
    "PyV.Props.C162_no_views",
    "PyV.Props.C162_needs_confidences"
   ],
   "note": ""
  },
  {
   "property": "C163",
   "status": "partial",
   "theorems": [
    "PyV.Props.C163_counterexample",
    "PyV.Props.C163_keys_partial"
   ],
   "note": "false of the code (C163_counterexample: the joined key 'A,B' of the module documentation is not found and confidence 1 is used, whatever was written); C163_keys_partial: confidences under the view's own key"
  },
  {
   "property": "C164",
   "status": "proved",
   "theorems": [
    "PyV.Props.C164_moments",
    "PyV.Props.C164_variance",
    "PyV.Props.C164_optimum"
   ],
   "note": ""
  },
  {
   "property": "C165",
   "status": "proved",
   "theorems": [
    "PyV.Props.C165_column",
    "PyV.Props.C165_prices_to_shares"
   ],
   "note": ""
  },
  {
   "property": "C166",
   "status": "proved",
   "theorems": [
    "PyV.Props.C166_labels",
    "PyV.Props.C166_rows",
    "PyV.Props.C166_assets"
   ],
   "note": ""
  },
  {
   "property": "C167",
   "status": "partial",
   "theorems": [
    "PyV.Props.C167_accepts_iff",
    "PyV.Props.C167_counterexample",
    "PyV.Props.C167_rejects_partial"
   ],
   "note": "false of the code (C167_counterexample: a NaN weight, a NaN or +inf price and a NaN or +inf total_value are accepted); C167_accepts_iff is the exact acceptance condition over floats, C167_rejects_partial the part that holds (infinite weights, negative infinities; for finite inputs C07)"
  },
  {
   "property": "C168",
   "status": "proved",
   "theorems": [
    "PyV.Props.C168_solver_independent",
    "PyV.Props.C168_min_variance"
   ],
   "note": ""
  },
  {
   "property": "C169",
   "status": "proved",
   "theorems": [
    "PyV.Props.C169_asset_order"
   ],
   "note": ""
  },
  {
   "property": "C170",
   "status": "proved",
   "theorems": [
    "PyV.Props.C170_no_fallback",
    "PyV.Props.C170_cap_hands_over"
   ],
   "note": ""
  },
  {
   "property": "C171",
   "status": "proved",
   "theorems": [
    "PyV.Props.C171_draws",
    "PyV.Props.C171_selectors",
    "PyV.Props.C171_succeeds",
    "PyV.Props.C171_errors"
   ],
   "note": ""
  },
  {
   "property": "C172",
   "status": "partial",
   "theorems": [
    "PyV.Props.C172_grid_partial",
    "PyV.Props.C172_counterexample"
   ],
   "note": "false of the code (C172_counterexample: two unlabelled frontiers of one risk measure share a dictionary key, so only the last is drawn; the documented legend_policy='all' always raises); C172_grid_partial: when the names within a group are distinct"
  },
  {
   "property": "C173",
   "status": "partial",
   "theorems": [
    "PyV.Props.C173_report_partial",
    "PyV.Props.C173_succeeds_partial",
    "PyV.Props.C173_errors",
    "PyV.Props.C173_counterexample",
    "PyV.Props.C173_given_weights"
   ],
   "note": "false of the code (C173_counterexample: selection='tangency' always raises because the risk-free rate was popped; max_sharpe with another risk label marks a point off the curve; with weights supplied another portfolio is marked); C173_report_partial and C173_succeeds_partial for the other selections"
  },
  {
   "property": "C174",
   "status": "proved",
   "theorems": [
    "PyV.Props.C174_top_n"
   ],
   "note": ""
  },
  {
   "property": "C175",
   "status": "proved",
   "theorems": [
    "PyV.Props.C175_param_impact",
    "PyV.Props.C175_errors",
    "PyV.Props.C175_surface"
   ],
   "note": ""
  },
  {
   "property": "C176",
   "status": "partial",
   "theorems": [
    "PyV.Props.C176_axes_partial",
    "PyV.Props.C176_shares_partial",
    "PyV.Props.C176_scenarios",
    "PyV.Props.C176_counterexample"
   ],
   "note": "false of the code below three assets (C176_counterexample: the axes are the assets but are labelled PC1, PC2); C176_axes_partial, C176_shares_partial for three assets or more and a symmetric (positive semidefinite, non-zero) covariance; C176_scenarios in full"
  },
  {
   "property": "C177",
   "status": "proved",
   "theorems": [
    "PyV.Props.C177_mesh",
    "PyV.Props.C177_symmetric_part",
    "PyV.Props.C177_closed",
    "PyV.Props.C177_extent"
   ],
   "note": ""
  },
  {
   "property": "C178",
   "status": "proved",
   "theorems": [
    "PyV.Props.C178_thinned"
   ],
   "note": ""
  },
  {
   "property": "C179",
   "status": "partial",
   "theorems": [
    "PyV.Props.C179_min_cvar",
    "PyV.Props.C179_frontier_partial",
    "PyV.Props.C179_counterexample",
    "PyV.Props.C179_returns_partial"
   ],
   "note": "false of the code (C179_counterexample: with two portfolios of least CVaR and different returns, one correct solver gives a frontier of several portfolios and another a single one, because the grid starts at the return of whichever minimiser the solver chose); C179_min_cvar in full, C179_frontier_partial (risks) and C179_returns_partial (returns) when the least-CVaR portfolios have equal returns"
  },
  {
   "property": "C180",
   "status": "proved",
   "theorems": [
    "PyV.Props.C180_variance",
    "PyV.Props.C180_cvar"
   ],
   "note": ""
  },
  {
   "property": "C181",
   "status": "proved",
   "theorems": [
    "PyV.Props.C181_variance",
    "PyV.Props.C181_cvar"
   ],
   "note": ""
  },
  {
   "property": "C182",
   "status": "partial",
   "theorems": [
    "PyV.Props.C182_min_variance",
    "PyV.Props.C182_frontier_partial",
    "PyV.Props.C182_counterexample"
   ],
   "note": "false of the code (C182_counterexample: whether the frontier collapses to one portfolio is decided by np.isclose with its absolute tolerance 1e-8, so changing units changes the number of portfolios); C182_min_variance in full, C182_frontier_partial when neither frontier collapses"
  },
  {
   "property": "C183",
   "status": "proved",
   "theorems": [
    "PyV.Props.C183_lots_are_shares"
   ],
   "note": "the sort order and the solver's answer are assumed to be functions of the weights and of the programme (SortsByWeight, SolvesProgramme)"
  },
  {
   "property": "C184",
   "status": "proved",
   "theorems": [
    "PyV.Props.C184_relative_weights"
   ],
   "note": ""
  },
  {
   "property": "C185",
   "status": "partial",
   "theorems": [
    "PyV.Props.C185_currency_partial",
    "PyV.Props.C185_counterexample"
   ],
   "note": "false of the code (C185_counterexample: the absolute tolerance 1e-12 lets 10e-13 of cash buy an asset at 11e-13, while 10 does not buy one at 11); C185_currency_partial for prices and amounts that are whole numbers of a unit above 1e-12 in both currencies; greedy without fallback (C170 covers the modes)"
  },
  {
   "property": "C186",
   "status": "proved",
   "theorems": [
    "PyV.Props.C186_order"
   ],
   "note": "fallback disabled (C170 covers the other modes)"
  },
  {
   "property": "C187",
   "status": "proved",
   "theorems": [
    "PyV.Props.C187_greedy",
    "PyV.Props.C187_milp",
    "PyV.Props.C187_round_trip"
   ],
   "note": ""
  },
  {
   "property": "C188",
   "status": "partial",
   "theorems": [
    "PyV.Props.C188_satisfied_views_partial",
    "PyV.Props.C188_counterexample"
   ],
   "note": "false of the code for CVaR views (C188_counterexample: a CVaR view equal to the prior's own CVaR never gives back the prior, because the tail is forced to be a whole number of scenarios with probability exactly gamma); C188_satisfied_views_partial for all other views"
  },
  {
   "property": "C189",
   "status": "partial",
   "theorems": [
    "PyV.Props.C189_view_order_partial",
    "PyV.Props.C189_counterexample"
   ],
   "note": "false of the code for CVaR views (C189_counterexample: each CVaR view is solved from the posterior of the previous one, so the last one wins); C189_view_order_partial: all other dictionaries may be shuffled, CVaR views in the same order"
  },
  {
   "property": "C190",
   "status": "proved",
   "theorems": [
    "PyV.Props.C190_scenario_order"
   ],
   "note": ""
  },
  {
   "property": "C191",
   "status": "proved",
   "theorems": [
    "PyV.Props.C191_asset_order"
   ],
   "note": ""
  },
  {
   "property": "C192",
   "status": "partial",
   "theorems": [
    "PyV.Props.C192_variance_one",
    "PyV.Props.C192_variance_many",
    "PyV.Props.C192_volatility",
    "PyV.Props.C192_coherent",
    "PyV.Props.C192_scenarios",
    "PyV.Props.C192_shapes_partial",
    "PyV.Props.C192_counterexample"
   ],
   "note": "false of the code for the rejection (C192_counterexample: an N x 1 array is broadcast and accepted as a covariance; likewise a 1 x c array for one instrument); values, shapes of results and coherence in full, C192_shapes_partial for the other shapes"
  },
  {
   "property": "C193",
   "status": "partial",
   "theorems": [
    "PyV.Props.C193_columns",
    "PyV.Props.C193_meaning",
    "PyV.Props.C193_rejects_partial",
    "PyV.Props.C193_counterexample"
   ],
   "note": "false of the code for the rejection (C193_counterexample: a probability vector with one entry is accepted for any number of scenarios); values and result shapes in full (VaR arrays have shape (1, M), CVaR arrays (M,)), C193_rejects_partial is the exact acceptance condition; ndarray weights"
  },
  {
   "property": "C194",
   "status": "proved",
   "theorems": [
    "PyV.Props.C194_agreeing_views",
    "PyV.Props.C194_targets",
    "PyV.Props.C194_halfway"
   ],
   "note": ""
  },
  {
   "property": "C195",
   "status": "proved",
   "theorems": [
    "PyV.Props.C195_view_order"
   ],
   "note": ""
  },
  {
   "property": "C196",
   "status": "proved",
   "theorems": [
    "PyV.Props.C196_asset_order"
   ],
   "note": ""
  },
  {
   "property": "C197",
   "status": "proved",
   "theorems": [
    "PyV.Props.C197_units"
   ],
   "note": ""
  },
  {
   "property": "C198",
   "status": "proved",
   "theorems": [
    "PyV.Props.C198_variance",
    "PyV.Props.C198_cvar"
   ],
   "note": ""
  },
  {
   "property": "C199",
   "status": "proved",
   "theorems": [
    "PyV.Props.C199_risk",
    "PyV.Props.C199_moments",
    "PyV.Props.C199_min_cvar",
    "PyV.Props.C199_frontier"
   ],
   "note": ""
  },
  {
   "property": "C200",
   "status": "proved",
   "theorems": [
    "PyV.Props.C200_constructor"
   ],
   "note": ""
  },
  {
   "property": "C201",
   "status": "proved",
   "theorems": [
    "PyV.Props.C201_report",
    "PyV.Props.C201_selection",
    "PyV.Props.C201_custom",
    "PyV.Props.C201_wrong_length",
    "PyV.Props.C201_average"
   ],
   "note": ""
  },
  {
   "property": "C202",
   "status": "proved",
   "theorems": [
    "PyV.Props.C202_measures"
   ],
   "note": ""
  },
  {
   "property": "C203",
   "status": "partial",
   "theorems": [
    "PyV.Props.C203_rows_partial",
    "PyV.Props.C203_both",
    "PyV.Props.C203_roles",
    "PyV.Props.C203_counterexample",
    "PyV.Props.C203_moments",
    "PyV.Props.C203_held",
    "PyV.Props.C203_mean_variance"
   ],
   "note": "false of the code (C203_counterexample: a one-row G without h is accepted, its bound is NaN); C203_rows_partial, C203_both, C203_roles, C203_moments, C203_held and C203_mean_variance in full otherwise"
  },
  {
   "property": "C204",
   "status": "partial",
   "theorems": [
    "PyV.Props.C204_array_partial",
    "PyV.Props.C204_transposed",
    "PyV.Props.C204_counterexample"
   ],
   "note": "false of the code (C204_counterexample: CVXOPT reads the inner lists as columns, so a square nested list is silently transposed); C204_array_partial for arrays"
  },
  {
   "property": "C205",
   "status": "partial",
   "theorems": [
    "PyV.Props.C205_same_law_partial",
    "PyV.Props.C205_copies_partial",
    "PyV.Props.C205_counterexample"
   ],
   "note": "false of the code for CVaR views (C205_counterexample: the tail is cut between scenarios and the cut index is clipped to at least 1, so the same view raises on two scenarios and returns the prior when each is listed twice); C205_same_law_partial and C205_copies_partial for all other views"
  },
  {
   "property": "C206",
   "status": "proved",
   "theorems": [
    "PyV.Props.C206_towards_truth"
   ],
   "note": ""
  },
  {
   "property": "C207",
   "status": "proved",
   "theorems": [
    "PyV.Props.C207_stronger_views"
   ],
   "note": ""
  },
  {
   "property": "C208",
   "status": "proved",
   "theorems": [
    "PyV.Props.C208_instalments"
   ],
   "note": ""
  },
  {
   "property": "C209",
   "status": "proved",
   "theorems": [
    "PyV.Props.C209_min_variance",
    "PyV.Props.C209_min_cvar"
   ],
   "note": ""
  },
  {
   "property": "C210",
   "status": "proved",
   "theorems": [
    "PyV.Props.C210_min_variance",
    "PyV.Props.C210_min_cvar"
   ],
   "note": ""
  },
  {
   "property": "C211",
   "status": "partial",
   "theorems": [
    "PyV.Props.C211_reads",
    "PyV.Props.C211_unchanged_partial",
    "PyV.Props.C211_own_fields",
    "PyV.Props.C211_by_contents",
    "PyV.Props.C211_counterexample"
   ],
   "note": "false of the code (C211_counterexample: float arrays passed as mean, covariance or scenarios are stored by reference, so a later assignment changes the frozen object and can even put NaN into it, and the estimated mean no longer matches the scenarios); C211_unchanged_partial for all histories that leave these three arrays alone, C211_own_fields: probabilities, names and estimated moments never change. In-place changes of pandas objects not modelled (what to_numpy shares depends on the pandas version)"
  },
  {
   "property": "C212",
   "status": "partial",
   "theorems": [
    "PyV.Props.C212_unchanged_partial",
    "PyV.Props.C212_counterexample"
   ],
   "note": "false of the code (C212_counterexample: projection is captured by reference and the constraints dictionary inside optimiser_kwargs is shared); C212_unchanged_partial: changes to mean_kwargs, cov_kwargs, optimiser_kwargs, selector_kwargs and metadata have no effect"
  },
  {
   "property": "C213",
   "status": "proved",
   "theorems": [
    "PyV.Props.C213_variance",
    "PyV.Props.C213_cvar"
   ],
   "note": ""
  },
  {
   "property": "C214",
   "status": "proved",
   "theorems": [
    "PyV.Props.C214_deeper_tails"
   ],
   "note": ""
  },
  {
   "property": "C215",
   "status": "partial",
   "theorems": [
    "PyV.Props.C215_min_variance",
    "PyV.Props.C215_min_cvar",
    "PyV.Props.C215_frontier_partial",
    "PyV.Props.C215_counterexample"
   ],
   "note": "single-portfolio answers proved without restriction; the frontier is proved when both descriptions contain an inequality, and false otherwise: two descriptions of the same allowed portfolio, one without an inequality, of which only one has a frontier (C215_counterexample)"
  },
  {
   "property": "C216",
   "status": "proved",
   "theorems": [
    "PyV.Props.C216_min_variance",
    "PyV.Props.C216_min_cvar",
    "PyV.Props.C216_accepted"
   ],
   "note": ""
  },
  {
   "property": "C217",
   "status": "proved",
   "theorems": [
    "PyV.Props.C217_min_variance",
    "PyV.Props.C217_min_cvar",
    "PyV.Props.C217_default"
   ],
   "note": ""
  },
  {
   "property": "C218",
   "status": "proved",
   "theorems": [
    "PyV.Props.C218_variance",
    "PyV.Props.C218_cvar"
   ],
   "note": ""
  },
  {
   "property": "C219",
   "status": "partial",
   "theorems": [
    "PyV.Props.C219_never_worse_partial",
    "PyV.Props.C219_units",
    "PyV.Props.C219_counterexample"
   ],
   "note": "false of the code (C219_counterexample: the greedy allocator tolerates overspending by up to 1e-12 and so can buy a lot the mixed-integer programme must not); C219_never_worse_partial whenever the greedy allocation stays within the amount, C219_units: always so when prices and amount are whole numbers of a unit above 1e-12"
  },
  {
   "property": "C220",
   "status": "proved",
   "theorems": [
    "PyV.Props.C220_large_amounts"
   ],
   "note": ""
  },
  {
   "property": "C221",
   "status": "proved",
   "theorems": [
    "PyV.Props.C221_no_views",
    "PyV.Props.C221_views",
    "PyV.Props.C221_seeds"
   ],
   "note": ""
  },
  {
   "property": "C222",
   "status": "partial",
   "theorems": [
    "PyV.Props.C222_next_seed_partial",
    "PyV.Props.C222_counterexample"
   ],
   "note": "false of the code (C222_counterexample: the stressed simulation is drawn with seed + 1, so the two rows differ by simulation noise even when the posterior is the prior); C222_next_seed_partial: the stressed row is then the nominal row of the next seed"
  },
  {
   "property": "C223",
   "status": "partial",
   "theorems": [
    "PyV.Props.C223_accepts_partial",
    "PyV.Props.C223_counterexample"
   ],
   "note": "false of the code (C223_counterexample: with stress views a single driver or dict weights always raise); C223_accepts_partial: all other sound input, where the views are those a FlexibleViewsProcessor on the same history accepts"
  },
  {
   "property": "C224",
   "status": "proved",
   "theorems": [
    "PyV.Props.C224_selected",
    "PyV.Props.C224_frontier"
   ],
   "note": ""
  },
  {
   "property": "C225",
   "status": "partial",
   "theorems": [
    "PyV.Props.C225_average_partial",
    "PyV.Props.C225_leave_one_out_partial",
    "PyV.Props.C225_counterexample"
   ],
   "note": "false of the code for stacking (C225_counterexample: folds are consecutive blocks of the list, so four strategies 1, 2, 0, 0 stack into 1 unit or into 0 units depending on the order); C225_average_partial: the average never depends on the order; C225_leave_one_out_partial: nor does stacking with as many folds as strategies, up to the choice among optima"
  },
  {
   "property": "C226",
   "status": "partial",
   "theorems": [
    "PyV.Props.C226_diagonal_partial",
    "PyV.Props.C226_counterexample"
   ],
   "note": "false of the code (C226_counterexample: the cone uses L instead of its transpose, so two indistinguishable assets with correlated uncertainty get 2/13 and 11/13 according to the order in which they are listed); C226_diagonal_partial: true for diagonal uncertainty, a positive penalty and a fixed total weight"
  },
  {
   "property": "C227",
   "status": "partial",
   "theorems": [
    "PyV.Props.C227_portfolios_partial",
    "PyV.Props.C227_units_and_order",
    "PyV.Props.C227_counterexample"
   ],
   "note": "false of the code for the covariance when the number of assets changes (C227_counterexample: the divisor nu + N + 1 counts the assets, so an asset's posterior variance is 20/22 alone and 20/23 in company); C227_portfolios_partial: posterior mean and mean uncertainty always commute with forming portfolios, the covariance up to the stated factor; C227_units_and_order: everything commutes with units and order"
  },
  {
   "property": "C228",
   "status": "proved",
   "theorems": [
    "PyV.Props.C228_other_assets"
   ],
   "note": ""
  },
  {
   "property": "C229",
   "status": "proved",
   "theorems": [
    "PyV.Props.C229_other_assets"
   ],
   "note": ""
  },
  {
   "property": "C230",
   "status": "partial",
   "theorems": [
    "PyV.Props.C230_units_partial",
    "PyV.Props.C230_counterexample"
   ],
   "note": "false of the code for skew views (C230_counterexample: the view raises in large units because the variance is compared with the absolute number 1e-12); C230_units_partial: true when no asset with a skew view gets smaller numbers"
  },
  {
   "property": "C231",
   "status": "proved",
   "theorems": [
    "PyV.Props.C231_portfolios",
    "PyV.Props.C231_other_assets"
   ],
   "note": ""
  },
  {
   "property": "C232",
   "status": "proved",
   "theorems": [
    "PyV.Props.C232_finer_lots"
   ],
   "note": ""
  },
  {
   "property": "C233",
   "status": "proved",
   "theorems": [
    "PyV.Props.C233_min_variance",
    "PyV.Props.C233_min_cvar",
    "PyV.Props.C233_frontier",
    "PyV.Props.C233_zero_bounds",
    "PyV.Props.C233_cvar_frontier"
   ],
   "note": ""
  },
  {
   "property": "C234",
   "status": "proved",
   "theorems": [
    "PyV.Props.C234_from_prices",
    "PyV.Props.C234_returns"
   ],
   "note": ""
  },
  {
   "property": "C235",
   "status": "proved",
   "theorems": [
    "PyV.Props.C235_no_look_ahead"
   ],
   "note": ""
  },
  {
   "property": "C236",
   "status": "proved",
   "theorems": [
    "PyV.Props.C236_half_life",
    "PyV.Props.C236_bandwidth",
    "PyV.Props.C236_equal"
   ],
   "note": ""
  },
  {
   "property": "C237",
   "status": "proved",
   "theorems": [
    "PyV.Props.C237_own_risk_as_cap",
    "PyV.Props.C237_loose_cap"
   ],
   "note": ""
  },
  {
   "property": "C238",
   "status": "proved",
   "theorems": [
    "PyV.Props.C238_data_wins",
    "PyV.Props.C238_prior_wins",
    "PyV.Props.C238_regions"
   ],
   "note": ""
  },
  {
   "property": "C239",
   "status": "proved",
   "theorems": [
    "PyV.Props.C239_constraints",
    "PyV.Props.C239_min_variance",
    "PyV.Props.C239_min_cvar",
    "PyV.Props.C239_cvar_frontier"
   ],
   "note": ""
  },
  {
   "property": "C240",
   "status": "proved",
   "theorems": [
    "PyV.Props.C240_cash_cap",
    "PyV.Props.C240_best_within_cap",
    "PyV.Props.C240_looser_cap"
   ],
   "note": ""
  },
  {
   "property": "C241",
   "status": "partial",
   "theorems": [
    "PyV.Props.C241_milp",
    "PyV.Props.C241_greedy_partial",
    "PyV.Props.C241_counterexample"
   ],
   "note": "false of the code for fallback_kwargs (C241_counterexample: in the default mode every long-only call succeeds, whatever names fallback_kwargs contains, because the fallback is only tried when short positions occur or its failure is swallowed); C241_milp in full; C241_greedy_partial: everything else, the names in fallback_kwargs being known ones"
  },
  {
   "property": "C242",
   "status": "partial",
   "theorems": [
    "PyV.Props.C242_diagonal_partial",
    "PyV.Props.C242_counterexample"
   ],
   "note": "false of the code for correlated assets (C242_counterexample: the cone uses L instead of its transpose, so two assets with volatilities 1 and 4 and correlation 4/5 get different portfolios according to which is listed first); C242_diagonal_partial: true for uncorrelated assets"
  },
  {
   "property": "C243",
   "status": "proved",
   "theorems": [
    "PyV.Props.C243_optimiser",
    "PyV.Props.C243_wrapper"
   ],
   "note": ""
  },
  {
   "property": "C244",
   "status": "proved",
   "theorems": [
    "PyV.Props.C244_robust"
   ],
   "note": ""
  },
  {
   "property": "C245",
   "status": "partial",
   "theorems": [
    "PyV.Props.C245_units_partial",
    "PyV.Props.C245_counterexample"
   ],
   "note": "false of the code for targets in units in which returns are tiny numbers (C245_counterexample: the target is clipped by the absolute number 1e-8, so in a unit in which the greatest return is 1e-8 a target is dropped); C245_units_partial: true without target, or when the greatest return is at least 1e-5 in both units"
  },
  {
   "property": "C246",
   "status": "proved",
   "theorems": [
    "PyV.Props.C246_target",
    "PyV.Props.C246_penalty",
    "PyV.Props.C246_convex"
   ],
   "note": ""
  },
  {
   "property": "C247",
   "status": "proved",
   "theorems": [
    "PyV.Props.C247_tangency",
    "PyV.Props.C247_at_risk",
    "PyV.Props.C247_at_return",
    "PyV.Props.C247_closest_risk",
    "PyV.Props.C247_percentile"
   ],
   "note": ""
  },
  {
   "property": "C248",
   "status": "partial",
   "theorems": [
    "PyV.Props.C248_firmer_partial",
    "PyV.Props.C248_counterexample"
   ],
   "note": "false of the code for the first view (C248_counterexample: without views the covariance is the prior one, with views the uncertainty about the mean is added); C248_firmer_partial: true whenever there already is a view"
  },
  {
   "property": "C249",
   "status": "proved",
   "theorems": [
    "PyV.Props.C249_certain",
    "PyV.Props.C249_vague"
   ],
   "note": ""
  },
  {
   "property": "C250",
   "status": "partial",
   "theorems": [
    "PyV.Props.C250_robust",
    "PyV.Props.C250_min_variance",
    "PyV.Props.C250_min_cvar",
    "PyV.Props.C250_frontier_partial",
    "PyV.Props.C250_counterexample"
   ],
   "note": "false of the code for frontiers whose returns are large numbers (C250_counterexample: np.isclose compares returns relative to their level, so a frontier collapses); C250_frontier_partial: true when neither frontier collapses; single portfolios and robust methods fully proved"
  },
  {
   "property": "C251",
   "status": "proved",
   "theorems": [
    "PyV.Props.C251_min_risk"
   ],
   "note": ""
  },
  {
   "property": "C252",
   "status": "partial",
   "theorems": [
    "PyV.Props.C252_scale_partial",
    "PyV.Props.C252_default_partial",
    "PyV.Props.C252_counterexample"
   ],
   "note": "false of the code for budgets whose total is within np.isclose of one but not one (C252_counterexample: they are used unnormalised); C252_scale_partial, C252_default_partial: true for all other budgets"
  },
  {
   "property": "C253",
   "status": "partial",
   "theorems": [
    "PyV.Props.C253_containers",
    "PyV.Props.C253_posterior",
    "PyV.Props.C253_by_label_partial",
    "PyV.Props.C253_counterexample"
   ],
   "note": "false of the code when mean and covariance list the assets in different orders (C253_counterexample: moments are paired by position); containers and numbers fully proved, C253_by_label_partial for agreeing orders"
  },
  {
   "property": "C254",
   "status": "proved",
   "theorems": [
    "PyV.Props.C254_ignored"
   ],
   "note": ""
  },
  {
   "property": "C255",
   "status": "proved",
   "theorems": [
    "PyV.Props.C255_units",
    "PyV.Props.C255_order",
    "PyV.Props.C255_stress"
   ],
   "note": ""
  },
  {
   "property": "C256",
   "status": "proved",
   "theorems": [
    "PyV.Props.C256_level",
    "PyV.Props.C256_bundle"
   ],
   "note": ""
  },
  {
   "property": "C257",
   "status": "proved",
   "theorems": [
    "PyV.Props.C257_variance",
    "PyV.Props.C257_cvar"
   ],
   "note": ""
  },
  {
   "property": "C258",
   "status": "proved",
   "theorems": [
    "PyV.Props.C258_threshold",
    "PyV.Props.C258_huber",
    "PyV.Props.C258_estimate"
   ],
   "note": ""
  },
  {
   "property": "C259",
   "status": "proved",
   "theorems": [
    "PyV.Props.C259_huber",
    "PyV.Props.C259_median_of_means"
   ],
   "note": ""
  },
  {
   "property": "C260",
   "status": "proved",
   "theorems": [
    "PyV.Props.C260_unlimited"
   ],
   "note": ""
  },
  {
   "property": "C261",
   "status": "proved",
   "theorems": [
    "PyV.Props.C261_two_funds"
   ],
   "note": ""
  },
  {
   "property": "C262",
   "status": "proved",
   "theorems": [
    "PyV.Props.C262_certificate",
    "PyV.Props.C262_covariance"
   ],
   "note": ""
  },
  {
   "property": "C263",
   "status": "proved",
   "theorems": [
    "PyV.Props.C263_cvar",
    "PyV.Props.C263_hhi",
    "PyV.Props.C263_entropy",
    "PyV.Props.C263_moments"
   ],
   "note": ""
  },
  {
   "property": "C264",
   "status": "proved",
   "theorems": [
    "PyV.Props.C264_rounding"
   ],
   "note": ""
  },
  {
   "property": "C265",
   "status": "proved",
   "theorems": [
    "PyV.Props.C265_moment_bounds",
    "PyV.Props.C265_methods"
   ],
   "note": ""
  },
  {
   "property": "C266",
   "status": "proved",
   "theorems": [
    "PyV.Props.C266_fixed_point",
    "PyV.Props.C266_floor",
    "PyV.Props.C266_positive_definite",
    "PyV.Props.C266_full_shrinkage"
   ],
   "note": ""
  },
  {
   "property": "C267",
   "status": "proved",
   "theorems": [
    "PyV.Props.C267_compounding",
    "PyV.Props.C267_whole_periods",
    "PyV.Props.C267_horizons",
    "PyV.Props.C267_wrapper"
   ],
   "note": ""
  },
  {
   "property": "C268",
   "status": "partial",
   "theorems": [
    "PyV.Props.C268_instalments_partial",
    "PyV.Props.C268_counterexample"
   ],
   "note": "false of the code when the posterior is fed straight back (C268_counterexample: the returned covariance contains the uncertainty about the mean, which then counts twice: 2/3 instead of 1/2); C268_instalments_partial: exact when the prior covariance is subtracted first and tau is one"
  },
  {
   "property": "C269",
   "status": "partial",
   "theorems": [
    "PyV.Props.C269_rebuild_partial",
    "PyV.Props.C269_rebuild_iff",
    "PyV.Props.C269_same_result_partial",
    "PyV.Props.C269_counterexample"
   ],
   "note": "false of the code for weights that pass the 1e-8 filter before normalisation but not after (C269_counterexample: an asset is lost); C269_rebuild_iff: true exactly when every stored weight is above 1e-8"
  },
  {
   "property": "C270",
   "status": "proved",
   "theorems": [
    "PyV.Props.C270_best_return"
   ],
   "note": ""
  },
  {
   "property": "C271",
   "status": "proved",
   "theorems": [
    "PyV.Props.C271_risk",
    "PyV.Props.C271_idempotent",
    "PyV.Props.C271_symmetric_part"
   ],
   "note": ""
  },
  {
   "property": "C272",
   "status": "proved",
   "theorems": [
    "PyV.Props.C272_alike",
    "PyV.Props.C272_equal_weights"
   ],
   "note": ""
  },
  {
   "property": "C273",
   "status": "proved",
   "theorems": [
    "PyV.Props.C273_robust_frontier",
    "PyV.Props.C273_robust_gamma",
    "PyV.Props.C273_not_at_target"
   ],
   "note": ""
  },
  {
   "property": "C274",
   "status": "proved",
   "theorems": [
    "PyV.Props.C274_riskier"
   ],
   "note": ""
  },
  {
   "property": "C275",
   "status": "proved",
   "theorems": [
    "PyV.Props.C275_scenarios",
    "PyV.Props.C275_probabilities",
    "PyV.Props.C275_var_jumps"
   ],
   "note": ""
  },
  {
   "property": "C276",
   "status": "proved",
   "theorems": [
    "PyV.Props.C276_covariance_error",
    "PyV.Props.C276_mean_error"
   ],
   "note": ""
  },
  {
   "property": "C277",
   "status": "proved",
   "theorems": [
    "PyV.Props.C277_scenario_error"
   ],
   "note": ""
  },
  {
   "property": "C278",
   "status": "proved",
   "theorems": [
    "PyV.Props.C278_worst_case",
    "PyV.Props.C278_stress"
   ],
   "note": ""
  },
  {
   "property": "C279",
   "status": "proved",
   "theorems": [
    "PyV.Props.C279_moved",
    "PyV.Props.C279_pinsker",
    "PyV.Props.C279_stress"
   ],
   "note": ""
  },
  {
   "property": "C280",
   "status": "proved",
   "theorems": [
    "PyV.Props.C280_min_cvar",
    "PyV.Props.C280_frontier"
   ],
   "note": ""
  },
  {
   "property": "C281",
   "status": "partial",
   "theorems": [
    "PyV.Props.C281_diagonal_partial",
    "PyV.Props.C281_actual",
    "PyV.Props.C281_counterexample"
   ],
   "note": "false of the code for a non-diagonal uncertainty covariance (C281_counterexample: the cone is built from L'L instead of S = LL', so another portfolio has a better worst case); C281_actual: exactly what is optimised for every matrix (worst case over the ellipsoid of L'L); C281_diagonal_partial: the full claim for diagonal S"
  },
  {
   "property": "C282",
   "status": "proved",
   "theorems": [
    "PyV.Props.C282_longer",
    "PyV.Props.C282_level"
   ],
   "note": ""
  },
  {
   "property": "C283",
   "status": "proved",
   "theorems": [
    "PyV.Props.C283_min_cvar",
    "PyV.Props.C283_default"
   ],
   "note": ""
  },
  {
   "property": "C284",
   "status": "proved",
   "theorems": [
    "PyV.Props.C284_penalty"
   ],
   "note": ""
  },
  {
   "property": "C285",
   "status": "proved",
   "theorems": [
    "PyV.Props.C285_merge",
    "PyV.Props.C285_product",
    "PyV.Props.C285_blend"
   ],
   "note": ""
  },
  {
   "property": "C286",
   "status": "proved",
   "theorems": [
    "PyV.Props.C286_pooled",
    "PyV.Props.C286_exp_decay",
    "PyV.Props.C286_new_observation",
    "PyV.Props.C286_ewma"
   ],
   "note": ""
  },
  {
   "property": "C287",
   "status": "proved",
   "theorems": [
    "PyV.Props.C287_posterior",
    "PyV.Props.C287_round_trip"
   ],
   "note": ""
  },
  {
   "property": "C288",
   "status": "proved",
   "theorems": [
    "PyV.Props.C288_tilts",
    "PyV.Props.C288_untouched",
    "PyV.Props.C288_unique"
   ],
   "note": ""
  },
  {
   "property": "C289",
   "status": "proved",
   "theorems": [
    "PyV.Props.C289_impact",
    "PyV.Props.C289_proportional"
   ],
   "note": ""
  },
  {
   "property": "C290",
   "status": "proved",
   "theorems": [
    "PyV.Props.C290_history",
    "PyV.Props.C290_stays",
    "PyV.Props.C290_announces",
    "PyV.Props.C290_root"
   ],
   "note": ""
  },
  {
   "property": "C291",
   "status": "proved",
   "theorems": [
    "PyV.Props.C291_min_variance",
    "PyV.Props.C291_min_cvar",
    "PyV.Props.C291_min_cvar_risk",
    "PyV.Props.C291_admissible"
   ],
   "note": ""
  },
  {
   "property": "C292",
   "status": "proved",
   "theorems": [
    "PyV.Props.C292_exceptions",
    "PyV.Props.C292_determined"
   ],
   "note": ""
  },
  {
   "property": "C293",
   "status": "proved",
   "theorems": [
    "PyV.Props.C293_answers_iff_bounded",
    "PyV.Props.C293_bounded_return",
    "PyV.Props.C293_money_machine"
   ],
   "note": ""
  },
  {
   "property": "C294",
   "status": "proved",
   "theorems": [
    "PyV.Props.C294_market_line",
    "PyV.Props.C294_every_target",
    "PyV.Props.C294_all_cash"
   ],
   "note": ""
  },
  {
   "property": "C295",
   "status": "proved",
   "theorems": [
    "PyV.Props.C295_discrete_input",
    "PyV.Props.C295_normalize_weights",
    "PyV.Props.C295_average_exposures",
    "PyV.Props.C295_probabilities",
    "PyV.Props.C295_portfolio_var",
    "PyV.Props.C295_frontier",
    "PyV.Props.C295_scenario_probabilities",
    "PyV.Props.C295_optimiser_key",
    "PyV.Props.C295_trading_costs",
    "PyV.Props.C295_sample_moments",
    "PyV.Props.C295_ledoit_wolf",
    "PyV.Props.C295_poet_threshold",
    "PyV.Props.C295_simple_to_log",
    "PyV.Props.C295_exp_decay",
    "PyV.Props.C295_niw",
    "PyV.Props.C295_niw_update",
    "PyV.Props.C295_sigma1",
    "PyV.Props.C295_labelled_averages",
    "PyV.Props.C295_view_value",
    "PyV.Props.C295_column",
    "PyV.Props.C295_sampling",
    "PyV.Props.C295_square"
   ],
   "note": ""
  },
  {
   "property": "C296",
   "status": "proved",
   "theorems": [
    "PyV.Props.C296_frontier_iff"
   ],
   "note": ""
  },
  {
   "property": "C297",
   "status": "proved",
   "theorems": [
    "PyV.Props.C297_cvar_frontier_iff"
   ],
   "note": ""
  },
  {
   "property": "C298",
   "status": "proved",
   "theorems": [
    "PyV.Props.C298_var_many",
    "PyV.Props.C298_max_drawdown",
    "PyV.Props.C298_average_selected",
    "PyV.Props.C298_discrete_column",
    "PyV.Props.C298_compose_repricers",
    "PyV.Props.C298_plot_missing",
    "PyV.Props.C298_plot_grid_empty",
    "PyV.Props.C298_stress_test",
    "PyV.Props.C298_linear_map",
    "PyV.Props.C298_view_value",
    "PyV.Props.C298_view_asset",
    "PyV.Props.C298_prior_missing",
    "PyV.Props.C298_risk_aversion",
    "PyV.Props.C298_date_column",
    "PyV.Props.C298_wrap",
    "PyV.Props.C298_square",
    "PyV.Props.C298_scenario_inputs",
    "PyV.Props.C298_cost_lengths",
    "PyV.Props.C298_no_penalties",
    "PyV.Props.C298_relaxed_risk_parity",
    "PyV.Props.C298_graphical_lasso"
   ],
   "note": ""
  },
  {
   "property": "C299",
   "status": "proved",
   "theorems": [
    "PyV.Props.C299_entropy_pooling",
    "PyV.Props.C299_simulated_prior",
    "PyV.Props.C299_stressed_dictionary"
   ],
   "note": ""
  }
 ]
}