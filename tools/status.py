# property -> (status, note). Properties not listed: "proved" if a theorem exists.
STATUS = {
 "C08": ("proved", "exact MILP solver as hypothesis (MipOptimal); C08_optimum_exists shows it is attained"),
 "C09": ("partial", "false of the code for legs above 100%: C09_leverage_infeasible is the counterexample, C09_long_leg_capped its extent; proved for weights of size at most 100%"),
 "C25": ("partial", "false of the code: C25_counterexample (quantile step drops the mean rows), C25_corr_distortion gives the exact miss of correlation views; proved: mean (and pinned vol/var) views in simultaneous mode, mean views in sequential mode with one block, quantile views without CVaR views, the CVaR view applied last (C25_cvar_partial), and every volatility, variance, skewness or correlation view whose linearisation moments the solve left alone, in both modes (C25_higher_partial, C25_sequential_last_partial)"),
 "C27": ("partial", "false of the code: C27_counterexample (rank_mean inserts into the caller's dictionary); proved: unchanged without rank_mean or when all pairs are present, and never loses or alters entries"),
 "C26": ("proved", "for at least two columns; C26_single_column_fails shows one column is always rejected"),
 "C30": ("partial", "helpers: proved; a raw ('between', nan, nan) tuple is accepted (C30_raw_between_nan_accepted), so 'every accepted value has finite targets' holds only for helper-built values"),
 "C28": ("proved", "simultaneous mode, no quantile/CVaR views; entropy-pooling oracle assumed sound (EpSound, discharged per call by epOf_klPosterior)"),
 "C34": ("partial", "false of the code for a degenerate relative view (A, A): C34_counterexample; proved for absolute views and relative views on distinct assets"),
 "C37": ("partial", "false of the code for N=1 with a custom target (C37_counterexample: the estimate overshoots); proved for N>=2"),
 "C38": ("partial", "convex combination with intensity in [0,1] proved; 'shrinks' is false of the code: C38_no_shrinkage / C38_counterexample (intensity 0), and C38_single_asset_fails (N=1 always raises)"),
 "C41": ("partial", "false of the code: C41_counterexample shows every successful call returns trace = sample trace / N; C41_trace_partial gives the exact trace"),
 "C45": ("proved", "with the code's tolerance; C45_tolerance_gap shows the tolerance is real: some slightly indefinite matrices are returned unchanged"),
 "C54": ("proved", "C54_nan_accepted: a NaN percentile is not rejected and selects the first column"),
 "C55": ("partial", "monotone, convex, minorant of the running maximum proved; 'never above the running maximum' is false for tied top returns (C55_counterexample_tie), proved up to M*1e-12/g for returns at least g apart"),
 "C56": ("partial", "false for constraint specifications that produce no rows (C56_counterexample: replaced by the long-only default); proved for per-call constraints and for constructor constraints that exclude at least one vector"),
 "C46": ("proved", "non-negative weights as in the statement; C46_negative_accepted shows the code does not enforce the documented non-negativity"),
 "C48": ("proved", "QP solver assumed sound (SolverSound); C48_optimum_exists shows an optimum always exists"),
 "C50": ("partial", "false of the code for one specification (C50_counterexample); proved for two or more"),
 "C51": ("partial", "false of the code for min_risk with a risk label (C51_counterexample); proved for all other built-in selectors and any call history"),
 "C73": ("partial", "false of the code for repeated specification names (C73_counterexample); proved for distinct names"),
 "C77": ("partial", "false of the code: C77_counterexample (a positive vector whose sum is within 1e-5 but not 2^-26 of one is rejected by project_scenarios) and C77_negative_paths (simulate_paths accepts all-negative weights); proved for sums within 2^-26; the exact acceptance condition of both functions is C77_accepts_iff"),
 "C60": ("partial", "proved for the dates of the simulated path; the starting wealth 1 is not one of them (C60_counterexample: an immediate loss is not a drawdown)"),
 "C61": ("partial", "stress_test: proved (order invariance, rejection of missing and extra labels); false of scenario_pnl (C61_pnl_missing_nan) and of performance_report for extra labels (C61_extra_ignored); order invariance proved for all three"),
 "C62": ("partial", "false with entries below 1e-16 (C62_counterexample: negative value for different vectors); proved for every stressed vector when no nominal entry is below 1e-16; for arbitrary vectors C279_moved shows the reported number is at least -T * 1e-16"),
 "C81": ("partial", "false of the code with stress views (C81_counterexample: weights read by position); proved without views, and with views when the weights are labelled in instrument order (C81_in_order_partial: labels are then never read)"),
 "C83": ("partial", "false of the code when the number of instruments differs from the number of drivers (C83_counterexample, C83_broadcast); proved for equal numbers"),
 "C63": ("proved", "conjugacy proved against the normal-inverse-Wishart density; integer pseudo-counts as documented (C63_fractional_t0: 0 < t0 < 1 is accepted and then every update raises ZeroDivisionError)"),
 "C64": ("partial", "false of the code when the caller writes to the array returned by get_mu_ce (C64_counterexample); proved for all histories of method calls"),
 "C88": ("partial", "log units and default simple units proved; exact=True is false for horizons other than 1 (C88_counterexample)"),
 "C89": ("partial", "false of the code (C89_counterexample: sample labels are ignored); proved for samples listed in the prior's order and for rejection of inconsistent prior labels"),
 "C67": ("partial", "false of the code for a non-diagonal uncertainty matrix: C67_right_iff_diagonal, C67_counterexample (the cone uses L where the doc needs its transpose); C67_actual_objective states what is optimised, proved for diagonal matrices"),
 "C68": ("partial", "false of the code: C68_bounds_always_fail / C68_counterexample (right-hand sides are dropped), C68_negative_excess_is_worst (returns the worst Sharpe ratio when no excess return is positive); proved for homogeneous constraints and positive excess"),
 "C94": ("partial", "false of the code: C94_costs_always_fail, C94_wrapper (every such construction raises); C94_counterexample"),
 "C95": ("partial", "false of the code at lambda = 0, the first point of the default grid (C95_zero_lambda_risk_undetermined; C95_counterexample: a correct solver with which the API reports too large a risk); proved for lambda > 0"),
 "C97": ("partial", "false of the code for correlated assets (C97_counterexample); proved for diagonal covariance matrices, equal and unequal budgets"),
 "C98": ("partial", "false of the code when the user gives equalities without a budget row (C98_counterexample: every call with a target raises); proved otherwise"),
 "C74": ("proved", "array and labelled arguments; unique labels; argument types outside arrays/Series/DataFrames not modelled"),
 "C99": ("partial", "false of the code: C99_counterexample (mu alone, or cov alone, is accepted); C99_insufficient_partial: nothing at all is rejected"),
 "C101": ("partial", "array input fully proved (accepted iff positive, finite, at least two rows); false of the code for a DataFrame with an infinite price (C101_counterexample: accepted, a -100% scenario)"),
 "C102": ("proved", "any return_type string other than 'log' is treated as simple"),
 "C108": ("partial", "false of the code: C108_counterexample (log moments are minimised, simple moments reported); C108_log_moments_partial states what is minimised"),
 "C71": ("partial", "false of the code: C71_counterexample_raw (negative CVaRs are reported as absolute values, so the selector picks another column), C71_counterexample_mean (explicit mean orders the frontier differently from the optimised scenario mean); C71_min_risk_partial"),
 "C109": ("partial", "false of the code when the wrapper has an explicit mean differing from the scenario mean (C109_counterexample: reported return below the request); proved when they agree (the risk reported is the absolute value of the CVaR, see C71)"),
 "C103": ("partial", "simple and log moments, labels and the simple2log round trip proved; shape rejection proved for simple moments but false in log mode (C103_counterexample_broadcast: length-one mean broadcast; C103_counterexample_infinite: -inf accepted)"),
 "C104": ("proved", "stated as: every column solves a problem that does not mention the factor; equal weights when that problem has one solution"),
 "C110": ("partial", "false of the code for wrappers of log returns (C110_counterexample: reported returns decrease); everything else proved for all wrappers, with positive definite uncertainty matrix and no proportional costs (C94: those always fail)"),
 "C117": ("partial", "false of the code for wrappers of log returns (C117_counterexample: log units); at gamma_mu = 0 the reported risk is not determined (see C95); the rest proved"),
 "C111": ("partial", "totality and the error cases proved in full; 'never above the requested target' is false of the code (C111_counterexample: an explicit 5% target is silently raised to the 10% risk parity return); C111_result_partial, C111_attained and C111_raised state the target used"),
 "C112": ("proved", "the CVaR overlay is not modelled"),
 "C113": ("partial", "constructor: exact (iff). Methods: false of the code (C113_counterexample: length-one vectors are broadcast and accepted; C113_unused_ignored; CVXOPT TypeError instead of ValueError for proportional costs)"),
 "C72": ("partial", "optimiser dispatch and specifications of unconstrained simple-return wrappers proved; false of the code in general (C72_counterexample: make_ensemble_spec keeps only the distribution, dropping the wrapper's constraints; it also drops costs, return type and uncertainty matrix)"),
 "C120": ("partial", "false of the code when both conversion keys are present (C120_counterexample: log_to_simple and to_simple together raise ValueError); proved otherwise"),
 "C121": ("proved", "the estimator, preprocessing step and factory are arbitrary functions; indices with unique labels"),
 "C123": ("partial", "false of the code for different asset universes (C123_counterexample: a missing asset makes weights NaN); proved when every specification covers the same assets in any order"),
    "C125": ("partial", "Everything except 'the precision is sparse' is proved; that part is false: the unthresholded iterate is returned (C125_counterexample: a diagonal optimum, non-zero off-diagonal entry returned)."),
    "C126": ("partial", "false of the code: C126_counterexample (Huber/OAS and most other estimators ignore p: two different probability vectors, same output), C126_counterexample_single (N = 1 without p); proved for the sample estimators (C126_weighted_partial) and for omitting p when N > 1 (C126_equal_weights_partial)"),
    "C127": ("proved", "EWMA with span >= 1, Tyler with ensure_psd (its default); the nonlinear shrinkage and graphical lasso go through the documented oracles"),
    "C128": ("partial", "false of the code when T = N with Series probabilities (C128_counterexample_square: ValueError) and for ndarray scenarios with Series probabilities (C128_counterexample_array: assets get scenario labels or ValueError); C128_frame_partial, C128_array_weights"),
    "C130": ("partial", "false of the code in two points (C130_counterexample: pi, market_weights and prior_mean together are accepted; an array covariance without views accepts and returns a prior mean of any length); everything else proved; weights summing to zero give NaN in NumPy and an error in the model"),
    "C132": ("partial", "false of the code (C132_counterexample: float market weights are normalised in the caller's array); C132_unchanged_partial; only market_weights is ever written to, the other arguments are only read"),
    "C134": ("partial", "entries and fill rules proved for all inputs (C134_entries, C134_drop), compounding for complete positive prices (C134_complete_partial); false with a missing price (C134_counterexample: the default forward-fills *returns*, 21% becomes 33.1%) and non-positive prices are accepted (C134_counterexample_nonpositive)"),
    "C137": ("proved", "as the Args section documents; the Notes sentence that full frontier matrices are used without selections is false (C137_counterexample), and the module example exposure_stack_frontiers([a, b], L=3) always raises (C137_folds_bounded)"),
    "C144": ("partial", "false of the code: C144_counterexample (a mean labelled a, b with a covariance labelled b, a is accepted and read by position); C144_labels_partial: equal labels, or labels on one argument only"),
    "C145": ("proved", "for prior weights whose sum is one or differs from one by more than the normalisation's tolerance (weights within it are used unnormalised); ndarray or DataFrame scenarios with finite entries; at least two assets (C26: one asset always raises)"),
    "C146": ("proved", "the composition of C145 with C105/C106 and C114; constraints given explicitly, no trading costs"),
    "C148": ("partial", "false of the code: repriced values are stored in an array of the drivers' type, so integer drivers truncate them toward zero (C148_counterexample: drawdown 0 instead of 1 - 1/e; C148_losses_vanish: integer log returns <= 0 reprice to 0 at every step); proved for floating-point drivers (C148_floating_partial) and integer-valued repricing (C148_integer_values_partial)"),
    "C149": ("partial", "false of the code (C149_counterexample: weights are taken by position, labels are ignored; C149_positional); C149_same_order_partial: portfolios listed in column order"),
    "C150": ("proved", "strip() knows blank, tab and line ends; lower() the ASCII letters"),
    "C152": ("proved", "for an ndarray probability vector, or a Series when T differs from N (C128); pinv and nonlinshrink are assumed to respect reorderings (penrose_reorders: true of the Moore-Penrose inverse), eigen-solvers to decompose symmetric matrices"),
    "C153": ("proved", "the three excluded estimators group observations by position by design (C153_ewma_ordered)"),
    "C154": ("proved", "Huber (relative stopping rule), EWMA (about zero by design) and nonlinshrink (external) are outside; C154_oas_default: with its default assume_centered=True OAS does depend on the shift"),
    "C155": ("partial", "false of the code: C155_counterexample (constant-correlation Ledoit-Wolf: the rho term has the wrong homogeneity, so shrinkage vanishes or saturates depending on the units); absolute constants also break it for Jorion (1e-8 jitter), Huber, Tyler, POET and the graphical lasso; proved for sample, James-Stein and median-of-means means and sample, Ledoit-Wolf (identity), OAS and EWMA covariances"),
 "C156": ("proved", "acceptance for solvers that return; hand-written ('between', lo, hi) tuples with non-finite bounds raise in the model (the code only tests their order); distinct labels"),
 "C157": ("proved", "strictly positive probabilities summing to one, N != 1 (C26: one asset always raises)"),
 "C158": ("partial", "false of the code in one case: for a wrapper from a robust posterior the 'Volatility' of robust_lambda_frontier is that of log returns while its returns are simple (C158_counterexample); everything else proved; an indefinite return_cov gives NaN in NumPy and 0 in the model"),
 "C159": ("partial", "false of the code for log-return wrappers (C159_counterexample: log-return contributions over simple-return variance) and for dropped targets (C159_counterexample_clipped: target_clipped is False when the target is abandoned); C159_percentages_partial, C159_clipped_partial"),
 "C163": ("partial", "false of the code (C163_counterexample: the joined key 'A,B' of the module documentation is not found and confidence 1 is used, whatever was written); C163_keys_partial: confidences under the view's own key"),
 "C167": ("partial", "false of the code (C167_counterexample: a NaN weight, a NaN or +inf price and a NaN or +inf total_value are accepted); C167_accepts_iff is the exact acceptance condition over floats, C167_rejects_partial the part that holds (infinite weights, negative infinities; for finite inputs C07)"),
 "C172": ("partial", "false of the code (C172_counterexample: two unlabelled frontiers of one risk measure share a dictionary key, so only the last is drawn; the documented legend_policy='all' always raises); C172_grid_partial: when the names within a group are distinct"),
 "C173": ("partial", "false of the code (C173_counterexample: selection='tangency' always raises because the risk-free rate was popped; max_sharpe with another risk label marks a point off the curve; with weights supplied another portfolio is marked); C173_report_partial and C173_succeeds_partial for the other selections"),
 "C176": ("partial", "false of the code below three assets (C176_counterexample: the axes are the assets but are labelled PC1, PC2); C176_axes_partial, C176_shares_partial for three assets or more and a symmetric (positive semidefinite, non-zero) covariance; C176_scenarios in full"),
 "C179": ("partial", "false of the code (C179_counterexample: with two portfolios of least CVaR and different returns, one correct solver gives a frontier of several portfolios and another a single one, because the grid starts at the return of whichever minimiser the solver chose); C179_min_cvar in full, C179_frontier_partial (risks) and C179_returns_partial (returns) when the least-CVaR portfolios have equal returns"),
 "C182": ("partial", "false of the code (C182_counterexample: whether the frontier collapses to one portfolio is decided by np.isclose with its absolute tolerance 1e-8, so changing units changes the number of portfolios); C182_min_variance in full, C182_frontier_partial when neither frontier collapses"),
 "C183": ("proved", "the sort order and the solver's answer are assumed to be functions of the weights and of the programme (SortsByWeight, SolvesProgramme)"),
 "C185": ("partial", "false of the code (C185_counterexample: the absolute tolerance 1e-12 lets 10e-13 of cash buy an asset at 11e-13, while 10 does not buy one at 11); C185_currency_partial for prices and amounts that are whole numbers of a unit above 1e-12 in both currencies; greedy without fallback (C170 covers the modes)"),
 "C186": ("proved", "fallback disabled (C170 covers the other modes)"),
 "C188": ("partial", "false of the code for CVaR views (C188_counterexample: a CVaR view equal to the prior's own CVaR never gives back the prior, because the tail is forced to be a whole number of scenarios with probability exactly gamma); C188_satisfied_views_partial for all other views"),
 "C189": ("partial", "false of the code for CVaR views (C189_counterexample: each CVaR view is solved from the posterior of the previous one, so the last one wins); C189_view_order_partial: all other dictionaries may be shuffled, CVaR views in the same order"),
 "C192": ("partial", "false of the code for the rejection (C192_counterexample: an N x 1 array is broadcast and accepted as a covariance; likewise a 1 x c array for one instrument); values, shapes of results and coherence in full, C192_shapes_partial for the other shapes"),
 "C193": ("partial", "false of the code for the rejection (C193_counterexample: a probability vector with one entry is accepted for any number of scenarios); values and result shapes in full (VaR arrays have shape (1, M), CVaR arrays (M,)), C193_rejects_partial is the exact acceptance condition; ndarray weights"),
 "C203": ("partial", "false of the code (C203_counterexample: a one-row G without h is accepted, its bound is NaN); C203_rows_partial, C203_both, C203_roles, C203_moments, C203_held and C203_mean_variance in full otherwise"),
 "C204": ("partial", "false of the code (C204_counterexample: CVXOPT reads the inner lists as columns, so a square nested list is silently transposed); C204_array_partial for arrays"),
 "C205": ("partial", "false of the code for CVaR views (C205_counterexample: the tail is cut between scenarios and the cut index is clipped to at least 1, so the same view raises on two scenarios and returns the prior when each is listed twice); C205_same_law_partial and C205_copies_partial for all other views"),
 "C211": ("partial", "false of the code (C211_counterexample: float arrays passed as mean, covariance or scenarios are stored by reference, so a later assignment changes the frozen object and can even put NaN into it, and the estimated mean no longer matches the scenarios); C211_unchanged_partial for all histories that leave these three arrays alone, C211_own_fields: probabilities, names and estimated moments never change. In-place changes of pandas objects not modelled (what to_numpy shares depends on the pandas version)"),
 "C212": ("partial", "false of the code (C212_counterexample: projection is captured by reference and the constraints dictionary inside optimiser_kwargs is shared); C212_unchanged_partial: changes to mean_kwargs, cov_kwargs, optimiser_kwargs, selector_kwargs and metadata have no effect"),
 "C219": ("partial", "false of the code (C219_counterexample: the greedy allocator tolerates overspending by up to 1e-12 and so can buy a lot the mixed-integer programme must not); C219_never_worse_partial whenever the greedy allocation stays within the amount, C219_units: always so when prices and amount are whole numbers of a unit above 1e-12"),
    "C105": ("partial", "proved whenever the constraints limit something besides total weight and equality rows; false without any inequality: the linear program for the largest return is handed G=None, which CVXOPT rejects, so the frontier fails even where one portfolio is allowed (C105_counterexample)"),
    "C215": ("partial", "single-portfolio answers proved without restriction; the frontier is proved when both descriptions contain an inequality, and false otherwise: two descriptions of the same allowed portfolio, one without an inequality, of which only one has a frontier (C215_counterexample)"),
    "C222": ("partial", "false of the code (C222_counterexample: the stressed simulation is drawn with seed + 1, so the two rows differ by simulation noise even when the posterior is the prior); C222_next_seed_partial: the stressed row is then the nominal row of the next seed"),
    "C223": ("partial", "false of the code (C223_counterexample: with stress views a single driver or dict weights always raise); C223_accepts_partial: all other sound input, where the views are those a FlexibleViewsProcessor on the same history accepts"),
    "C225": ("partial", "false of the code for stacking (C225_counterexample: folds are consecutive blocks of the list, so four strategies 1, 2, 0, 0 stack into 1 unit or into 0 units depending on the order); C225_average_partial: the average never depends on the order; C225_leave_one_out_partial: nor does stacking with as many folds as strategies, up to the choice among optima"),
    "C226": ("partial", "false of the code (C226_counterexample: the cone uses L instead of its transpose, so two indistinguishable assets with correlated uncertainty get 2/13 and 11/13 according to the order in which they are listed); C226_diagonal_partial: true for diagonal uncertainty, a positive penalty and a fixed total weight"),
    "C227": ("partial", "false of the code for the covariance when the number of assets changes (C227_counterexample: the divisor nu + N + 1 counts the assets, so an asset's posterior variance is 20/22 alone and 20/23 in company); C227_portfolios_partial: posterior mean and mean uncertainty always commute with forming portfolios, the covariance up to the stated factor; C227_units_and_order: everything commutes with units and order"),
    "C230": ("partial", "false of the code for skew views (C230_counterexample: the view raises in large units because the variance is compared with the absolute number 1e-12); C230_units_partial: true when no asset with a skew view gets smaller numbers"),
    "C241": ("partial", "false of the code for fallback_kwargs (C241_counterexample: in the default mode every long-only call succeeds, whatever names fallback_kwargs contains, because the fallback is only tried when short positions occur or its failure is swallowed); C241_milp in full; C241_greedy_partial: everything else, the names in fallback_kwargs being known ones"),
    "C242": ("partial", "false of the code for correlated assets (C242_counterexample: the cone uses L instead of its transpose, so two assets with volatilities 1 and 4 and correlation 4/5 get different portfolios according to which is listed first); C242_diagonal_partial: true for uncorrelated assets"),
    "C245": ("partial", "false of the code for targets in units in which returns are tiny numbers (C245_counterexample: the target is clipped by the absolute number 1e-8, so in a unit in which the greatest return is 1e-8 a target is dropped); C245_units_partial: true without target, or when the greatest return is at least 1e-5 in both units"),
    "C248": ("partial", "false of the code for the first view (C248_counterexample: without views the covariance is the prior one, with views the uncertainty about the mean is added); C248_firmer_partial: true whenever there already is a view"),
    "C250": ("partial", "false of the code for frontiers whose returns are large numbers (C250_counterexample: np.isclose compares returns relative to their level, so a frontier collapses); C250_frontier_partial: true when neither frontier collapses; single portfolios and robust methods fully proved"),
    "C252": ("partial", "false of the code for budgets whose total is within np.isclose of one but not one (C252_counterexample: they are used unnormalised); C252_scale_partial, C252_default_partial: true for all other budgets"),
    "C253": ("partial", "false of the code when mean and covariance list the assets in different orders (C253_counterexample: moments are paired by position); containers and numbers fully proved, C253_by_label_partial for agreeing orders"),
    "C268": ("partial", "false of the code when the posterior is fed straight back (C268_counterexample: the returned covariance contains the uncertainty about the mean, which then counts twice: 2/3 instead of 1/2); C268_instalments_partial: exact when the prior covariance is subtracted first and tau is one"),
    "C281": ("partial", "false of the code for a non-diagonal uncertainty covariance (C281_counterexample: the cone is built from L'L instead of S = LL', so another portfolio has a better worst case); C281_actual: exactly what is optimised for every matrix (worst case over the ellipsoid of L'L); C281_diagonal_partial: the full claim for diagonal S"),
    "C269": ("partial", "false of the code for weights that pass the 1e-8 filter before normalisation but not after (C269_counterexample: an asset is lost); C269_rebuild_iff: true exactly when every stored weight is above 1e-8"),
}
