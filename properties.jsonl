{"id": "C01", "title": "Greedy allocator always terminates", "statement": "allocate_greedy / discretize_weights(method='greedy') finishes for every accepted long-only input and every max_iterations: its top-up loop runs at most max_iterations purchases plus one pass per asset.", "quantifier": "all accepted long-only inputs, all asset counts, all max_iterations, all orderings of tied weights", "why_tests_cant": "a non-terminating input is one point of an infinite space; a test that passes only shows termination of the inputs it ran", "anchors": ["pyvallocation/discrete_allocation.py:allocate_greedy"]}
{"id": "C02", "title": "Greedy never overspends and never raises the overspend error", "statement": "For every accepted long-only input the greedy allocation costs at most total_value (plus the loop's 1e-12 slack), the returned leftover_cash is non-negative, and the 'Allocation exceeded available funds' RuntimeError cannot be raised by the greedy path.", "quantifier": "all accepted long-only inputs and iteration caps (exact arithmetic)", "why_tests_cant": "an overspend needs a particular combination of prices, lots and weights; tests cannot enumerate them", "anchors": ["pyvallocation/discrete_allocation.py:allocate_greedy", "pyvallocation/discrete_allocation.py:_build_result"]}
{"id": "C03", "title": "Cash is conserved", "statement": "In every returned DiscreteAllocationResult, leftover_cash plus the market value of the reported shares equals total_value (within the 1e-8 noise guard), achieved_weights are market value / total_value, and tracking_error is the L1 distance between normalised target weights and achieved weights.", "quantifier": "all share vectors, all prices and totals, both allocators", "why_tests_cant": "an accounting identity over all real inputs", "anchors": ["pyvallocation/discrete_allocation.py:_build_result"]}
{"id": "C04", "title": "Whole non-negative lots", "statement": "Every share count returned by the greedy allocator is a non-negative integer multiple of that asset's lot size (missing lot sizes count as 1), and assets absent from the result dict hold zero shares.", "quantifier": "all accepted long-only inputs", "why_tests_cant": "quantifies over every loop history", "anchors": ["pyvallocation/discrete_allocation.py:allocate_greedy", "pyvallocation/discrete_allocation.py:_lot_sizes_to_series"]}
{"id": "C05", "title": "Greedy rounding error is below one lot per asset", "statement": "After the greedy allocator, each asset's market value differs from weight*total_value by less than the cost of one lot; hence tracking_error is below (sum of lot costs)/total_value.", "quantifier": "all accepted long-only inputs, all iteration caps", "why_tests_cant": "an error bound over all inputs and all loop histories", "anchors": ["pyvallocation/discrete_allocation.py:allocate_greedy"]}
{"id": "C06", "title": "Greedy leaves no affordable underweight asset", "statement": "Unless the iteration cap was hit, when the greedy loop stops every asset that is still underweight by more than 1e-12 has a lot cost exceeding the remaining cash.", "quantifier": "all accepted long-only inputs", "why_tests_cant": "a maximality claim: needs every exit path of the loop", "anchors": ["pyvallocation/discrete_allocation.py:allocate_greedy"]}
{"id": "C07", "title": "Input validation and weight normalisation", "statement": "DiscreteAllocationInput accepts exactly: non-empty series, a price for each weight label, at least one weight with |w|>1e-8, strictly positive prices for kept labels, total_value>0, positive lot sizes and a positive weight sum; accepted weights sum to 1 and keep the proportions of the kept input weights.", "quantifier": "all weight/price/lot mappings", "why_tests_cant": "an iff over an infinite input space", "anchors": ["pyvallocation/discrete_allocation.py:DiscreteAllocationInput.__post_init__", "pyvallocation/discrete_allocation.py:_to_series"]}
{"id": "C08", "title": "MILP allocator is L1-optimal for long-only targets", "statement": "With an exact MILP solver, allocate_mip on a long-only input returns an allocation that minimises (dollar L1 tracking error + cash_penalty*leftover cash) over all non-negative whole-lot allocations costing at most total_value (max_cash unset): the variable bounds and the auxiliary variables cut off no affordable allocation.", "quantifier": "all accepted long-only inputs, all non-negative cash penalties, all competing allocations", "why_tests_cant": "optimality is a universally quantified claim over competitors", "anchors": ["pyvallocation/discrete_allocation.py:allocate_mip"]}
{"id": "C09", "title": "MILP allocator honours leveraged long targets", "statement": "For inputs with shorts (net weight one, a long leg above 100%) allocate_mip can reach the integer allocation closest to the target.", "quantifier": "all long/short inputs", "why_tests_cant": "the failing region is a set of inputs, not a single case", "anchors": ["pyvallocation/discrete_allocation.py:allocate_mip"]}
{"id": "C10", "title": "Constraint matrices mean what the user asked", "statement": "For every Constraints specification accepted by build_G_h_A_b, a weight vector w satisfies G w <= h and A w = b iff it satisfies, literally: w>=0 when long_only, the per-asset lower/upper bounds, every relative bound w_i - w_j <= k, every group bound, every additional row, and the total weight.", "quantifier": "all constraint specifications, all n, all weight vectors", "why_tests_cant": "feasible-set equality over all vectors", "anchors": ["pyvallocation/utils/constraints.py:build_G_h_A_b", "pyvallocation/utils/constraints.py:Constraints"]}
{"id": "C11", "title": "Invalid constraint specifications are rejected", "statement": "build_G_h_A_b raises exactly when n_assets is not positive, a bound index is out of range, a lower bound exceeds its upper bound, a relative bound has i=j or an out-of-range index, a group index is out of range, or an additional row has the wrong width.", "quantifier": "all constraint specifications", "why_tests_cant": "an iff over all inputs", "anchors": ["pyvallocation/utils/constraints.py:build_G_h_A_b"]}
{"id": "C12", "title": "portfolio_cvar is the Rockafellar-Uryasev CVaR", "statement": "portfolio_cvar(e, R, p, confidence) equals the minimum over c of c + E[(loss-c)+]/(1-confidence), for every scenario matrix, probability vector and confidence in (0,1).", "quantifier": "all scenario counts, returns, probabilities, confidences", "why_tests_cant": "optimality over all thresholds c and all distributions", "anchors": ["pyvallocation/utils/functions.py:portfolio_cvar"]}
{"id": "C13", "title": "CVaR dominates VaR and both bracket the losses", "statement": "For the same inputs min loss <= VaR <= CVaR <= max loss, and VaR is a (1-confidence)-quantile: P(return < -VaR) < = 1-confidence <= P(return <= -VaR).", "quantifier": "all distributions and confidences", "why_tests_cant": "inequality over all distributions", "anchors": ["pyvallocation/utils/functions.py:portfolio_cvar", "pyvallocation/utils/functions.py:portfolio_var"]}
{"id": "C14", "title": "CVaR is a coherent risk measure", "statement": "portfolio_cvar is positively homogeneous and subadditive in the exposures, translation-equivariant in the P&L, and monotone in the P&L; it is non-decreasing in the confidence level.", "quantifier": "all exposures, scenario matrices, probabilities", "why_tests_cant": "functional inequalities over all pairs of portfolios", "anchors": ["pyvallocation/utils/functions.py:portfolio_cvar"]}
{"id": "C15", "title": "Risk numbers do not depend on scenario order", "statement": "Permuting the scenarios together with their probabilities leaves portfolio_var and portfolio_cvar unchanged.", "quantifier": "all permutations", "why_tests_cant": "all S! permutations of all inputs", "anchors": ["pyvallocation/utils/functions.py:portfolio_cvar", "pyvallocation/utils/functions.py:portfolio_var"]}
{"id": "C16", "title": "normalize_probability_vector contract", "statement": "On success the returned vector has the input's length, is non-negative (strictly positive when requested), is the input rescaled, and sums to one within 1e-5+1e-8 (exactly one whenever the input sum was outside that tolerance); it raises exactly on empty, non-finite, negative (or non-positive) input or non-positive total.", "quantifier": "all vectors including NaN and infinities", "why_tests_cant": "an iff over all float vectors", "anchors": ["pyvallocation/probabilities.py:normalize_probability_vector"]}
{"id": "C17", "title": "Exponential decay half-life", "statement": "generate_exp_decay_probabilities(T, half_life) returns T positive probabilities summing to one, strictly increasing in time, with the weight doubling every half_life observations, and rejects non-positive half lives.", "quantifier": "all T, all half lives", "why_tests_cant": "all lengths and decay rates", "anchors": ["pyvallocation/probabilities.py:generate_exp_decay_probabilities"]}
{"id": "C18", "title": "Gaussian kernel probabilities favour the nearest states", "statement": "generate_gaussian_kernel_probabilities returns positive probabilities summing to one and a scenario closer to the target state never gets a smaller probability: probabilities are in the ratio of normal densities with the bandwidth as standard deviation, by default Silverman's 1.06 sd n^(-1/5).", "quantifier": "all state series, bandwidths, targets", "why_tests_cant": "ordering claim over all pairs of scenarios", "anchors": ["pyvallocation/probabilities.py:generate_gaussian_kernel_probabilities"]}
{"id": "C19", "title": "Effective number of scenarios is between 1 and S", "statement": "compute_effective_number_scenarios (entropy) lies in [1,S], equals S exactly for uniform probabilities, equals 1 exactly for a point mass; the Herfindahl variant 1/sum p^2 lies in [1,S] and never exceeds the entropy variant.", "quantifier": "all probability vectors", "why_tests_cant": "analytic inequality over the simplex", "anchors": ["pyvallocation/probabilities.py:compute_effective_number_scenarios"]}
{"id": "C20", "title": "Entropy pooling returns a probability vector", "statement": "Whenever entropy_pooling returns, the posterior is strictly positive and sums exactly to one, whatever multipliers the optimiser stopped at.", "quantifier": "all priors, constraint systems and optimiser outcomes", "why_tests_cant": "all optimiser outcomes, not only converged ones", "anchors": ["pyvallocation/views.py:entropy_pooling"]}
{"id": "C21", "title": "Entropy pooling is KL-optimal", "statement": "If the optimiser stops at a local minimiser of the dual objective over its multiplier box (inequality multipliers >= 0) with no exponent on the +-700 clip, the posterior satisfies every equality and inequality view and has the smallest Kullback-Leibler divergence from the prior among all distributions satisfying the views.", "quantifier": "all priors, views with a sum-to-one row, and competing distributions", "why_tests_cant": "optimality against every competing distribution", "anchors": ["pyvallocation/views.py:entropy_pooling", "pyvallocation/views.py:_entropy_pooling_dual_objective"]}
{"id": "C22", "title": "Dual gradient is the derivative of the dual objective", "statement": "The gradient handed to the optimiser is the exact derivative of the objective handed to it, in every coordinate, as long as no exponent hits the +-700 clip.", "quantifier": "all multipliers, priors and constraint matrices", "why_tests_cant": "derivative identity at every point", "anchors": ["pyvallocation/views.py:_entropy_pooling_dual_objective"]}
{"id": "C23", "title": "View operators are encoded with the right direction", "statement": "A posterior satisfies the constraint rows generated for a set of mean views iff it satisfies each view literally: equality, >=, <=, between, and relative views E[A]-E[B]; strict operators are treated as their non-strict versions.", "quantifier": "all scenario matrices, view dictionaries and distributions", "why_tests_cant": "iff over all distributions", "anchors": ["pyvallocation/views.py:FlexibleViewsProcessor._build_constraints", "pyvallocation/views.py:FlexibleViewsProcessor._parse_view_specs"]}
{"id": "C24", "title": "Volatility, variance, skewness and correlation views are met when lower moments are", "statement": "A distribution that satisfies the generated rows and whose mean (and variance) at the viewed assets equals the linearisation point has exactly the requested volatility/variance/skewness/correlation; in general the realised variance differs from the target by exactly mu_lin^2 - mu_post^2.", "quantifier": "all scenario matrices, targets, distributions", "why_tests_cant": "moment identities over all distributions", "anchors": ["pyvallocation/views.py:FlexibleViewsProcessor._build_constraints"]}
{"id": "C25", "title": "All stated views hold in the final posterior", "statement": "When views are jointly satisfiable, the posterior returned by FlexibleViewsProcessor satisfies all of them.", "quantifier": "all combinations of view blocks", "why_tests_cant": "depends on combinations of view kinds and on the solver path", "anchors": ["pyvallocation/views.py:FlexibleViewsProcessor._compute_posterior_probabilities"]}
{"id": "C26", "title": "No views means prior", "statement": "With no views at all the posterior probabilities are the prior probabilities, unchanged.", "quantifier": "all priors", "why_tests_cant": "identity for all priors", "anchors": ["pyvallocation/views.py:FlexibleViewsProcessor._compute_posterior_probabilities"]}
{"id": "C27", "title": "Constructing a views processor does not modify the caller's views", "statement": "Building FlexibleViewsProcessor leaves the mean_views dictionary passed by the caller unchanged, so the same dictionary can be reused.", "quantifier": "all dictionaries and rank lists", "why_tests_cant": "aliasing: visible only in the history of calls", "anchors": ["pyvallocation/views.py:FlexibleViewsProcessor.__init__"]}
{"id": "C28", "title": "rank_mean yields a ranking", "statement": "Any posterior satisfying the rows generated for rank_mean=[a1..ak] (no explicit view on those pairs) has E[a1]>=E[a2]>=...>=E[ak].", "quantifier": "all rankings of any length", "why_tests_cant": "chain of any length", "anchors": ["pyvallocation/views.py:FlexibleViewsProcessor.__init__"]}
{"id": "C29", "title": "CVaR view rows pin the tail", "statement": "A distribution satisfying the rows the CVaR-view solver builds for cut index s puts probability gamma on the s+1 worst scenarios and has conditional mean cvar_target there, so portfolio_cvar at confidence 1-gamma equals -cvar_target; the Newton search performs at most max_newton_iter rounds and never returns a candidate with larger KL than its first solvable one.", "quantifier": "all scenarios, gammas, targets, solver outcomes", "why_tests_cant": "search histories and all distributions", "anchors": ["pyvallocation/views.py:FlexibleViewsProcessor._solve_cvar_view"]}
{"id": "C30", "title": "Range and target helpers validate", "statement": "at_least/at_most/above/below/between accept exactly finite numbers (with lo<=hi for between) and are interpreted as the corresponding inequality; every accepted view value yields only finite targets.", "quantifier": "all floats including NaN and infinities", "why_tests_cant": "NaN/inf corners over all floats", "anchors": ["pyvallocation/views.py:between", "pyvallocation/views.py:FlexibleViewsProcessor._parse_view", "pyvallocation/views.py:FlexibleViewsProcessor._parse_view_specs"]}
{"id": "C31", "title": "Black-Litterman mean is the Bayesian posterior mean", "statement": "With Sigma, Omega positive definite and tau>0 the returned posterior mean satisfies the mixed-estimation normal equations ((tau Sigma)^-1 + P' Omega^-1 P) mu = (tau Sigma)^-1 pi + P' Omega^-1 Q, i.e. it is the Gaussian posterior mean.", "quantifier": "all dimensions, view counts, covariances", "why_tests_cant": "matrix identity for all sizes", "anchors": ["pyvallocation/views.py:BlackLittermanProcessor._compute_posterior"]}
{"id": "C32", "title": "Black-Litterman covariance is between Sigma and (1+tau) Sigma", "statement": "The returned posterior covariance is symmetric and lies, in the positive semidefinite order, between Sigma and (1+tau) Sigma; in particular it is positive semidefinite.", "quantifier": "all dimensions, PSD covariances, PSD Omega with invertible view covariance", "why_tests_cant": "matrix inequality for all sizes", "anchors": ["pyvallocation/views.py:BlackLittermanProcessor._compute_posterior"]}
{"id": "C33", "title": "Idzorek confidence is the tilt fraction", "statement": "For a single view with confidence c (1e-6<=c<=1-1e-6), omega='idzorek', idzorek_use_tau=True, the posterior view return moves exactly the fraction c from the prior view return towards the target; with tiny or full confidence it is clipped to 1e-6 / 1-1e-6.", "quantifier": "all covariances, views, confidences", "why_tests_cant": "identity over all inputs", "anchors": ["pyvallocation/views.py:BlackLittermanProcessor._build_omega", "pyvallocation/views.py:BlackLittermanProcessor._compute_posterior"]}
{"id": "C34", "title": "Black-Litterman pick matrix encodes the views", "statement": "Row k of P applied to a mean vector gives mu_i for an absolute view on i and mu_i - mu_j for a relative view (i,j).", "quantifier": "all view dictionaries and mean vectors", "why_tests_cant": "all keys and vectors", "anchors": ["pyvallocation/views.py:BlackLittermanProcessor._build_views"]}
{"id": "C35", "title": "Sample covariance is a genuine covariance", "statement": "estimate_sample_moments returns a mean that is the p-weighted average, and a symmetric positive semidefinite covariance equal to E[RR'] - mu mu', unchanged by adding a constant vector to all scenarios.", "quantifier": "all T, N, scenario matrices, probabilities", "why_tests_cant": "PSD is a claim over all directions", "anchors": ["pyvallocation/moments.py:estimate_sample_moments"]}
{"id": "C36", "title": "Jorion shrinkage stays between the sample mean and the GMV mean", "statement": "shrink_mean_jorion returns, coordinate-wise, a convex combination of the sample mean and the common minimum-variance mean, leaving the minimum-variance portfolio's expected return unchanged.", "quantifier": "all means, PD covariances, T>0, N>2", "why_tests_cant": "all inputs", "anchors": ["pyvallocation/moments.py:shrink_mean_jorion"]}
{"id": "C37", "title": "James-Stein shrinkage moves towards the target, never past either end", "statement": "shrink_mean_james_stein returns target + s*(mu-target) with s in [0,1].", "quantifier": "all means, covariances, targets", "why_tests_cant": "all dimensions", "anchors": ["pyvallocation/moments.py:shrink_mean_james_stein"]}
{"id": "C38", "title": "Ledoit-Wolf returns a convex combination and actually shrinks", "statement": "shrink_covariance_ledoit_wolf returns delta*F+(1-delta)*S with delta in [0,1], hence PSD for PSD inputs with the identity target; and it shrinks a noisy sample covariance.", "quantifier": "all return matrices", "why_tests_cant": "all inputs", "anchors": ["pyvallocation/moments.py:shrink_covariance_ledoit_wolf"]}
{"id": "C39", "title": "OAS is a trace-preserving convex combination", "statement": "For N>=2 shrink_covariance_oas uses an intensity in [0,1], preserves the trace (average variance) and positive semidefiniteness before the PSD guard.", "quantifier": "all return matrices, T>=1, N>=2", "why_tests_cant": "all inputs", "anchors": ["pyvallocation/moments.py:shrink_covariance_oas"]}
{"id": "C40", "title": "EWMA covariance weights", "statement": "covariance_ewma equals sum_t w_t r_t r_t' with weights lambda^(T-1) on the first row and (1-lambda)lambda^(T-1-t) on row t; the weights sum to one, and for span>=1 the matrix is PSD.", "quantifier": "all T>=1, N, spans", "why_tests_cant": "closed form for every T by induction", "anchors": ["pyvallocation/moments.py:covariance_ewma"]}
{"id": "C41", "title": "Tyler estimator preserves total variance", "statement": "robust_covariance_tyler rescales its scatter matrix so that its trace equals the sample trace.", "quantifier": "all inputs on which the loop runs", "why_tests_cant": "all iterates", "anchors": ["pyvallocation/moments.py:robust_covariance_tyler"]}
{"id": "C42", "title": "POET preserves variances and thresholding only shrinks", "statement": "factor_covariance_poet leaves the diagonal (sample variances) unchanged before the PSD guard, reproduces the sample covariance exactly at threshold 0 for any number of factors, and soft-thresholding never increases or sign-flips an off-diagonal residual.", "quantifier": "all return matrices, k, thresholds", "why_tests_cant": "all inputs", "anchors": ["pyvallocation/moments.py:factor_covariance_poet", "pyvallocation/moments.py:_soft_threshold"]}
{"id": "C43", "title": "Robust means stay in the data range and follow shifts", "statement": "robust_mean_huber and robust_mean_median_of_means return, per asset, a value between that asset's smallest and largest observation, and shift by c when all observations shift by c (median of means; same permutation).", "quantifier": "all data, all permutations, block counts, iteration counts", "why_tests_cant": "all iterates and permutations", "anchors": ["pyvallocation/moments.py:robust_mean_huber", "pyvallocation/moments.py:robust_mean_median_of_means"]}
{"id": "C44", "title": "Median-of-means blocks partition the sample", "statement": "The blocks are disjoint, non-empty, cover every observation exactly once and differ in size by at most one; one block gives the plain mean.", "quantifier": "all T>=1 and block counts", "why_tests_cant": "all sizes", "anchors": ["pyvallocation/moments.py:robust_mean_median_of_means"]}
{"id": "C45", "title": "PSD guard repairs any symmetric matrix", "statement": "For every square input (given exact eigenvalues) ensure_psd_matrix returns a symmetric matrix that is positive semidefinite up to its tolerance (quadratic form at least -jitter*||x||^2), returns the symmetrised input unchanged when it is already positive semidefinite, and otherwise moves only the diagonal, by one common non-negative amount.", "quantifier": "all square matrices", "why_tests_cant": "all directions and matrices", "anchors": ["pyvallocation/utils/validation.py:ensure_psd_matrix"]}
{"id": "C46", "title": "Averaged exposures are convex combinations", "statement": "average_exposures with non-negative weights returns, per asset, a value between the smallest and largest sample exposure; linear constraints (budget, bounds, groups) satisfied by all samples are satisfied by the average.", "quantifier": "all sample matrices and weights", "why_tests_cant": "all convex constraint systems", "anchors": ["pyvallocation/ensembles.py:average_exposures", "pyvallocation/utils/weights.py:normalize_weights"]}
{"id": "C47", "title": "Stacking folds partition the samples", "statement": "exposure_stacking's L folds are disjoint, cover every sample exactly once, and are non-empty for every 2<=L<=num_samples; other L are rejected.", "quantifier": "all sample counts and L", "why_tests_cant": "all sizes", "anchors": ["pyvallocation/ensembles.py:exposure_stacking"]}
{"id": "C48", "title": "Stacking solves the documented cross-validation problem", "statement": "The QP assembled by exposure_stacking has objective equal, up to a constant, to the sum over folds of the squared distance between the fold mean and the combination of the remaining samples, and its result is a convex combination of the samples.", "quantifier": "all sample matrices, L", "why_tests_cant": "objective identity for all stacking weights", "anchors": ["pyvallocation/ensembles.py:exposure_stacking"]}
{"id": "C49", "title": "Solver options are always restored", "statement": "After exposure_stacking (or any use of the temporary-option context) the global solver option dictionary equals what it was before, whether the body succeeded or raised.", "quantifier": "all option dictionaries, all bodies, all exception points", "why_tests_cant": "every crash point", "anchors": ["pyvallocation/ensembles.py:_temporary_solver_options"]}
{"id": "C50", "title": "Default ensemble works for a single specification", "statement": "assemble_portfolio_ensemble with default arguments succeeds for any non-empty list of specifications.", "quantifier": "all specification counts", "why_tests_cant": "boundary over all counts", "anchors": ["pyvallocation/ensembles.py:assemble_portfolio_ensemble", "pyvallocation/ensembles.py:_determine_stack_folds", "pyvallocation/ensembles.py:exposure_stacking"]}
{"id": "C51", "title": "Selectors are reusable", "statement": "A frontier selector built from a specification returns the same portfolio each time it is called on the same frontier.", "quantifier": "all call histories", "why_tests_cant": "state across calls", "anchors": ["pyvallocation/ensembles.py:_build_selector"]}
{"id": "C52", "title": "Frontier selection picks the extremal portfolio", "statement": "min_risk / max_return / tangency return the first portfolio on the frontier whose risk / return / (finite) Sharpe ratio is extremal, and report that same portfolio's weights, return and risk.", "quantifier": "all frontiers", "why_tests_cant": "argmin/argmax over all frontiers", "anchors": ["pyvallocation/portfolioapi.py:PortfolioFrontier.min_risk", "pyvallocation/portfolioapi.py:PortfolioFrontier.max_return", "pyvallocation/portfolioapi.py:PortfolioFrontier.tangency"]}
{"id": "C53", "title": "at_risk respects the risk cap and at_return the return floor", "statement": "at_risk(r) returns the highest-return portfolio among those with risk <= r, at_return(m) the lowest-risk portfolio among those with return >= m, closest_risk the one whose risk is nearest the target; the first two raise InfeasibleOptimizationError exactly when no portfolio qualifies.", "quantifier": "all frontiers and thresholds", "why_tests_cant": "all thresholds", "anchors": ["pyvallocation/portfolioapi.py:PortfolioFrontier.at_risk", "pyvallocation/portfolioapi.py:PortfolioFrontier.at_return", "pyvallocation/portfolioapi.py:PortfolioFrontier.closest_risk"]}
{"id": "C54", "title": "Risk percentiles rank portfolios", "statement": "Risk percentiles lie in [0,1], order portfolios as their risks do, reach 0 and 1, and percentile inputs in (1,100] are read as percent.", "quantifier": "all frontiers and percentiles", "why_tests_cant": "all sizes", "anchors": ["pyvallocation/portfolioapi.py:PortfolioFrontier.risk_percentiles", "pyvallocation/portfolioapi.py:PortfolioFrontier._normalize_percentile", "pyvallocation/portfolioapi.py:PortfolioFrontier.at_percentile"]}
{"id": "C55", "title": "CVaR frontier envelope is monotone and convex", "statement": "The post-processing of cvar_frontier returns risks that, sorted by return, are non-decreasing and lie on the lower convex envelope of the solved points (never above the running maximum, never below a solved point's envelope).", "quantifier": "all solver outputs", "why_tests_cant": "all point sets", "anchors": ["pyvallocation/portfolioapi.py:PortfolioWrapper.cvar_frontier"]}
{"id": "C56", "title": "Constructor constraints are honoured", "statement": "Constraints given to the PortfolioWrapper are the ones used by its optimisers.", "quantifier": "all constraint specifications", "why_tests_cant": "all specifications", "anchors": ["pyvallocation/portfolioapi.py:PortfolioWrapper._resolve_constraints"]}
{"id": "C57", "title": "Return conversions invert each other", "statement": "simple<->compound scenario conversion and log<->simple moment conversion are mutually inverse on their domains, and the converted covariance is symmetric.", "quantifier": "all vectors/matrices in the domain", "why_tests_cant": "round trip over all reals", "anchors": ["pyvallocation/utils/projection.py:convert_scenarios_compound_to_simple", "pyvallocation/utils/projection.py:log2simple", "pyvallocation/utils/projection.py:simple2log"]}
{"id": "C58", "title": "Scenario projection and path simulation agree", "statement": "For the same drawn indices the cumulative path at step h equals the projected h-step sum, and every projected scenario is the sum of exactly `horizon` drawn scenario rows.", "quantifier": "all horizons, scenario matrices, draws", "why_tests_cant": "all horizons", "anchors": ["pyvallocation/utils/projection.py:project_scenarios", "pyvallocation/utils/projection.py:simulate_paths"]}
{"id": "C59", "title": "Repricing of a zero move is zero P&L", "statement": "A function built by make_repricing_fn returns zero P&L for a zero risk-driver move; compose_repricers feeds each instrument exactly the columns of the drivers it names, in order, and so returns zero for a zero move whenever each instrument's own function does; it fails exactly when a driver is missing or a specification is malformed.", "quantifier": "all portfolios of repricers", "why_tests_cant": "all compositions", "anchors": ["pyvallocation/utils/projection.py:make_repricing_fn", "pyvallocation/utils/projection.py:compose_repricers"]}
{"id": "C60", "title": "Drawdowns are fractions and zero only for monotone wealth", "statement": "For positive wealth paths each reported drawdown is in [0,1); max drawdown is 0 iff wealth never falls below an earlier value.", "quantifier": "all wealth paths", "why_tests_cant": "all paths", "anchors": ["pyvallocation/utils/performance.py:drawdown_quantile"]}
{"id": "C61", "title": "Scenario P&L aligns labels", "statement": "scenario_pnl and stress_test give the same result for any reordering of the weights' labels, and reject missing or extra labels.", "quantifier": "all label permutations", "why_tests_cant": "all permutations", "anchors": ["pyvallocation/stress.py:_align_weights", "pyvallocation/utils/performance.py:scenario_pnl"]}
{"id": "C62", "title": "Reported KL divergence is non-negative", "statement": "The KL divergence reported by stress_test between posterior and nominal probabilities is non-negative and zero iff the probabilities coincide (no entry below 1e-16).", "quantifier": "all probability vectors", "why_tests_cant": "analytic inequality", "anchors": ["pyvallocation/stress.py:_kl_divergence"]}
{"id": "C63", "title": "NIW update is the conjugate posterior", "statement": "NIWPosterior.update yields T1=t0+n, nu1=nu0+n, a posterior mean that is the T-weighted average of prior and sample mean, and a posterior scale matrix that is symmetric PSD whenever prior and sample covariances are.", "quantifier": "all dimensions and parameters", "why_tests_cant": "all sizes; PSD in all directions", "anchors": ["pyvallocation/bayesian.py:NIWPosterior.update"]}
{"id": "C64", "title": "NIW life cycle", "statement": "Posterior getters raise before update and are stable after it; a second update raises and leaves the posterior unchanged.", "quantifier": "all call sequences", "why_tests_cant": "all call histories", "anchors": ["pyvallocation/bayesian.py:NIWPosterior"]}
{"id": "C65", "title": "Jittered Cholesky retry is bounded", "statement": "_cholesky_pd calls the factorisation at most seven times, returns a factor of A + jitter*I with jitter 0 or at most 1e-12*10^5-scaled, and uses jitter 0 when A itself factors.", "quantifier": "all factorisation outcomes", "why_tests_cant": "all failure patterns", "anchors": ["pyvallocation/bayesian.py:_cholesky_pd"]}
{"id": "C66", "title": "The CVaR linear programme computes portfolio CVaR", "statement": "For each weight vector the minimum over auxiliary variables of the LP objective assembled by MeanCVaR equals portfolio_cvar of that weight vector, so LP-optimal weights minimise CVaR over the user's feasible set.", "quantifier": "all scenario matrices, probabilities, feasible sets, competitors", "why_tests_cant": "optimality over all competitors", "anchors": ["pyvallocation/optimization.py:MeanCVaR", "pyvallocation/utils/functions.py:portfolio_cvar"]}
{"id": "C67", "title": "Robust risk term is the uncertainty-ellipsoid norm", "statement": "The second-order cone in the robust optimiser bounds sqrt(w' S w).", "quantifier": "all covariance matrices and weights", "why_tests_cant": "all matrices", "anchors": ["pyvallocation/optimization.py:RobustOptimizer", "pyvallocation/bayesian.py:_cholesky_pd"]}
{"id": "C68", "title": "max_sharpe respects bounds", "statement": "MeanVariance.max_sharpe's homogenised problem has a solution for every feasible long-only problem with upper bounds.", "quantifier": "all bound systems", "why_tests_cant": "all constraint systems", "anchors": ["pyvallocation/optimization.py:MeanVariance.max_sharpe"]}
{"id": "C69", "title": "Turnover blocks penalise exactly |w-w0|", "statement": "Minimising the auxiliary variables of the linear-turnover blocks for fixed w gives sum_i c_i |w_i - w0_i|; the quadratic-turnover blocks give sum_i lambda_i (w_i-w0_i)^2 up to a constant.", "quantifier": "all weights, previous weights, costs", "why_tests_cant": "all inputs", "anchors": ["pyvallocation/optimization.py:_linear_turnover_blocks", "pyvallocation/optimization.py:_quadratic_turnover"]}
{"id": "C70", "title": "Relaxed risk parity cone is the risk-contribution floor", "statement": "The rotated cone added per asset is equivalent to x_i*zeta_i >= b_i*gamma^2 with x_i, zeta_i >= 0, and the target clip keeps the target in [min_target, max attainable return].", "quantifier": "all points, budgets", "why_tests_cant": "all points", "anchors": ["pyvallocation/optimization.py:RelaxedRiskParity.solve"]}
{"id": "C71", "title": "The minimum-risk portfolio of a CVaR frontier has the smallest CVaR", "statement": "min_risk on the frontier returned by cvar_frontier selects a portfolio whose CVaR is no larger than that of any other portfolio on it.", "quantifier": "all solved frontiers, all signs of CVaR", "why_tests_cant": "must hold for every scenario set, including those with negative CVaR", "anchors": ["pyvallocation/portfolioapi.py:PortfolioWrapper.cvar_frontier", "pyvallocation/portfolioapi.py:PortfolioFrontier.min_risk"]}
{"id": "C72", "title": "Ensemble specifications made from a wrapper keep its constraints", "statement": "A specification built by PortfolioWrapper.make_ensemble_spec optimises over the same feasible set as the wrapper it was made from.", "quantifier": "all constraint specifications", "why_tests_cant": "all constraint systems", "anchors": ["pyvallocation/portfolioapi.py:PortfolioWrapper.make_ensemble_spec", "pyvallocation/ensembles.py:make_portfolio_spec"]}
{"id": "C73", "title": "combine='frontier' uses each specification's own frontier", "statement": "With combine='frontier' every specification contributes exactly one column of its own frontier: the requested one, or the first of smallest risk.", "quantifier": "all lists of specifications", "why_tests_cant": "all lists, including repeated names", "anchors": ["pyvallocation/ensembles.py:assemble_portfolio_ensemble"]}
{"id": "C74", "title": "AssetsDistribution always holds a probability vector", "statement": "A constructed AssetsDistribution with scenarios carries non-negative probabilities summing to one and proportional to those given (uniform when omitted), a number of assets consistent with every input, and either no asset names or exactly one per asset, equal to every label set supplied; other inputs raise ValueError.", "quantifier": "all combinations of moments, scenarios, probabilities and labels", "why_tests_cant": "all shapes, label sets and non-finite values", "anchors": ["pyvallocation/portfolioapi.py:AssetsDistribution.__post_init__"]}
{"id": "C75", "title": "Converted and scaled covariances stay positive semidefinite", "statement": "log2simple and the horizon scaling of project_mean_covariance return a positive semidefinite covariance whenever the input covariance is positive semidefinite.", "quantifier": "all means and PSD covariances of any size", "why_tests_cant": "all directions", "anchors": ["pyvallocation/utils/projection.py:log2simple", "pyvallocation/utils/projection.py:project_mean_covariance"]}
{"id": "C76", "title": "Projected log returns reprice to compounded returns", "statement": "Projecting scenarios of log returns over a horizon and repricing with reprice_exp yields, for each simulation, the product of the drawn gross returns minus one.", "quantifier": "all scenarios, horizons and draws", "why_tests_cant": "all horizons", "anchors": ["pyvallocation/utils/projection.py:project_scenarios", "pyvallocation/utils/projection.py:reprice_exp"]}
{"id": "C77", "title": "Projection accepts every valid scenario weighting", "statement": "project_scenarios and simulate_paths accept every weighting that is non-negative and sums to one within the library's tolerance, and reject negative weights.", "quantifier": "all weight vectors", "why_tests_cant": "all vectors, including ones at the tolerance edge", "anchors": ["pyvallocation/utils/projection.py:project_scenarios", "pyvallocation/utils/projection.py:simulate_paths"]}
{"id": "C78", "title": "Every accepted weighting yields a report", "statement": "stress_test and performance_report return a report with one row per portfolio for every confidence in (0,1), every scenario weighting that resolve_probabilities accepts, and weights with one row per asset.", "quantifier": "all scenario matrices, weightings, weights", "why_tests_cant": "all vectors at and inside the tolerance edges", "anchors": ["pyvallocation/stress.py:stress_test", "pyvallocation/utils/performance.py:performance_report"]}
{"id": "C79", "title": "Reports describe the portfolio's P&L", "statement": "Each row reported by stress_test / performance_report holds the expected P&L, its standard deviation, its VaR and CVaR (Rockafellar-Uryasev) at the confidence level and the entropy-based effective number of scenarios, for that portfolio's weights matched by label, under the stated probabilities and transformed scenarios; VaR <= CVaR and 1 <= ENS <= T.", "quantifier": "all portfolios, scenario sets, probabilities, transforms", "why_tests_cant": "all inputs", "anchors": ["pyvallocation/stress.py:stress_test", "pyvallocation/utils/performance.py:performance_report"]}
{"id": "C80", "title": "Linear stresses move the report linearly", "statement": "stress_test with transform=linear_map(scale=s>=0, mean_shift=b) maps return to s*return+w.b, stdev to s*stdev, VaR/CVaR to s*VaR-w.b, s*CVaR-w.b; stressing with the nominal probabilities leaves every number unchanged with KL 0.", "quantifier": "all portfolios, scenarios, scales, shifts", "why_tests_cant": "all inputs", "anchors": ["pyvallocation/stress.py:stress_test", "pyvallocation/stress.py:linear_map"]}
{"id": "C81", "title": "Invariant-level stress tests match weights by label", "statement": "stress_invariants gives the same report for every ordering of the weights' labels.", "quantifier": "all label permutations, with and without stress views", "why_tests_cant": "all permutations", "anchors": ["pyvallocation/stress.py:stress_invariants"]}
{"id": "C82", "title": "horizon_report has one correct row per horizon", "statement": "For distinct horizons the table has exactly one row per horizon, in order, with distinct labels, each the performance report of the scenarios projected to that horizon.", "quantifier": "all lists of horizons", "why_tests_cant": "all horizons", "anchors": ["pyvallocation/utils/performance.py:horizon_report"]}
{"id": "C83", "title": "Path simulation supports every repricing function projection supports", "statement": "simulate_paths (and drawdown_quantile) applies the repricing function at each step to the cumulative moves, for any number of instruments.", "quantifier": "all numbers of drivers and instruments", "why_tests_cant": "all shapes", "anchors": ["pyvallocation/utils/projection.py:simulate_paths", "pyvallocation/utils/performance.py:drawdown_quantile"]}
{"id": "C84", "title": "Sequential Bayesian updates equal one pooled update", "statement": "Updating a prior with one data set and using the posterior as prior for a second data set gives the posterior of a single NIWPosterior.update with the pooled data.", "quantifier": "all dimensions, priors, data sets and sizes", "why_tests_cant": "algebraic identity over all inputs", "anchors": ["pyvallocation/bayesian.py:NIWPosterior.update"]}
{"id": "C85", "title": "RobustBayesPosterior.from_niw is consistent with the posterior", "statement": "The bundle exists exactly when nu1 > 2, recovers Sigma1 from its stored covariance, never has more variance than Sigma1, and reports the same credibility radii as NIWPosterior.", "quantifier": "all inputs, all levels", "why_tests_cant": "all inputs; PSD order in all directions", "anchors": ["pyvallocation/bayesian.py:RobustBayesPosterior"]}
{"id": "C86", "title": "cred_radius_mu is the worst-case mean multiplier", "statement": "w'mu1 - cred_radius_mu(p) sqrt(w'Sigma1 w) is the minimum of w'mu over the ellipsoid (mu-mu1)' S_mu^-1 (mu-mu1) <= chi2 quantile, and it is attained.", "quantifier": "all portfolios, posteriors, levels, all points of the ellipsoid", "why_tests_cant": "optimality over a continuum", "anchors": ["pyvallocation/bayesian.py:NIWPosterior.cred_radius_mu", "pyvallocation/bayesian.py:NIWPosterior.get_S_mu"]}
{"id": "C87", "title": "cred_radius_sigma_factor is the worst-case variance multiplier", "statement": "cred_radius_sigma_factor(p) * w'Sigma1 w is the maximum of w'Sigma w over the covariance uncertainty ellipsoid around get_sigma_ce, and it is attained.", "quantifier": "all portfolios, posteriors, levels, all matrices in the ellipsoid", "why_tests_cant": "optimality over a continuum of matrices", "anchors": ["pyvallocation/bayesian.py:NIWPosterior.cred_radius_sigma_factor", "pyvallocation/bayesian.py:NIWPosterior.get_sigma_ce"]}
{"id": "C88", "title": "Mean uncertainty is expressed in consistent horizon units", "statement": "mean_uncertainty_cov_log is the covariance of the horizon mean, mean_uncertainty_cov_simple the delta-method covariance of the expected simple return over the horizon, with and without the exact correction.", "quantifier": "all horizons, portfolios, posteriors", "why_tests_cant": "all inputs", "anchors": ["pyvallocation/bayesian.py:RobustBayesPosterior.mean_uncertainty_cov_log", "pyvallocation/bayesian.py:RobustBayesPosterior.mean_uncertainty_cov_simple"]}
{"id": "C89", "title": "NIW updates respect asset labels", "statement": "A labelled sample is combined with the labelled prior by label: the order in which assets are listed does not matter, and inconsistent labels are rejected.", "quantifier": "all label orders", "why_tests_cant": "all permutations of labels", "anchors": ["pyvallocation/bayesian.py:NIWPosterior.__init__", "pyvallocation/bayesian.py:NIWPosterior.update"]}
{"id": "C90", "title": "Mean-variance solve returns the minimum-variance portfolio", "statement": "MeanVariance's solution satisfies the constraints and the return target and no allowed portfolio reaching the target has a smaller variance plus quadratic impact cost; a solution is returned whenever an allowed portfolio reaches the target.", "quantifier": "all covariances, constraints, targets, impact costs; all competing portfolios", "why_tests_cant": "optimality over a continuum", "anchors": ["pyvallocation/optimization.py:MeanVariance", "pyvallocation/optimization.py:MeanVariance._solve_target"]}
{"id": "C91", "title": "Efficient frontiers have the requested columns in the right order", "statement": "efficient_frontier returns one column per requested point, from the minimum-risk portfolio's return to the maximal allowed return in equal steps, each column being the minimum-risk allowed portfolio for its target; risks do not decrease along the columns.", "quantifier": "all problems (the variance problem with at least one inequality), numbers of points; all competing portfolios", "why_tests_cant": "optimality over a continuum, all counts", "anchors": ["pyvallocation/optimization.py:MeanVariance.efficient_frontier", "pyvallocation/optimization.py:MeanCVaR.efficient_frontier"]}
{"id": "C92", "title": "Robust optimisation trades return for robustness monotonically", "statement": "For lambda1 < lambda2 the portfolio RobustOptimizer.solve_lambda_variant returns for lambda2 has no larger uncertainty radius and no larger nominal return than the one for lambda1; efficient_frontier(lambdas) returns one portfolio per lambda, in the given order, ordered that way for any two of its lambdas, and refuses an empty list or a negative lambda.", "quantifier": "all problems and pairs of lambdas, all lists of lambdas", "why_tests_cant": "all optima", "anchors": ["pyvallocation/optimization.py:RobustOptimizer.solve_lambda_variant", "pyvallocation/optimization.py:RobustOptimizer.efficient_frontier"]}
{"id": "C93", "title": "The gamma variant maximises return under the uncertainty caps", "statement": "RobustOptimizer.solve_gamma_variant returns an allowed portfolio whose uncertainty radius is at most the square root of the cap and whose return minus gamma_mu times the radius is maximal among the allowed portfolios within the cap; negative parameters are rejected.", "quantifier": "all problems, caps; all competing portfolios", "why_tests_cant": "optimality over a continuum", "anchors": ["pyvallocation/optimization.py:RobustOptimizer.solve_gamma_variant"]}
{"id": "C94", "title": "The robust optimiser supports proportional transaction costs", "statement": "RobustOptimizer with initial weights and proportional costs maximises nominal return minus robustness penalty minus turnover cost.", "quantifier": "all problems with costs", "why_tests_cant": "all inputs", "anchors": ["pyvallocation/optimization.py:RobustOptimizer"]}
{"id": "C95", "title": "The robust optimiser reports the uncertainty radius of its weights", "statement": "The risk returned with a RobustOptimizer solution is the norm of the returned weights in the uncertainty metric, for every lambda >= 0.", "quantifier": "all problems and lambdas", "why_tests_cant": "all optima", "anchors": ["pyvallocation/optimization.py:RobustOptimizer.solve_lambda_variant"]}
{"id": "C96", "title": "Relaxed risk parity returns an optimal long-only portfolio", "statement": "RelaxedRiskParity.solve returns a long-only portfolio satisfying the user's constraints and the reported target, its marginal risks, average risk and contribution floor, and no other such portfolio has a smaller objective; it succeeds whenever such a portfolio exists.", "quantifier": "all covariances, constraints, targets, regularisations; all competing portfolios", "why_tests_cant": "optimality over a continuum", "anchors": ["pyvallocation/optimization.py:RelaxedRiskParity.solve"]}
{"id": "C97", "title": "Default risk budgets give the equal-risk-contribution portfolio", "statement": "RelaxedRiskParity without risk_budgets (and without regulariser or target) returns the equal-risk-contribution portfolio; with risk_budgets it returns the portfolio whose risk contributions are proportional to the budgets.", "quantifier": "all covariance matrices and budgets", "why_tests_cant": "all matrices", "anchors": ["pyvallocation/optimization.py:RelaxedRiskParity.__init__", "pyvallocation/optimization.py:RelaxedRiskParity.solve"]}
{"id": "C98", "title": "The reported maximal return is the best attainable return", "statement": "The max_return reported by RelaxedRiskParity.solve, which caps the target, is the largest expected return of any long-only, fully invested portfolio satisfying the constraints.", "quantifier": "all constraint sets", "why_tests_cant": "all portfolios", "anchors": ["pyvallocation/optimization.py:RelaxedRiskParity._max_linear_return"]}
{"id": "C99", "title": "Insufficient distribution inputs are rejected", "statement": "AssetsDistribution raises ValueError unless it is given both mu and cov, or scenarios: no distribution object exists without a mean and a covariance.", "quantifier": "all argument combinations", "why_tests_cant": "all combinations of missing arguments and shapes", "anchors": ["pyvallocation/portfolioapi.py:AssetsDistribution.__post_init__"]}
{"id": "C100", "title": "Discretisation method names select the documented algorithms", "statement": "discretize_weights accepts exactly the documented method names, greedy/rounddown selecting the same algorithm and milp/mip/integer/lp the same exact one; any other name raises ValueError.", "quantifier": "all method strings", "why_tests_cant": "all strings", "anchors": ["pyvallocation/discrete_allocation.py:discretize_weights"]}
{"id": "C101", "title": "from_prices builds the distribution of the periodic simple returns", "statement": "PortfolioWrapper.from_prices turns T+1 rows of positive finite prices into T equally weighted scenarios P[t+1]/P[t]-1 and their mean and covariance; compounding them reproduces the price relative; non-positive, non-finite or too short histories raise ValueError.", "quantifier": "all price histories", "why_tests_cant": "all lengths, sizes and prices", "anchors": ["pyvallocation/portfolioapi.py:PortfolioWrapper.from_prices"]}
{"id": "C102", "title": "from_scenarios converts log scenarios scenario by scenario", "statement": "PortfolioWrapper.from_scenarios with return_type='log' stores exp(r)-1 for every scenario and asset and the mean and covariance of the converted scenarios; with 'simple' it stores the scenarios unchanged.", "quantifier": "all scenario matrices and probability vectors", "why_tests_cant": "all sizes and values", "anchors": ["pyvallocation/portfolioapi.py:PortfolioWrapper.from_scenarios"]}
{"id": "C103", "title": "from_moments stores the moments it is given", "statement": "PortfolioWrapper.from_moments with simple moments stores mu and cov (cov unchanged when positive semidefinite); with return_type='log' it stores exp(mu+diag(cov)/2)-1 and the matching lognormal covariance, and log moments obtained from simple moments by simple2log are stored as the original simple moments; inconsistent shapes raise ValueError.", "quantifier": "all moments, labels and return types", "why_tests_cant": "all dimensions and values", "anchors": ["pyvallocation/portfolioapi.py:PortfolioWrapper.from_moments", "pyvallocation/utils/projection.py:log2simple"]}
{"id": "C104", "title": "Robust portfolios do not depend on the annualisation factor", "statement": "For a wrapper made by from_robust_posterior, the optimal weights of the robust problem are the same for every positive annualization_factor.", "quantifier": "all posteriors, factors, penalties", "why_tests_cant": "all positive factors", "anchors": ["pyvallocation/portfolioapi.py:PortfolioWrapper.from_robust_posterior", "pyvallocation/optimization.py:RobustOptimizer"]}
{"id": "C105", "title": "variance_frontier is the efficient frontier of the constraints in force", "statement": "On a non-empty bounded set of portfolios satisfying the specification in force, variance_frontier succeeds; its columns satisfy the specification, each minimises variance (plus impact cost) among allowed portfolios with at least its return, the first has least risk of all, they reach an equally spaced grid of returns up to the largest attainable; returns and volatilities reported are those of the columns.", "quantifier": "all moments, constraint specifications, costs, frontier sizes", "why_tests_cant": "optimality against all portfolios", "anchors": ["pyvallocation/portfolioapi.py:PortfolioWrapper.variance_frontier"]}
{"id": "C106", "title": "min_risk and max_return of a variance frontier are the global optima", "statement": "Without trading costs, min_risk on the frontier returned by variance_frontier has the least variance of all portfolios satisfying the constraints, and max_return the largest return when the frontier has more than one column; at_return returns efficient portfolios.", "quantifier": "all moments and constraint specifications limiting something besides total weight and equality rows", "why_tests_cant": "optimality against all portfolios", "anchors": ["pyvallocation/portfolioapi.py:PortfolioFrontier.min_risk", "pyvallocation/portfolioapi.py:PortfolioFrontier.max_return", "pyvallocation/portfolioapi.py:PortfolioWrapper.variance_frontier"]}
{"id": "C107", "title": "min_variance_at_return is optimal or raises InfeasibleOptimizationError", "statement": "min_variance_at_return returns a portfolio satisfying the constraints in force with at least the requested return and least variance (plus impact cost), and raises InfeasibleOptimizationError exactly when no allowed portfolio reaches the return.", "quantifier": "all moments, constraints, costs, targets", "why_tests_cant": "optimality against all portfolios", "anchors": ["pyvallocation/portfolioapi.py:PortfolioWrapper.min_variance_at_return"]}
{"id": "C108", "title": "Wrappers of log-return moments minimise the risk they report", "statement": "For a wrapper made by from_robust_posterior, the volatility reported by min_variance_at_return is the least among allowed portfolios with the reported return.", "quantifier": "all log-return moments", "why_tests_cant": "optimality against all portfolios", "anchors": ["pyvallocation/portfolioapi.py:PortfolioWrapper.min_variance_at_return", "pyvallocation/portfolioapi.py:PortfolioWrapper._report_mu_cov"]}
{"id": "C109", "title": "min_cvar_at_return is optimal or raises InfeasibleOptimizationError", "statement": "min_cvar_at_return returns a portfolio satisfying the constraints in force, whose reported return is at least the requested one, of least CVaR (plus proportional cost); it raises InfeasibleOptimizationError when no allowed portfolio reaches the return, and reports the CVaR of the portfolio.", "quantifier": "all scenario sets, constraints, costs, targets", "why_tests_cant": "optimality against all portfolios", "anchors": ["pyvallocation/portfolioapi.py:PortfolioWrapper.min_cvar_at_return"]}
{"id": "C110", "title": "robust_lambda_frontier sweeps the penalty grid", "statement": "robust_lambda_frontier returns one column per penalty of the grid (given, or equally spaced from 0 to max_lambda), in order of increasing risk, with its penalty recorded; every column satisfies the constraints; returns do not decrease along the frontier; an empty or negative grid raises ValueError.", "quantifier": "all grids, moments, constraints", "why_tests_cant": "all grids and feasible sets", "anchors": ["pyvallocation/portfolioapi.py:PortfolioWrapper.robust_lambda_frontier"]}
{"id": "C111", "title": "Relaxed risk parity always delivers a portfolio and never lowers the target", "statement": "With valid inputs, once the pure risk parity problem is solvable relaxed_risk_parity_portfolio_with_diagnostics returns a portfolio (relaxing the return target if needed, with a warning), and the target it reports is the requested one or a relaxation of it, never above it.", "quantifier": "all moments, penalties, targets", "why_tests_cant": "all retry histories of the solver", "anchors": ["pyvallocation/portfolioapi.py:PortfolioWrapper.relaxed_risk_parity_portfolio_with_diagnostics", "pyvallocation/portfolioapi.py:PortfolioWrapper._solve_relaxed_rp"]}
{"id": "C112", "title": "relaxed_risk_parity_frontier has one column per multiplier", "statement": "relaxed_risk_parity_frontier returns, after the optional pure risk parity anchor, one column per target multiplier in the given order, with the multiplier recorded; invalid grids and a negative lambda raise ValueError.", "quantifier": "all multiplier grids", "why_tests_cant": "all grids", "anchors": ["pyvallocation/portfolioapi.py:PortfolioWrapper.relaxed_risk_parity_frontier"]}
{"id": "C113", "title": "Transaction cost vectors of the wrong length are rejected", "statement": "A cost specification whose vectors do not have one entry per asset raises ValueError, whether given to the constructor or to a method.", "quantifier": "all cost vectors", "why_tests_cant": "all lengths", "anchors": ["pyvallocation/portfolioapi.py:PortfolioWrapper._apply_transaction_costs", "pyvallocation/portfolioapi.py:PortfolioWrapper._resolve_constraints"]}
{"id": "C114", "title": "cvar_frontier is the efficient CVaR frontier of the constraints in force", "statement": "On a non-empty bounded set of portfolios satisfying the specification in force, cvar_frontier succeeds; its columns satisfy the specification, each minimises the scenario CVaR (plus proportional cost) among allowed portfolios with at least its scenario-mean return, they reach an equally spaced grid of returns up to the largest attainable, and the CVaR reported (the raw measure; also the plotted one unless the risks are made monotone) is the absolute value of that of the column.", "quantifier": "all scenario sets, constraint specifications, costs, frontier sizes, tail levels", "why_tests_cant": "optimality against all portfolios", "anchors": ["pyvallocation/portfolioapi.py:PortfolioWrapper.cvar_frontier"]}
{"id": "C115", "title": "Stress helpers reweight scenarios as documented", "statement": "exp_decay_stress, kernel_focus_stress and entropy_pooling_stress report, for the same portfolios, nominal metrics under the given probabilities and stressed metrics under, respectively, probabilities halving every half_life scenarios, Gaussian-kernel probabilities around the target (by default the last focus value), and the given posterior, with their KL divergence; a non-positive half-life or a focus series without one entry per scenario raises ValueError, and valid inputs always yield a report.", "quantifier": "all portfolios, scenario sets, weightings, half-lives, focus series, bandwidths", "why_tests_cant": "all inputs", "anchors": ["pyvallocation/stress.py:exp_decay_stress", "pyvallocation/stress.py:kernel_focus_stress", "pyvallocation/stress.py:entropy_pooling_stress"]}
{"id": "C116", "title": "Misshapen stress inputs raise ValueError", "statement": "stress_test raises ValueError exactly when the transform does not return a finite array of the scenarios' shape (other inputs being valid), and otherwise reports the metrics of the returned scenarios; scenario_pnl raises ValueError unless unlabelled weights have one row per asset and otherwise returns the scenario-by-portfolio products.", "quantifier": "all transforms and weights", "why_tests_cant": "all shapes", "anchors": ["pyvallocation/stress.py:stress_test", "pyvallocation/utils/performance.py:scenario_pnl"]}
{"id": "C117", "title": "solve_robust_gamma_portfolio respects the cap and is optimal", "statement": "solve_robust_gamma_portfolio returns a portfolio satisfying the constraints in force whose squared estimation risk is at most gamma_sigma_sq and which minimises gamma_mu times estimation risk minus mean return among such portfolios; it reports the portfolio's return (in the units of the other methods) and squared estimation risk; negative parameters raise ValueError and an unattainable cap raises RuntimeError.", "quantifier": "all moments, constraints, penalties and caps", "why_tests_cant": "optimality against all portfolios", "anchors": ["pyvallocation/portfolioapi.py:PortfolioWrapper.solve_robust_gamma_portfolio"]}
{"id": "C118", "title": "Named selectors pick the documented portfolio", "statement": "The named selectors of an ensemble specification return the portfolio their name documents: tangency the largest ratio of excess return (risk-free rate zero unless given) to risk, min_risk the least risk, max_return the largest return, risk_target / risk_match the best return within / the nearest to the given level of the named (or default) risk measure, risk_percentile the portfolio at the given percentile of risks, column the given column; an unknown name or a missing argument raises ValueError.", "quantifier": "all frontiers, labels and selector arguments", "why_tests_cant": "all frontiers", "anchors": ["pyvallocation/ensembles.py:_build_selector"]}
{"id": "C119", "title": "assemble_portfolio_ensemble returns the requested combination", "statement": "assemble_portfolio_ensemble evaluates every specification and returns, for each requested combination (average or stack, of selected portfolios or of frontier columns), the corresponding combination; an unknown combination name, an empty specification list or invalid fold counts raise ValueError, and an error of a specification is passed on.", "quantifier": "all specifications and combination requests", "why_tests_cant": "all specification lists", "anchors": ["pyvallocation/ensembles.py:assemble_portfolio_ensemble"]}
{"id": "C120", "title": "Projection options are applied in the documented order", "statement": "The projection options of a specification scale the moments by annualization_factor, then convert log-return moments to simple-return moments if log_to_simple or to_simple asks for it, then apply the transform; an unknown option raises ValueError.", "quantifier": "all moments and option dictionaries", "why_tests_cant": "all dictionaries", "anchors": ["pyvallocation/ensembles.py:_apply_projection", "pyvallocation/ensembles.py:make_portfolio_spec"]}
{"id": "C121", "title": "A specification's distribution comes from the documented source", "statement": "make_portfolio_spec uses the distribution factory if given, else the distribution, else the returns: after preprocessing, with probabilities matched to rows by label when they are a Series, either as scenarios with exactly those rows and normalised weights, or as estimated (and projected) moments whose covariance is positive definite when the estimate is positive semidefinite; missing returns or unusable probabilities raise ValueError and errors of the parts are passed on.", "quantifier": "all data, probabilities, preprocessing steps, estimators", "why_tests_cant": "all inputs", "anchors": ["pyvallocation/ensembles.py:_build_distribution", "pyvallocation/ensembles.py:make_portfolio_spec"]}
{"id": "C122", "title": "Combining portfolios checks labels and dimensions", "statement": "average_exposures / exposure stacking over several sample sets accept them exactly when there is at least one, they have the same positive number of assets, the column selections are valid and no two carry different asset labels; the selected columns (all by default) are concatenated in order and the labels are those of the labelled inputs.", "quantifier": "all sequences of sample sets", "why_tests_cant": "all label and shape combinations", "anchors": ["pyvallocation/ensembles.py:_collect_samples"]}
{"id": "C123", "title": "Portfolios of different specifications are combined by asset label", "statement": "Averaging portfolios selected from specifications over different or differently ordered assets gives each asset the weighted average of its weights, counting a missing asset as zero.", "quantifier": "all label sets and orders", "why_tests_cant": "all label orders", "anchors": ["pyvallocation/ensembles.py:assemble_portfolio_ensemble", "pyvallocation/ensembles.py:average_exposures"]}
{"id": "C124", "title": "from_invariants stores the repriced sum of exactly `horizon` drawn rows as equally likely scenarios", "statement": "PortfolioWrapper.from_invariants stores n_simulations equally likely scenarios. Each is the repricing of the sum of exactly `horizon` historical rows, each row drawn with its normalised probability. Without a repricing function, log-return invariants give the compounded simple return of the drawn rows; a single function is applied to the whole matrix of sums and a DataFrame's columns become the asset names; a dict gives each instrument its own function of its own named drivers and the instruments become the asset names, in order. A dict with unnamed columns is a TypeError; every positive horizon and number of simulations with usable probabilities is accepted.", "quantifier": "every history, horizon, number of simulations, probability vector, repricing specification and stream of random numbers", "why_tests_cant": "the chain bootstrap, repricing, distribution must be right for every draw; a test sees one seed", "anchors": ["pyvallocation/utils/projection.py:project_scenarios", "pyvallocation/utils/projection.py:compose_repricers", "pyvallocation/portfolioapi.py:PortfolioWrapper.from_invariants"]}
{"id": "C125", "title": "The graphical lasso returns a positive definite precision, its inverse, and minimises the penalised likelihood", "statement": "sparse_precision_glasso(R, alpha=a) returns a covariance and a precision that are inverse to each other and positive definite; they satisfy the optimality conditions of -log det P + tr(S P) + a * sum of off-diagonal |P_ij| up to the stopping tolerance 1e-4 (variances within 1e-4(sqrt N + a N) of the sample variances, covariances within a plus that), no positive definite matrix has an objective lower by more than a stated multiple of 1e-4, and the precision is sparse. With alpha='auto' the penalty is the one of five candidates a_max*100^(-k/4) with the best held-out Gaussian log-likelihood (within 1e-8). Fewer than two rows or a non-positive penalty are ValueErrors; the only other failure is RuntimeError on non-convergence.", "quantifier": "all return panels, all penalties, assume_centered on or off, every eigendecomposition routine returning an orthogonal eigenbasis", "why_tests_cant": "optimality compares with every positive definite matrix, a continuum; the test suite checks one panel", "anchors": ["pyvallocation/moments.py:sparse_precision_glasso", "pyvallocation/moments.py:_graphical_lasso_admm", "pyvallocation/moments.py:_soft_threshold"]}
{"id": "C126", "title": "estimate_moments weighs the scenarios by the given probabilities", "statement": "estimate_moments(R, p, mean_estimator, cov_estimator) estimates the moments of the scenario distribution in which scenario t has probability p_t: with 'sample' estimators it returns the probability-weighted mean and covariance, every estimator uses p, and omitting p is the same as passing equal probabilities.", "quantifier": "all scenario panels, all probability vectors, all estimator names", "why_tests_cant": "quantifies over every panel, weight vector and estimator pair", "anchors": ["pyvallocation/moments.py:estimate_moments", "pyvallocation/moments.py:estimate_sample_moments"]}
{"id": "C127", "title": "Estimator names select the estimator and the covariance is symmetric and positive semidefinite", "statement": "A successful estimate_moments call means that both names are documented ones (in any capitalisation); the mean is the output of the named mean estimator with the given options and the covariance that of the named covariance estimator, and the covariance is symmetric and positive semidefinite up to 1e-8 (every eigenvalue at least -1e-8), given a valid probability vector, an EWMA span of at least one and Tyler's PSD guard left on. An unknown name is a ValueError.", "quantifier": "all scenario panels, probability vectors, estimator names and options", "why_tests_cant": "quantifies over every panel and option combination", "anchors": ["pyvallocation/moments.py:estimate_moments"]}
{"id": "C128", "title": "Sample moments carry the asset labels whatever container the probabilities come in", "statement": "estimate_sample_moments(R, p) with a DataFrame R and valid probabilities (array or Series) returns a mean Series and covariance DataFrame labelled by the columns of R; with an ndarray R it returns arrays.", "quantifier": "all panels, label sets and probability containers", "why_tests_cant": "all shapes, including T = N", "anchors": ["pyvallocation/moments.py:estimate_sample_moments", "pyvallocation/moments.py:_labels", "pyvallocation/moments.py:_wrap"]}
{"id": "C129", "title": "The one-shot Normal-Inverse-Wishart functions agree with the posterior object", "statement": "posterior_moments_niw and its uncertainty variant succeed exactly when constructing the posterior object, updating it and reading its estimates does, and return the same numbers.", "quantifier": "all priors, samples, confidence levels and risk-aversion inputs", "why_tests_cant": "all inputs, including those rejected", "anchors": ["pyvallocation/moments.py:posterior_moments_niw", "pyvallocation/portfolioapi.py:PortfolioWrapper", "pyvallocation/bayesian.py:NIWPosterior"]}
{"id": "C130", "title": "Black-Litterman prior mean and input checks", "statement": "The prior mean is pi if given, else the equilibrium mean risk_aversion * Sigma * w / sum(w) of the market weights, else prior_mean; exactly one must be supplied and have one entry per asset. A covariance that is not square, a non-positive risk aversion, no prior mean, or vectors of the wrong length are ValueErrors. An asymmetric covariance is replaced by its symmetric part. Without views the posterior is exactly this prior.", "quantifier": "all covariances, prior vectors, market weights and risk aversions, arrays or labelled", "why_tests_cant": "all lengths and argument combinations", "anchors": ["pyvallocation/views.py:BlackLittermanProcessor.__init__"]}
{"id": "C131", "title": "Black-Litterman views and confidences are read by label, and the result is the published posterior for them", "statement": "Each view key refers to assets by name, else as an integer name, else by position; unknown labels, and sequences without exactly one element, are ValueErrors. A vector of views is one absolute view per asset. Confidences are one number for all views, a dictionary by view key with 1 for missing keys, or an array in view order with exactly one entry per view. The posterior is the He-Litterman formula for exactly these views, with the view covariance tau*diag(P Sigma P') by default, the odds (1-c)/c times the view variance for Idzorek confidences, or the one supplied.", "quantifier": "all asset labels, view dictionaries, confidence and omega specifications", "why_tests_cant": "all keys, label sets and container types", "anchors": ["pyvallocation/views.py:BlackLittermanProcessor._asset_index", "pyvallocation/views.py:BlackLittermanProcessor._build_views", "pyvallocation/views.py:BlackLittermanProcessor._parse_conf", "pyvallocation/views.py:BlackLittermanProcessor._build_omega"]}
{"id": "C132", "title": "Building a Black-Litterman processor leaves the caller's arrays unchanged", "statement": "After BlackLittermanProcessor(...) every array passed by the caller has the contents it had before.", "quantifier": "all inputs", "why_tests_cant": "tests pass fresh literals and never look at them again", "anchors": ["pyvallocation/views.py:BlackLittermanProcessor.__init__"]}
{"id": "C133", "title": "pandas_to_numpy_returns: accepted inputs, shape and absence of NaN", "statement": "pandas_to_numpy_returns succeeds exactly when the date column (if named) is the index or a parseable column, the price columns exist and are numeric (or some numeric column and row exists), and the return and fill methods are documented names. The result then contains no NaN, has one column per price column in the requested order, and T-1 rows (at most T-1 when incomplete rows are dropped). Failures are ValueErrors, except that a named non-numeric price column with a documented return method is a TypeError.", "quantifier": "all price frames, column selections, date columns and option names", "why_tests_cant": "all frames with any pattern of missing values", "anchors": ["pyvallocation/utils/data_helpers.py:pandas_to_numpy_returns"]}
{"id": "C134", "title": "pandas_to_numpy_returns: entries are the period returns and compound to the total price change", "statement": "Each entry is the log or simple return of that column over that period when both prices are available, otherwise the neighbouring available return chosen by the fill method (zero if none); dropping keeps exactly the complete periods. The returns of a column compound to its total price change, and non-positive prices are rejected.", "quantifier": "all price histories, including missing prices", "why_tests_cant": "compounding quantifies over all lengths and gap patterns", "anchors": ["pyvallocation/utils/data_helpers.py:pandas_to_numpy_returns"]}
{"id": "C135", "title": "numpy_weights_to_pandas_series pairs names and weights by position", "statement": "A one-dimensional array and a list of strings of the same length give a Series whose k-th label carries the k-th weight; anything else is a ValueError.", "quantifier": "all arrays and name lists", "why_tests_cant": "all lengths and types", "anchors": ["pyvallocation/utils/data_helpers.py:numpy_weights_to_pandas_series"]}
{"id": "C136", "title": "Averaging frontiers averages one portfolio per frontier", "statement": "average_frontiers pools one column of each frontier (the requested one, negative positions counting from the end, else the first minimum-risk column), requires a common positive number of assets and identical asset labels, and returns the weighted mean of the pooled portfolios (equal weights by default, caller weights by position, normalised by a positive sum) with those labels; it raises in every other case. Every linear limit or equality satisfied by all portfolios of the frontiers is satisfied by the result (limits: for non-negative weights).", "quantifier": "every list of frontiers or sample sets, selection list, weight argument and linear functional", "why_tests_cant": "the frontiers, their sizes, labels and selections vary without bound; unit tests only average two or three frontiers", "anchors": ["pyvallocation/ensembles.py:average_frontiers", "pyvallocation/ensembles.py:_collect_samples", "pyvallocation/ensembles.py:_series_from_vector"]}
{"id": "C137", "title": "Stacking frontiers returns a convex combination and is bounded by the number of frontiers", "statement": "exposure_stack_frontiers and stack_portfolios return a convex combination of the pooled portfolios minimising the cross-validation loss over L folds that split them, carrying their labels, and so satisfying every linear limit all of them satisfy; it succeeds whenever 2 <= L <= number of pooled portfolios. Frontiers contribute one portfolio each when selections are omitted or given, as the argument documentation says (the Notes and the module example say the full matrices are used).", "quantifier": "every list of frontiers or sample sets, L, selection list and QP solver that is sound and complete", "why_tests_cant": "optimality and feasibility are universally quantified over all convex combinations and all linear functionals", "anchors": ["pyvallocation/ensembles.py:exposure_stack_frontiers", "pyvallocation/ensembles.py:stack_portfolios"]}
{"id": "C138", "title": "Risk-percentile selections align frontiers", "statement": "risk_percentile_selections returns exactly one column per frontier, the first whose risk percentile under the requested label is nearest the requested one, and average_frontiers with these selections returns the mean of those columns.", "quantifier": "every family of non-empty frontiers over the same assets, percentile, risk label and tie-breaking of the sort", "why_tests_cant": "frontiers of different sizes and ties are unbounded", "anchors": ["pyvallocation/ensembles.py:risk_percentile_selections", "pyvallocation/portfolioapi.py:PortfolioFrontier.index_at_risk_percentile"]}
{"id": "C139", "title": "A dictionary of constraints means what it says", "statement": "Constraints.from_dict(d).to_matrices(n), when it succeeds, admits exactly the portfolios that satisfy every recognised item of d, long-only and fully invested unless d overrides it; the order of keys and unrecognised keys do not matter.", "quantifier": "every dictionary with values of the right kind, every number of assets, every weight vector", "why_tests_cant": "the admitted set is an infinite set of weight vectors", "anchors": ["pyvallocation/utils/constraints.py:Constraints.from_dict", "pyvallocation/utils/constraints.py:Constraints.to_matrices"]}
{"id": "C140", "title": "Frontier tables show the requested portfolios", "statement": "PortfolioFrontier.to_frame(columns, column_labels) succeeds exactly when every requested position exists (negative ones count from the end) and the caller's labels are as many as the columns; the frame holds the requested portfolios in the requested order under the caller's labels, else the requested positions, else 0..M-1, indexed by asset label.", "quantifier": "every frontier, request and label list", "why_tests_cant": "requests are lists of unbounded length with repetitions and negative positions", "anchors": ["pyvallocation/portfolioapi.py:PortfolioFrontier.to_frame", "pyvallocation/portfolioapi.py:PortfolioFrontier._select_weights"]}
{"id": "C141", "title": "Whole-share allocation of a frontier portfolio", "statement": "as_discrete_allocation(column, ...) raises IndexError for every column outside 0..M-1 (negative ones included) and otherwise gives exactly what discretize_weights gives for that portfolio under its asset labels (Asset_0, Asset_1, ... when unlabelled); the greedy method on a long-only column with valid prices succeeds, stays within the value and holds every asset within one lot of its weight.", "quantifier": "every frontier over rational weights, column, price and lot dictionary, value, iteration cap and sort tie-breaking", "why_tests_cant": "budget and tracking bounds must hold for all prices, lots and weights", "anchors": ["pyvallocation/portfolioapi.py:PortfolioFrontier.as_discrete_allocation", "pyvallocation/discrete_allocation.py:discretize_weights"]}
{"id": "C142", "title": "POET returns the principal factor decomposition of its covariance", "statement": "factor_covariance_poet(return_decomp=True) returns k factors (the requested number, at most N, at least one) whose scores have mean zero, are uncorrelated and have non-increasing variances; the loadings are the covariances of the returns with the scores per standard deviation of the score; the loadings never explain more variance than the sample has in any direction and leave unexplained, in standardised units, in no direction more than the variance of any retained factor; the returned covariance is, up to one common non-negative amount on the diagonal, loadings loadings' plus the unexplained part with its off-diagonal entries soft-thresholded.", "quantifier": "all return matrices, factor counts, thresholds, exact eigen-decompositions and sorting of ties", "why_tests_cant": "quantifies over all samples and all directions of a vector space", "anchors": ["pyvallocation/moments.py:factor_covariance_poet"]}
{"id": "C143", "title": "Scenarios simulated from a prior mean and covariance have those moments", "statement": "FlexibleViewsProcessor(prior_mean=mu, prior_cov=S, num_scenarios=k) with a covariance whose symmetric part is positive semidefinite succeeds for every k > 0 and produces scenarios mu + L z for the generator's draws z, with L L' equal to the symmetric part of S plus 1e-6 on the diagonal: the sample mean and covariance are the affine images of those of the draws, hence exactly mu and S (+1e-6 I) for standardised draws; a custom distribution_fn receives the same two moments, its output is used when it has shape (k, N) and rejected otherwise; missing moments, non-positive k and mismatching shapes are ValueErrors.", "quantifier": "all means, covariances, numbers of scenarios, draws and custom generators", "why_tests_cant": "all draws of a random generator and all positive semidefinite matrices", "anchors": ["pyvallocation/views.py:FlexibleViewsProcessor.__init__"]}
{"id": "C144", "title": "Prior moments are matched to assets by label", "statement": "When prior_mean is a Series and prior_cov a DataFrame, each asset is simulated with the mean and covariances given under its own label, or the call raises.", "quantifier": "all labelled means and covariances, in any order", "why_tests_cant": "all orders of all label sets", "anchors": ["pyvallocation/views.py:FlexibleViewsProcessor.__init__"]}
{"id": "C145", "title": "What a views processor reports is consistent, and survives the hand-off to the portfolio layer", "statement": "get_posterior_probabilities() is a probability vector; get_posterior() is the mean and (positive semidefinite) covariance of get_scenarios() under it, under the asset labels; PortfolioWrapper.from_scenarios(get_scenarios(), get_posterior_probabilities()) and from_moments(*get_posterior()) succeed and store exactly these scenarios, probabilities, moments and names.", "quantifier": "all scenario sets, priors, views, modes and correct entropy-pooling solvers", "why_tests_cant": "quantifies over all views and all solver outputs", "anchors": ["pyvallocation/views.py:FlexibleViewsProcessor", "pyvallocation/portfolioapi.py:PortfolioWrapper.from_scenarios", "pyvallocation/portfolioapi.py:PortfolioWrapper.from_moments"]}
{"id": "C146", "title": "Views to portfolio: the optimiser minimises risk under the posterior", "statement": "With the posterior handed over by from_scenarios and constraints c, the min_risk portfolio of variance_frontier satisfies c, reports its expected outcome and standard deviation under the posterior, and no portfolio satisfying c has smaller posterior variance; every portfolio of cvar_frontier has the least posterior CVaR among those satisfying c with at least its posterior expected outcome.", "quantifier": "all scenario sets, views, bounded feasible constraint sets (with an inequality among them for the variance frontier), and correct solvers", "why_tests_cant": "optimality over an infinite set of portfolios through four composed stages", "anchors": ["pyvallocation/views.py:FlexibleViewsProcessor", "pyvallocation/portfolioapi.py:PortfolioWrapper.variance_frontier", "pyvallocation/portfolioapi.py:PortfolioWrapper.cvar_frontier"]}
{"id": "C147", "title": "Views given as vectors constrain the assets by position", "statement": "A vector of mean views (without ranking, quantile or CVaR views, simultaneous mode, distinct labels) makes the posterior mean equal to that vector, whatever the other moment views; a vector of volatilities or variances given with it is attained exactly too; a vector of the wrong length is a ValueError.", "quantifier": "all scenario sets, priors, vectors and further moment views", "why_tests_cant": "equality of every component for every feasible vector", "anchors": ["pyvallocation/views.py:FlexibleViewsProcessor.__init__"]}
{"id": "C148", "title": "Integer drivers are simulated like the same numbers stored as floats", "statement": "simulate_paths and drawdown_quantile give the same paths and the same report for drivers stored as integers as for the same numbers stored as floating point: the path at each step is the repricing of the cumulative moves.", "quantifier": "all driver matrices with integer entries, probabilities, draws and repricing functions", "why_tests_cant": "all driver values and all draws of the generator", "anchors": ["pyvallocation/utils/projection.py:simulate_paths", "pyvallocation/utils/performance.py:drawdown_quantile"]}
{"id": "C149", "title": "Drawdown reports match weights to drivers by label", "statement": "drawdown_quantile of a labelled portfolio over labelled drivers uses, for every driver, the weight given under its label: the order in which the portfolio lists its assets does not matter.", "quantifier": "all labelled portfolios and driver tables", "why_tests_cant": "all permutations of all label sets", "anchors": ["pyvallocation/utils/performance.py:drawdown_quantile"]}
{"id": "C150", "title": "An ensemble call returns exactly what was asked for", "statement": "assemble_portfolio_ensemble(ensemble=...) holds an 'average' ('stack') portfolio exactly when the argument names it, up to letter case and surrounding blanks; any other visible name makes the call raise; None, blank strings, 'none' as a string and sequences of None and blanks ask for nothing and always succeed for working specifications; average, stacked and get return these portfolios or None / the default; combine is recognised in any letter case and nothing else is accepted.", "quantifier": "all request arguments, specifications, weights, folds and solvers", "why_tests_cant": "requests are arbitrary strings and sequences", "anchors": ["pyvallocation/ensembles.py:assemble_portfolio_ensemble", "pyvallocation/ensembles.py:_normalise_ensemble_argument", "pyvallocation/ensembles.py:EnsembleResult"]}
{"id": "C151", "title": "Ensemble results document their specifications", "statement": "The metadata of a specification keeps every entry the user supplies and fills in optimiser, mean_estimator, cov_estimator and use_scenarios only where absent; with distinct names the result lists, in the order of the specifications, the frontier each factory built, the portfolio each selector picked from it, and each metadata dictionary. With repeated names it still lists every selected portfolio, and the frontier and metadata of the last specification of each name.", "quantifier": "all metadata dictionaries and specification lists", "why_tests_cant": "dictionaries and lists of unbounded size", "anchors": ["pyvallocation/ensembles.py:make_portfolio_spec", "pyvallocation/ensembles.py:assemble_portfolio_ensemble", "pyvallocation/ensembles.py:EnsembleResult"]}
{"id": "C152", "title": "Estimated moments do not depend on the order of the assets", "statement": "estimate_moments of a return table with its columns in another order reports, for every choice of estimators and options, the same mean for every asset and the same covariance for every pair of assets, under the reordered labels, and fails with the same error otherwise.", "quantifier": "all return tables, column orders, probabilities, estimators and options (POET: the number of factors does not cut through a repeated eigenvalue)", "why_tests_cant": "all permutations of all tables through iterative estimators", "anchors": ["pyvallocation/moments.py:estimate_moments"]}
{"id": "C153", "title": "Estimated moments do not depend on the order of the scenarios", "statement": "Shuffling the rows of the return table together with their probabilities leaves the result of estimate_moments exactly the same, for every mean estimator except median-of-means and every covariance estimator except EWMA and the cross-validated graphical lasso.", "quantifier": "all return tables, row orders, probabilities, estimators and options", "why_tests_cant": "all permutations of all tables", "anchors": ["pyvallocation/moments.py:estimate_moments"]}
{"id": "C154", "title": "Adding a constant to the returns moves the mean and not the covariance", "statement": "Adding a constant to every return of an asset adds it to the asset's estimated mean and leaves the estimated covariance as it was (estimators that shrink the mean to a common value: the same constant for all assets; OAS and graphical lasso: with assume_centered=False).", "quantifier": "all return tables, constants, non-negative probabilities summing to one and options", "why_tests_cant": "exact equality for all tables and constants", "anchors": ["pyvallocation/moments.py:estimate_moments"]}
{"id": "C155", "title": "Estimates do not depend on the units of the returns", "statement": "Multiplying all returns by a positive constant (decimals to per cent) multiplies the estimated mean by it and the estimated covariance by its square.", "quantifier": "all return tables, constants, probabilities, estimators and options", "why_tests_cant": "exact equality for all tables and constants", "anchors": ["pyvallocation/moments.py:estimate_moments", "pyvallocation/moments.py:shrink_covariance_ledoit_wolf"]}
{"id": "C156", "title": "Views with impossible targets or unknown assets are rejected", "statement": "A views processor accepts views exactly when every label names an asset, every target is a finite number (bounds in order) and lies in its range: volatilities positive, variances non-negative, correlations in [-1, 1], quantile probabilities strictly between 0 and 1; skewness views also need an asset with positive variance when they are used. Otherwise the constructor raises and no posterior exists.", "quantifier": "all scenario sets, priors, label sets and views of every kind", "why_tests_cant": "quantifies over all view dictionaries and targets", "anchors": ["pyvallocation/views.py:FlexibleViewsProcessor.__init__", "pyvallocation/views.py:FlexibleViewsProcessor._parse_view_specs"]}
{"id": "C157", "title": "Given scenarios and probabilities are the prior of a views processor", "statement": "FlexibleViewsProcessor(prior_risk_drivers=R, prior_probabilities=p) keeps R under its column labels (or positions) and accepts p exactly when it has one entry per scenario; without views the posterior is (R, p) itself, or R with equal probabilities when p is omitted, in both modes and whatever the solver.", "quantifier": "all scenario matrices, probability vectors and labels", "why_tests_cant": "exact equality for all matrices", "anchors": ["pyvallocation/views.py:FlexibleViewsProcessor.__init__", "pyvallocation/views.py:FlexibleViewsProcessor.get_posterior_probabilities"]}
{"id": "C158", "title": "The alternate risks attached to a frontier are what their labels say", "statement": "variance_frontier and relaxed_risk_parity_frontier of a wrapper with scenarios carry one overlay, 'CVaR (95%)': the absolute CVaR at 95% of every column; cvar_frontier carries the volatility of every column over the scenarios and its raw CVaR; robust_lambda_frontier carries the CVaR and a volatility computed from return_cov (matched by asset label), else from the covariance of a robust posterior, else from the scenarios, all in the order of the columns with their penalties; volatilities refer to the same (simple) returns as the returns listed beside them.", "quantifier": "all wrappers, constraints, grids, reference covariances and solvers", "why_tests_cant": "every column of every frontier", "anchors": ["pyvallocation/portfolioapi.py:PortfolioWrapper.variance_frontier", "pyvallocation/portfolioapi.py:PortfolioWrapper.cvar_frontier", "pyvallocation/portfolioapi.py:PortfolioWrapper.robust_lambda_frontier", "pyvallocation/portfolioapi.py:PortfolioWrapper.relaxed_risk_parity_frontier"]}
{"id": "C159", "title": "Relaxed risk parity diagnostics are consistent", "statement": "risk_contributions_pct lists each asset's share of the portfolio variance and adds up to 100; target_clipped is true exactly when the portfolio was not held to the requested target.", "quantifier": "all wrappers, constraints, penalties and targets", "why_tests_cant": "all covariances and solver outcomes", "anchors": ["pyvallocation/portfolioapi.py:PortfolioWrapper.relaxed_risk_parity_portfolio_with_diagnostics"]}
{"id": "C160", "title": "Methods that need moments raise ValueError without them", "statement": "variance_frontier, min_variance_at_return, robust_lambda_frontier, solve_robust_gamma_portfolio and the relaxed risk parity methods raise ValueError when the mean or the covariance is missing, whatever the other arguments; the CVaR methods do so when there are no scenarios either.", "quantifier": "all wrappers and arguments", "why_tests_cant": "all combinations of arguments", "anchors": ["pyvallocation/portfolioapi.py:PortfolioWrapper"]}
{"id": "C161", "title": "CVaR methods without scenarios use simulated ones", "statement": "On a wrapper without scenarios, cvar_frontier and min_cvar_at_return give exactly the result of a wrapper that holds 5000 equally likely draws from the normal distribution of its moments, converted to simple returns when the moments are those of log returns, with the expected simple returns.", "quantifier": "all moments, seeds, generators, constraints and costs", "why_tests_cant": "all draws of the generator", "anchors": ["pyvallocation/portfolioapi.py:PortfolioWrapper._scenario_inputs", "pyvallocation/portfolioapi.py:PortfolioWrapper.cvar_frontier", "pyvallocation/portfolioapi.py:PortfolioWrapper.min_cvar_at_return"]}
{"id": "C162", "title": "The one-shot Black-Litterman function agrees with the processor", "statement": "posterior_moments_black_litterman returns exactly the posterior mean and covariance of a BlackLittermanProcessor built from the same arguments; omitting omega means omega='idzorek', so a call with views and without confidences raises ValueError; without views it returns the prior. The other omitted arguments are risk_aversion 1, tau 0.05 and idzorek_use_tau True.", "quantifier": "all prior specifications, views, confidences and uncertainty arguments", "why_tests_cant": "all argument combinations", "anchors": ["pyvallocation/moments.py:posterior_moments_black_litterman", "pyvallocation/views.py:BlackLittermanProcessor"]}
{"id": "C163", "title": "A Black-Litterman confidence applies to the view it is written for", "statement": "A confidence given in a dictionary, under the view's own key or under the joined key 'A,B' as the module documentation writes it, is the confidence used for that view.", "quantifier": "all views and confidence dictionaries", "why_tests_cant": "all dictionaries", "anchors": ["pyvallocation/views.py:BlackLittermanProcessor", "pyvallocation/moments.py:posterior_moments_black_litterman"]}
{"id": "C164", "title": "A Black-Litterman posterior handed to the portfolio wrapper is optimised as it is", "statement": "The posterior mean and covariance passed to PortfolioWrapper.from_moments are stored exactly, under the posterior's labels; the minimum-risk portfolio of the variance frontier minimises the posterior variance over the admissible portfolios, and the posterior variance of every portfolio lies between its prior variance and (1 + tau) times it.", "quantifier": "all posteriors, constraints with an inequality among them and solvers", "why_tests_cant": "all admissible portfolios", "anchors": ["pyvallocation/views.py:BlackLittermanProcessor.get_posterior", "pyvallocation/portfolioapi.py:PortfolioWrapper.from_moments", "pyvallocation/portfolioapi.py:PortfolioWrapper.variance_frontier"]}
{"id": "C165", "title": "From a price history to whole shares", "statement": "For a finite, strictly positive price DataFrame with distinct labels and the default constraints, from_prices and variance_frontier succeed; every frontier portfolio is long-only and fully invested and no such portfolio with at least its average historical return has a smaller historical variance (the first: no portfolio at all); as_discrete_allocation turns any of them, at any positive quotes and for any positive amount, into whole shares without overspending, the money in every asset within one share of its weight (up to the 1e-8 cut-off of the weights, once per asset).", "quantifier": "all price histories, quotes, amounts, frontier sizes and correct convex solvers", "why_tests_cant": "the composition of four modules over all inputs", "anchors": ["pyvallocation/portfolioapi.py:PortfolioWrapper.from_prices", "pyvallocation/portfolioapi.py:PortfolioWrapper.variance_frontier", "pyvallocation/portfolioapi.py:PortfolioFrontier.as_discrete_allocation", "pyvallocation/discrete_allocation.py:discretize_weights"]}
{"id": "C166", "title": "The assets a Black-Litterman view is about", "statement": "A label of a view refers to the asset carrying it; if no asset does, an integer refers to the asset at that position (from zero) and a string of digits to the number it spells, as a label first and as a position otherwise; any other label raises ValueError. An absolute view is about the mean of that asset, a relative view on two different assets about the difference of their means.", "quantifier": "all label sets without repetition, labels and mean vectors", "why_tests_cant": "all label sets", "anchors": ["pyvallocation/views.py:BlackLittermanProcessor._asset_index", "pyvallocation/views.py:BlackLittermanProcessor._build_views"]}
{"id": "C167", "title": "Non-finite inputs of the discrete allocator are refused", "statement": "DiscreteAllocationInput (and so discretize_weights) raises ValueError when a weight, a price of a kept asset or total_value is NaN or infinite.", "quantifier": "all weight, price and lot mappings over floats with NaN and infinities", "why_tests_cant": "all floats", "anchors": ["pyvallocation/discrete_allocation.py:DiscreteAllocationInput.__post_init__"]}
{"id": "C168", "title": "The variance frontier is determined by its inputs", "statement": "With a positive definite covariance, variance_frontier and min_variance_at_return do not depend on the convex solver: any two correct solvers give the same number of portfolios and the same portfolios, returns and volatilities (or both report infeasibility).", "quantifier": "all means, positive definite covariances, constraints with an inequality among them admitting a bounded non-empty set of portfolios, trading costs, frontier sizes and correct solvers", "why_tests_cant": "all solvers", "anchors": ["pyvallocation/portfolioapi.py:PortfolioWrapper.variance_frontier", "pyvallocation/portfolioapi.py:PortfolioWrapper.min_variance_at_return", "pyvallocation/optimization.py:MeanVariance"]}
{"id": "C169", "title": "The variance frontier does not depend on the order of the assets", "statement": "If two wrappers describe the same assets in different orders (means, positive definite covariance, trading costs and constraints corresponding), their variance frontiers list the same portfolios, each with its weights in the respective order, and the same returns and volatilities.", "quantifier": "all permutations, means, positive definite covariances, constraints with an inequality among them admitting a bounded non-empty set of portfolios, costs and correct solvers", "why_tests_cant": "all orders and solvers", "anchors": ["pyvallocation/portfolioapi.py:PortfolioWrapper.variance_frontier", "pyvallocation/optimization.py:MeanVariance"]}
{"id": "C170", "title": "The greedy allocator hands over to the mixed-integer allocator only at an explicit cap", "statement": "For a valid long-only call with normalised weights above 1e-12 and no iteration cap (or one above the number of kept assets), the greedy method returns the greedy allocation whatever fallback_mode and the MILP solver are; with max_iterations <= 0 and fallback_mode 'auto' or 'milp' it returns the MILP allocation whenever that succeeds.", "quantifier": "all valid long-only inputs, caps, fallback modes and solvers", "why_tests_cant": "all runs of the loop", "anchors": ["pyvallocation/discrete_allocation.py:allocate_greedy", "pyvallocation/discrete_allocation.py:discretize_weights"]}
{"id": "C171", "title": "plot_frontiers draws the frontiers and highlights the selectors' portfolios", "statement": "plot_frontiers draws every frontier supplied, in order, as the curve of the requested risk against the returns, under the caller's label (else the risk label, else the risk measure); an overlay exactly for the requested measures the frontier has; the recorded highlights are the first portfolio of least drawn risk, of greatest return, and of greatest excess return per unit of drawn risk, and agree with min_risk, max_return and tangency. The risk axis is named by the risk label, else by the frontiers' common risk measure, else 'Risk'. Malformed input raises TypeError or ValueError, an unknown risk label KeyError, an unknown marker or tangency without a risk-free rate ValueError; otherwise it succeeds.", "quantifier": "all frontiers, labels, markers, overlays and risk labels", "why_tests_cant": "all frontiers", "anchors": ["pyvallocation/plotting.py:plot_frontiers", "pyvallocation/plotting.py:_normalize_frontiers", "pyvallocation/plotting.py:_resolve_highlight"]}
{"id": "C172", "title": "plot_frontiers_grid draws every frontier in the panel of its group", "statement": "One panel per group, in the order in which the groups first occur; the panel of a group draws exactly the frontiers of that group; the grid has room for every panel; the documented legend policies are accepted.", "quantifier": "all frontiers, grouping functions, labels and grid widths", "why_tests_cant": "all groupings", "anchors": ["pyvallocation/plotting.py:plot_frontiers_grid"]}
{"id": "C173", "title": "plot_frontier_report marks the portfolio whose weights it shows", "statement": "For every documented selection the report shows the weights of the portfolio the frontier's selector returns and marks exactly that portfolio's point of the drawn curve; it succeeds whenever the selector does. A selection without the argument it needs raises KeyError, an undocumented selection ValueError.", "quantifier": "all frontiers, selections, arguments and risk labels", "why_tests_cant": "all selections", "anchors": ["pyvallocation/plotting.py:plot_frontier_report"]}
{"id": "C174", "title": "plot_weights(top_n) shows the largest weights", "statement": "With top_n = n the n largest weights are drawn (for a negative n, all but the -n smallest; without it all), each under its own label, ascending for barh and descending otherwise, whatever the order of ties.", "quantifier": "all weight Series, kinds and n", "why_tests_cant": "all Series", "anchors": ["pyvallocation/plotting.py:plot_weights"]}
{"id": "C175", "title": "The parameter plots pair each portfolio with its own parameter", "statement": "plot_param_impact draws every portfolio of the frontier exactly once per panel, at its own parameter value with its own return and risk, in non-decreasing order of the parameter; plot_robust_surface draws (parameter, risk, return) of every portfolio and plot_robust_path colours it by its parameter; missing or non-finite parameters raise ValueError (plot_robust_path: fall back to the position).", "quantifier": "all frontiers with one metadata entry per portfolio", "why_tests_cant": "all frontiers", "anchors": ["pyvallocation/plotting.py:plot_param_impact", "pyvallocation/plotting.py:plot_robust_surface", "pyvallocation/plotting.py:plot_robust_path"]}
{"id": "C176", "title": "The 3D picture of the assumptions shows principal components", "statement": "In plot_assumptions_3d the axes are the first three principal components of the covariance (orthonormal, each of greatest variance orthogonal to the ones before), the covariance shown is diagonal with their variances, the percentage in an axis label is the variance along that axis over the total variance, and if the mean and covariance are those of the scenarios then the mean and covariance shown are those of the scenarios shown.", "quantifier": "all means, covariances, scenarios, eigen-solvers and sorting routines", "why_tests_cant": "all covariances", "anchors": ["pyvallocation/plotting.py:plot_assumptions_3d", "pyvallocation/plotting.py:_project_to_3d"]}
{"id": "C177", "title": "The ellipsoid drawn is the n_std ellipsoid of the covariance", "statement": "Every mesh point lies on the ellipsoid of n_std standard deviations (with 1e-16 added to the variances), which in every direction stays within n_std standard deviations of the mean; the principal axes end on the one-standard-deviation ellipsoid. The mesh is closed (first and last meridian coincide, the poles are single opposite points).", "quantifier": "all covariances, radii, resolutions and eigen-solvers", "why_tests_cant": "all covariances", "anchors": ["pyvallocation/plotting.py:_ellipsoid_mesh", "pyvallocation/plotting.py:plot_assumptions_3d"]}
{"id": "C178", "title": "Scenarios in the 3D picture are thinned evenly", "statement": "At most max_points scenarios are drawn: all if there are no more, otherwise max_points different ones in order, the first and the last among them, with gaps that differ by at most one.", "quantifier": "all numbers of scenarios and max_points", "why_tests_cant": "all sizes", "anchors": ["pyvallocation/plotting.py:plot_assumptions_3d"]}
{"id": "C179", "title": "The CVaR frontier is determined by its inputs", "statement": "For scenarios, min_cvar_at_return reports the same CVaR with any two correct convex solvers, and cvar_frontier the same returns and CVaRs.", "quantifier": "all scenarios, probabilities, constraints admitting a bounded non-empty set of portfolios, tail levels, frontier sizes and correct solvers", "why_tests_cant": "all solvers", "anchors": ["pyvallocation/portfolioapi.py:PortfolioWrapper.cvar_frontier", "pyvallocation/portfolioapi.py:PortfolioWrapper.min_cvar_at_return", "pyvallocation/optimization.py:MeanCVaR"]}
{"id": "C180", "title": "Risk along a frontier is monotone and convex", "statement": "Along a variance frontier (and along a CVaR frontier on scenarios where no admitted portfolio has negative CVaR) without trading costs the risk never decreases, and every portfolio's risk is at most the average of its neighbours'.", "quantifier": "all means, covariances, scenarios, constraints with an inequality among them admitting a bounded non-empty set of portfolios, frontier sizes and correct solvers", "why_tests_cant": "all inputs and solvers", "anchors": ["pyvallocation/portfolioapi.py:PortfolioWrapper.variance_frontier", "pyvallocation/portfolioapi.py:PortfolioWrapper.cvar_frontier", "pyvallocation/optimization.py:_FrontierMixin._frontier"]}
{"id": "C181", "title": "More freedom never costs risk", "statement": "If a second call admits every portfolio of the first - the same assets or more, weaker constraints, an equal or lower target return - then it finds a portfolio whenever the first does, and its volatility (min_variance_at_return) or CVaR (min_cvar_at_return) is not larger.", "quantifier": "all pairs of universes, moments or scenarios agreeing on the common assets, bounded constraint sets, targets and correct solvers, without trading costs", "why_tests_cant": "all pairs of calls", "anchors": ["pyvallocation/portfolioapi.py:PortfolioWrapper.min_variance_at_return", "pyvallocation/portfolioapi.py:PortfolioWrapper.min_cvar_at_return"]}
{"id": "C182", "title": "Portfolios do not depend on the units of returns", "statement": "Multiplying means and targets by k > 0 and covariances by k^2 (percentages instead of fractions) leaves the optimal portfolios unchanged and multiplies returns and volatilities by k.", "quantifier": "all k > 0, means, positive definite covariances, bounded constraints, targets, frontier sizes and correct solvers, without trading costs", "why_tests_cant": "all inputs", "anchors": ["pyvallocation/portfolioapi.py:PortfolioWrapper.min_variance_at_return", "pyvallocation/portfolioapi.py:PortfolioWrapper.variance_frontier", "pyvallocation/optimization.py:_FrontierMixin._frontier"]}
{"id": "C183", "title": "A lot is a big share", "statement": "With positive lot sizes, discretize_weights in lots gives the same outcome as allocating single units priced at a whole lot each: the same errors, leftover cash, achieved weights and tracking error, and shares equal to the units times the lot size.", "quantifier": "all weights, prices, amounts, positive lot sizes, methods, iteration caps, fallback modes, sorts and solvers that are functions of the weights and of the programme", "why_tests_cant": "all runs", "anchors": ["pyvallocation/discrete_allocation.py:discretize_weights", "pyvallocation/discrete_allocation.py:allocate_greedy", "pyvallocation/discrete_allocation.py:allocate_mip"]}
{"id": "C184", "title": "Only relative weights matter to the allocator", "statement": "Multiplying all weights by a positive factor changes nothing in discretize_weights as long as no weight crosses the cut-off of 1e-8 below which weights are ignored.", "quantifier": "all weights, factors, prices, amounts, lots, methods and solvers", "why_tests_cant": "all inputs", "anchors": ["pyvallocation/discrete_allocation.py:DiscreteAllocationInput.__post_init__", "pyvallocation/discrete_allocation.py:discretize_weights"]}
{"id": "C185", "title": "The allocation does not depend on the currency", "statement": "Multiplying prices and the amount by k > 0 leaves the shares, achieved weights and tracking error of the greedy allocation unchanged and multiplies the leftover cash by k.", "quantifier": "all valid long-only inputs, k, caps and sorts", "why_tests_cant": "all inputs", "anchors": ["pyvallocation/discrete_allocation.py:allocate_greedy"]}
{"id": "C186", "title": "The allocation does not depend on the order of the assets", "statement": "With distinct kept weights, permuting the weights and giving prices and lot sizes in any order leaves every holding, the leftover cash and the tracking error of the greedy allocation unchanged.", "quantifier": "all valid long-only inputs with distinct kept weights, permutations, caps and descending sorts", "why_tests_cant": "all orders", "anchors": ["pyvallocation/discrete_allocation.py:allocate_greedy", "pyvallocation/discrete_allocation.py:discretize_weights"]}
{"id": "C187", "title": "Attainable targets are attained", "statement": "If the target value of every kept asset is a whole number of lots, both allocators buy exactly those lots with no cash left and no tracking error; in particular discretising the achieved weights of a long-only allocation with the money it spent reproduces its shares.", "quantifier": "all valid long-only inputs, caps, sorts, non-negative cash penalties and correct solvers; for the round trip holdings above 1e-8 of the amount", "why_tests_cant": "all inputs", "anchors": ["pyvallocation/discrete_allocation.py:allocate_greedy", "pyvallocation/discrete_allocation.py:allocate_mip", "pyvallocation/discrete_allocation.py:discretize_weights"]}
{"id": "C188", "title": "Views the prior already meets change nothing", "statement": "If every view already holds under the prior scenario probabilities, FlexibleViewsProcessor returns the prior probabilities and the prior's mean and covariance, exactly as without views.", "quantifier": "all scenarios, priors, assets, well-formed views satisfied by the prior and exact entropy-pooling solvers", "why_tests_cant": "all views", "anchors": ["pyvallocation/views.py:FlexibleViewsProcessor", "pyvallocation/views.py:entropy_pooling"]}
{"id": "C189", "title": "The order of views does not matter", "statement": "Writing the entries of the view dictionaries of FlexibleViewsProcessor in another order gives the same posterior probabilities, mean and covariance.", "quantifier": "all scenarios, priors, views of all kinds, permutations of the dictionaries and exact entropy-pooling solvers", "why_tests_cant": "all orders", "anchors": ["pyvallocation/views.py:FlexibleViewsProcessor"]}
{"id": "C190", "title": "The order of scenarios does not matter to views", "statement": "Reordering the scenarios together with the prior probabilities reorders the posterior probabilities in the same way and leaves posterior mean and covariance unchanged.", "quantifier": "all scenarios, priors, views, permutations and exact entropy-pooling solvers; no ties between scenarios of an asset with a CVaR view", "why_tests_cant": "all orders", "anchors": ["pyvallocation/views.py:FlexibleViewsProcessor"]}
{"id": "C191", "title": "The order of assets does not matter to views", "statement": "Listing the assets (columns, labels and vectors of views) in another order leaves the posterior probabilities of FlexibleViewsProcessor unchanged and lists posterior mean and covariance in that order.", "quantifier": "all scenarios, priors, views, permutations and exact entropy-pooling solvers; CVaR views as a dictionary", "why_tests_cant": "all orders", "anchors": ["pyvallocation/views.py:FlexibleViewsProcessor"]}
{"id": "C192", "title": "Variance and volatility of one or many portfolios", "statement": "portfolio_variance returns w'Cw: a number for a weight vector or a single column, otherwise an array with one entry per column; portfolio_volatility returns the square roots. For a covariance matrix the volatilities are never NaN, non-negative, absolutely homogeneous and subadditive, and with the covariance of scenarios the variance is that of the portfolio's outcomes. A covariance that is not square over the instruments is rejected.", "quantifier": "all weights, numbers of instruments and portfolios, and covariance arrays", "why_tests_cant": "all inputs", "anchors": ["pyvallocation/utils/functions.py:portfolio_variance", "pyvallocation/utils/functions.py:portfolio_volatility", "pyvallocation/utils/functions.py:_ensure_weights_matrix"]}
{"id": "C193", "title": "VaR and CVaR of many portfolios", "statement": "For a weight matrix portfolio_var and portfolio_cvar give, for every portfolio, the number they give for that column alone - its VaR and CVaR under the probabilities; a single portfolio gives a number, several give one entry per portfolio in order. Scenario matrices and probability vectors of the wrong size and confidences outside (0,1) raise ValueError.", "quantifier": "all weights, numbers of portfolios, scenarios, probabilities, confidences and tie orders of the sort", "why_tests_cant": "all inputs", "anchors": ["pyvallocation/utils/functions.py:portfolio_var", "pyvallocation/utils/functions.py:portfolio_cvar"]}
{"id": "C194", "title": "Black-Litterman targets move only the mean, and linearly", "statement": "In BlackLittermanProcessor the numbers asked for by the views affect only the posterior mean: whether the call succeeds and the posterior covariance do not depend on them, and targets between two sets of targets give the mean between the two posterior means. Views that ask for exactly the prior values leave the prior mean unchanged, whatever their confidence, and with the default view uncertainty a single view moves the quantity it speaks about exactly half of the way to its target.", "quantifier": "all covariances, priors, views, targets, confidences and view uncertainties", "why_tests_cant": "linearity in the targets is a statement about pairs of calls", "anchors": ["pyvallocation/views.py:BlackLittermanProcessor", "pyvallocation/views.py:BlackLittermanProcessor._compute_posterior"]}
{"id": "C195", "title": "The order of Black-Litterman views does not matter", "statement": "Listing the views in another order, with array confidences and given view uncertainties in that order too, gives the same posterior mean and covariance or the same error.", "quantifier": "all view lists and reorderings", "why_tests_cant": "all reorderings of all view lists", "anchors": ["pyvallocation/views.py:BlackLittermanProcessor", "pyvallocation/views.py:BlackLittermanProcessor._build_views"]}
{"id": "C196", "title": "The order of assets does not matter to Black-Litterman", "statement": "Listing covariance, labels, prior mean or market weights in another order gives the posterior mean and covariance in that order, or the same error, when labels are distinct and the views name assets by label.", "quantifier": "all inputs and reorderings of the assets", "why_tests_cant": "all reorderings", "anchors": ["pyvallocation/views.py:BlackLittermanProcessor"]}
{"id": "C197", "title": "Black-Litterman does not depend on the units of returns", "statement": "With prior means and targets multiplied by k > 0, covariance and given view variances by k^2 and the risk aversion divided by k, the posterior mean is multiplied by k and the posterior covariance by k^2; errors are unchanged.", "quantifier": "all k > 0, all symmetric covariances and views", "why_tests_cant": "all scale factors", "anchors": ["pyvallocation/views.py:BlackLittermanProcessor"]}
{"id": "C198", "title": "Frontier portfolios are evenly spaced in expected return", "statement": "Unless the frontier consists of a single portfolio, variance_frontier and cvar_frontier step from the least-risk portfolio to the greatest attainable expected return in equal steps of expected return, whenever all least-risk portfolios have the same expected return (in particular for a positive definite covariance).", "quantifier": "all moments or scenarios, constraints with an inequality among them, numbers of portfolios and correct solvers (variance: also quadratic trading costs)", "why_tests_cant": "all optimisation problems and solvers", "anchors": ["pyvallocation/portfolioapi.py:PortfolioWrapper.variance_frontier", "pyvallocation/portfolioapi.py:PortfolioWrapper.cvar_frontier", "pyvallocation/optimization.py:_FrontierMixin._frontier"]}
{"id": "C199", "title": "Only the distribution of the scenarios matters", "statement": "Two scenario lists with probabilities under which every joint outcome has the same probability (scenarios split, merged, reordered, or of probability zero added) give the same mean and covariance in estimate_sample_moments, the same portfolio_var and portfolio_cvar for every portfolio, demeaned or not, the same least CVaR in min_cvar_at_return (or infeasibility on both), and CVaR frontiers with the same returns and CVaRs whenever the least-CVaR portfolios agree on their return.", "quantifier": "all pairs of scenario lists of any lengths with the same distribution, portfolios, confidences, constraints, correct solvers and tie orders", "why_tests_cant": "all equivalent descriptions of a distribution", "anchors": ["pyvallocation/utils/functions.py:portfolio_var", "pyvallocation/utils/functions.py:portfolio_cvar", "pyvallocation/moments.py:estimate_sample_moments", "pyvallocation/portfolioapi.py:PortfolioWrapper.min_cvar_at_return", "pyvallocation/portfolioapi.py:PortfolioWrapper.cvar_frontier"]}
{"id": "C200", "title": "A frontier is built only from pieces that fit", "statement": "PortfolioFrontier raises ValueError unless there is one return, one risk and one value of every alternate risk measure per column of weights, and one asset name per row when names are given; otherwise it holds exactly what it was given.", "quantifier": "all weight matrices, vectors, names and alternate risks of all sizes", "why_tests_cant": "all combinations of shapes", "anchors": ["pyvallocation/portfolioapi.py:PortfolioFrontier.__post_init__"]}
{"id": "C201", "title": "Selections carry the asset labels", "statement": "Every selection from a frontier is a Series listing the picked weights in row order under the frontier's asset names (positions 0..N-1 without names), with the pick's return and risk. In an ensemble the pick enters the selection table under the same labels and the specification's name; a custom selector's Series keeps its own labels, its array is labelled like the frontier's rows (ValueError for a wrong length when there are names), alone or first in a tuple. Averaging the selections gives each asset held by all frontiers, at whatever row, the weighted sum of its picked weights.", "quantifier": "all frontiers, selectors, selector outputs, numbers of specifications and orders of assets", "why_tests_cant": "all label orders and selector outputs", "anchors": ["pyvallocation/portfolioapi.py:PortfolioFrontier._to_pandas", "pyvallocation/utils/weights.py:wrap_exposure_vector", "pyvallocation/ensembles.py:_coerce_weights_series", "pyvallocation/ensembles.py:_build_selector"]}
{"id": "C202", "title": "A frontier advertises the risk measures it accepts", "statement": "available_risk_measures lists exactly the labels accepted as risk_label; any other label raises KeyError.", "quantifier": "all frontiers and labels", "why_tests_cant": "all labels", "anchors": ["pyvallocation/portfolioapi.py:PortfolioFrontier.available_risk_measures", "pyvallocation/portfolioapi.py:PortfolioFrontier._risk_vector"]}
{"id": "C203", "title": "Optimiser classes reject matrices of the wrong shape", "statement": "MeanVariance and RelaxedRiskParity use G w <= h and A w = b row by row when there is one column per asset and one right-hand side per row, and reject anything else, including a matrix without right-hand side; so do a covariance that does not match the mean and risk budgets of another length.", "quantifier": "all matrices, vectors and shapes", "why_tests_cant": "all shapes", "anchors": ["pyvallocation/optimization.py:RelaxedRiskParity._extract_user_constraints", "pyvallocation/optimization.py:RelaxedRiskParity", "pyvallocation/optimization.py:MeanVariance", "pyvallocation/optimization.py:_BaseOptimization._init_constraints"]}
{"id": "C204", "title": "Constraint matrices may be written as lists of rows", "statement": "A constraint matrix passed to MeanVariance or RelaxedRiskParity as a nested list means the same as the array with those rows.", "quantifier": "all matrices", "why_tests_cant": "all matrices", "anchors": ["pyvallocation/optimization.py:_BaseOptimization._init_constraints"]}
{"id": "C205", "title": "Only the distribution of the scenarios matters to views", "statement": "Two scenario lists with prior probabilities under which every joint outcome has the same probability (scenarios split, merged, duplicated or listed differently) give FlexibleViewsProcessor the same posterior mean and covariance and posteriors under which every joint outcome has the same probability, or raise on both; scenarios with the same outcome keep their prior odds.", "quantifier": "all pairs of scenario lists of any lengths with the same distribution, all views, both modes and exact entropy-pooling solvers", "why_tests_cant": "all equivalent descriptions of a distribution", "anchors": ["pyvallocation/views.py:FlexibleViewsProcessor", "pyvallocation/views.py:FlexibleViewsProcessor._compute_posterior_probabilities", "pyvallocation/views.py:FlexibleViewsProcessor._solve_cvar_view"]}
{"id": "C206", "title": "Views move the model towards every distribution that satisfies them", "statement": "With mean and quantile views, the posterior of FlexibleViewsProcessor is at most as far, in relative entropy, as the prior from any distribution over the scenarios that satisfies all the views, and strictly closer unless it is the prior; with one kind only, the gain is at least the distance from prior to posterior.", "quantifier": "all scenarios, priors, mean and quantile views, target distributions, both modes and exact entropy-pooling solvers", "why_tests_cant": "all distributions satisfying the views", "anchors": ["pyvallocation/views.py:FlexibleViewsProcessor", "pyvallocation/views.py:entropy_pooling"]}
{"id": "C207", "title": "Stronger views move the model further", "statement": "If every distribution satisfying the second set of mean views (or of quantile views) satisfies the first set (views added, bounds tightened), the second posterior is at least as far from the prior as the first, and equal to it when the first posterior already satisfies the second set.", "quantifier": "all scenarios, priors and pairs of view sets, both modes and exact entropy-pooling solvers", "why_tests_cant": "all pairs of view sets", "anchors": ["pyvallocation/views.py:FlexibleViewsProcessor"]}
{"id": "C208", "title": "Views can be entered in instalments", "statement": "After a call with equality views on means, a second FlexibleViewsProcessor call that uses the first posterior as prior_probabilities and states views implying the first ones gives exactly what a single call from the original prior gives, including whether it raises; in particular repeating a call from its own posterior changes nothing.", "quantifier": "all scenarios, priors, first equality views on means, second mean and quantile views, both modes and exact entropy-pooling solvers", "why_tests_cant": "histories of calls", "anchors": ["pyvallocation/views.py:FlexibleViewsProcessor"]}
{"id": "C209", "title": "Trading pays for itself", "statement": "When the current holdings satisfy the constraints and reach the target, min_variance_at_return with market-impact costs and min_cvar_at_return with proportional costs save at least as much variance (CVaR) as the trade costs, so the result is never riskier than the current holdings; if no allowed portfolio reaching the target has less risk than the current holdings, the result has exactly their risk, and with positive costs they are kept unchanged.", "quantifier": "all moments or scenarios, constraints, holdings, non-negative costs (passed to the call or to the constructor), targets and correct solvers", "why_tests_cant": "all optimisation problems", "anchors": ["pyvallocation/portfolioapi.py:PortfolioWrapper.min_variance_at_return", "pyvallocation/portfolioapi.py:PortfolioWrapper.min_cvar_at_return", "pyvallocation/portfolioapi.py:PortfolioWrapper._apply_transaction_costs"]}
{"id": "C210", "title": "Higher costs trade less", "statement": "Of two calls of min_variance_at_return (market impact) or min_cvar_at_return (proportional costs) that differ only in the level of the costs, the one with the higher level trades no more, as measured by the costs, and its result has no smaller risk.", "quantifier": "all moments or scenarios, constraints, holdings, cost vectors, pairs of levels, targets and correct solvers", "why_tests_cant": "all pairs of calls", "anchors": ["pyvallocation/portfolioapi.py:PortfolioWrapper.min_variance_at_return", "pyvallocation/portfolioapi.py:PortfolioWrapper.min_cvar_at_return"]}
{"id": "C211", "title": "A distribution does not change after its construction", "statement": "Once AssetsDistribution has been built, its mean, covariance, scenarios, probabilities and names stay what they were, whatever the caller does to the arrays that were passed.", "quantifier": "all arguments and all histories of in-place assignments to the caller's arrays", "why_tests_cant": "all histories of later assignments", "anchors": ["pyvallocation/portfolioapi.py:AssetsDistribution", "pyvallocation/portfolioapi.py:AssetsDistribution.__post_init__"]}
{"id": "C212", "title": "A specification does not change after it was made", "statement": "The frontier, selector and metadata of a specification made by make_portfolio_spec are those determined by the arguments at the time it was made, whatever the caller does to the dictionaries and data that were passed.", "quantifier": "all arguments and all later contents of the caller's objects", "why_tests_cant": "all histories between making and running", "anchors": ["pyvallocation/ensembles.py:make_portfolio_spec", "pyvallocation/ensembles.py:_build_distribution"]}
{"id": "C213", "title": "The frontier answers the query for its own returns", "statement": "Asking min_variance_at_return (min_cvar_at_return) for the return of any portfolio of the frontier computed from the same inputs succeeds and reports that portfolio's risk when risk alone is minimised; with a positive definite covariance it is that portfolio.", "quantifier": "all moments or scenarios, bounded feasible constraints with an inequality among them, frontier lengths, columns and correct solvers", "why_tests_cant": "all optimisation problems", "anchors": ["pyvallocation/portfolioapi.py:PortfolioWrapper.variance_frontier", "pyvallocation/portfolioapi.py:PortfolioWrapper.min_variance_at_return", "pyvallocation/portfolioapi.py:PortfolioWrapper.cvar_frontier", "pyvallocation/portfolioapi.py:PortfolioWrapper.min_cvar_at_return"]}
{"id": "C214", "title": "Deeper tails are never safer", "statement": "The CVaR of the portfolio returned by min_cvar_at_return for a smaller alpha is at least that of the one returned for a larger alpha at the same target, which is at least its expected loss; both calls succeed or both report infeasibility. The reported risk is the absolute value of the CVaR.", "quantifier": "all scenarios, bounded constraints, targets, pairs of tail probabilities and correct solvers", "why_tests_cant": "all optimisation problems", "anchors": ["pyvallocation/portfolioapi.py:PortfolioWrapper.min_cvar_at_return", "pyvallocation/optimization.py:MeanCVaR"]}
{"id": "C215", "title": "How constraints are written does not matter", "statement": "Two sets of constraints allowing the same portfolios give the same risk at every target return, or both report infeasibility; with a positive definite covariance the same portfolio and the same variance frontier.", "quantifier": "all pairs of constraint descriptions with the same allowed portfolios, all moments or scenarios, targets and correct solvers", "why_tests_cant": "all descriptions of a set of portfolios", "anchors": ["pyvallocation/portfolioapi.py:PortfolioWrapper._resolve_constraints", "pyvallocation/portfolioapi.py:PortfolioWrapper.min_variance_at_return", "pyvallocation/portfolioapi.py:PortfolioWrapper.min_cvar_at_return", "pyvallocation/portfolioapi.py:PortfolioWrapper.variance_frontier"]}
{"id": "C216", "title": "Budgets can be stated in any currency unit", "statement": "When every amount in the constraints (total weight, bounds, relative and group limits, right-hand sides) and the target return are multiplied by k > 0, the constraints stay acceptable and the result's risk is multiplied by k; with a positive definite covariance so are every weight and the return.", "quantifier": "all moments or scenarios, constraints, factors, targets and correct solvers", "why_tests_cant": "all optimisation problems", "anchors": ["pyvallocation/portfolioapi.py:PortfolioWrapper.min_variance_at_return", "pyvallocation/portfolioapi.py:PortfolioWrapper.min_cvar_at_return", "pyvallocation/utils/constraints.py:build_G_h_A_b"]}
{"id": "C217", "title": "Listing an asset twice adds nothing", "statement": "If some assets are listed several times (same mean, covariances and scenarios) and the constraints only look at the total held in each asset, min_variance_at_return and min_cvar_at_return report the same risk as without the copies, or both report infeasibility; the default constraints are of this kind.", "quantifier": "all moments or scenarios, numbers of copies, constraints, targets and correct solvers", "why_tests_cant": "all optimisation problems", "anchors": ["pyvallocation/portfolioapi.py:PortfolioWrapper.min_variance_at_return", "pyvallocation/portfolioapi.py:PortfolioWrapper.min_cvar_at_return"]}
{"id": "C218", "title": "A finer frontier passes through the coarser one", "statement": "With n + 1 and m n + 1 portfolios asked for, every m-th portfolio of the longer variance frontier is the corresponding portfolio of the shorter one (positive definite covariance); for CVaR frontiers the returns and risks agree whenever the portfolios of least CVaR have one return.", "quantifier": "all moments or scenarios, bounded feasible constraints with an inequality among them, n, m and correct solvers", "why_tests_cant": "all optimisation problems and lengths", "anchors": ["pyvallocation/portfolioapi.py:PortfolioWrapper.variance_frontier", "pyvallocation/portfolioapi.py:PortfolioWrapper.cvar_frontier", "pyvallocation/optimization.py:MeanVariance.efficient_frontier"]}
{"id": "C219", "title": "The mixed-integer allocator is never beaten by the greedy one", "statement": "On long-only targets with an exact solver and no cash penalty, discretize_weights with method milp has a tracking error at most that of method greedy; with a penalty the same holds for tracking error in currency plus penalised cash.", "quantifier": "all long-only weights, prices, amounts, lot sizes, penalties and exact solvers", "why_tests_cant": "all inputs", "anchors": ["pyvallocation/discrete_allocation.py:discretize_weights", "pyvallocation/discrete_allocation.py:allocate_mip", "pyvallocation/discrete_allocation.py:allocate_greedy"]}
{"id": "C220", "title": "Large amounts are tracked arbitrarily closely", "statement": "For long-only targets and every tolerance there is an amount from which on the greedy allocation succeeds with tracking error and cash fraction below the tolerance.", "quantifier": "all long-only weights, prices, lot sizes and tolerances", "why_tests_cant": "all amounts", "anchors": ["pyvallocation/discrete_allocation.py:discretize_weights"]}
{"id": "C221", "title": "Stress tests on risk drivers", "statement": "stress_invariants without stress views describes (mean, standard deviation, VaR, CVaR, ENS) the portfolio's P&L over equally likely simulations, each the repricing of a sum of horizon rows of the history drawn uniformly, the weights matched with the instruments by name. With stress views it adds a row for the same portfolio over simulations whose rows are drawn from a distribution over the history satisfying every view, with exact optimisation the closest one to uniform, repriced in the same way.", "quantifier": "all histories, repricings, weights, stress views, seeds, horizons, numbers of simulations and generators", "why_tests_cant": "all inputs and draws", "anchors": ["pyvallocation/stress.py:stress_invariants"]}
{"id": "C222", "title": "Stress views that already hold change nothing", "statement": "If the stress views hold over the equally weighted history, the stressed row of stress_invariants equals the nominal row.", "quantifier": "all histories, repricings, weights, views satisfied by the history and generators", "why_tests_cant": "all inputs and draws", "anchors": ["pyvallocation/stress.py:stress_invariants"]}
{"id": "C223", "title": "stress_invariants accepts sound input", "statement": "stress_invariants succeeds on every non-empty history with a repricing that fits its drivers, one weight per P&L column (array, or dict by name), positive horizon and number of simulations, confidence in (0, 1) and stress views that some reweighting of the history satisfies.", "quantifier": "all histories with any number of drivers, repricings, weights, views, seeds and generators", "why_tests_cant": "all inputs", "anchors": ["pyvallocation/stress.py:stress_invariants"]}
{"id": "C224", "title": "Averaging or stacking strategies blends returns and never adds risk", "statement": "Every ensemble portfolio of assemble_portfolio_ensemble is a convex blend of the strategies' portfolios (equal shares for the default average): it satisfies every constraint specification that all of them satisfy, its expected return is the blend of theirs, and its volatility and its CVaR are at most the blend of theirs, under any mean, covariance, scenarios and tail probability. Caller-supplied ensemble weights are non-negative.", "quantifier": "all lists of strategies, ensemble entries, fold counts, non-negative weights, moments, scenarios and correct solvers", "why_tests_cant": "all strategies and all measures of risk at once", "anchors": ["pyvallocation/ensembles.py:assemble_portfolio_ensemble", "pyvallocation/ensembles.py:average_exposures", "pyvallocation/ensembles.py:exposure_stacking"]}
{"id": "C225", "title": "The order of the strategies does not matter to an ensemble", "statement": "Listing the strategies in another order gives the same ensemble portfolios, ensemble weights being omitted or given by name.", "quantifier": "all lists of strategies and their reorderings, fold counts and correct solvers", "why_tests_cant": "all permutations", "anchors": ["pyvallocation/ensembles.py:assemble_portfolio_ensemble", "pyvallocation/ensembles.py:exposure_stacking", "pyvallocation/ensembles.py:average_exposures"]}
{"id": "C226", "title": "Robust portfolios do not depend on the order of the assets", "statement": "Listing the assets in another order (mean, uncertainty and constraints reordered alike) reorders the weights of the robust optimiser's penalised portfolio in the same way and leaves its return and risk unchanged.", "quantifier": "all means, uncertainty matrices, constraints, penalties, reorderings and correct solvers", "why_tests_cant": "all permutations", "anchors": ["pyvallocation/optimization.py:RobustOptimizer.solve_lambda_variant"]}
{"id": "C227", "title": "Bayesian estimation commutes with forming portfolios", "statement": "Feeding the normal-inverse-Wishart prior and the sample moments of independent portfolios of the assets (other units, another order, part of the assets, genuine mixtures) gives the posterior mean, mean uncertainty and covariance of those portfolios.", "quantifier": "all priors, samples, mixing matrices of full row rank and radii", "why_tests_cant": "all linear maps", "anchors": ["pyvallocation/bayesian.py:NIWPosterior.update", "pyvallocation/bayesian.py:NIWPosterior.get_mu_ce", "pyvallocation/bayesian.py:NIWPosterior.get_S_mu", "pyvallocation/bayesian.py:NIWPosterior.get_sigma_ce", "pyvallocation/bayesian.py:RobustBayesPosterior.from_niw"]}
{"id": "C228", "title": "Assets without views do not influence the Black-Litterman posterior of the others", "statement": "Leaving out assets that no view names (and, when the prior comes from market weights, that have no weight) gives the remaining assets the same Black-Litterman posterior mean and covariance.", "quantifier": "all covariances, priors, views by label, confidences, uncertainty settings and sets of assets without views", "why_tests_cant": "all subsets of assets", "anchors": ["pyvallocation/views.py:BlackLittermanProcessor"]}
{"id": "C229", "title": "Assets that no view names do not influence the posterior of the others", "statement": "Leaving out assets that no view names gives FlexibleViewsProcessor the same posterior scenario probabilities, and the remaining assets the same posterior mean and covariance, or the same error. Views are given by label and at least two assets remain.", "quantifier": "all scenario matrices, priors, views of every kind, both modes, sets of assets and entropy-pooling solvers", "why_tests_cant": "all subsets of assets", "anchors": ["pyvallocation/views.py:FlexibleViewsProcessor", "pyvallocation/views.py:FlexibleViewsProcessor._asset_idx"]}
{"id": "C230", "title": "The unit in which returns are expressed does not matter to views", "statement": "Expressing each asset's returns, and the targets of the views on it, in another unit leaves the posterior probabilities of FlexibleViewsProcessor unchanged and scales the posterior mean and covariance accordingly; assets compared with each other share a unit.", "quantifier": "all scenario matrices, priors, views of every kind, both modes, units and exact entropy-pooling solvers", "why_tests_cant": "all units", "anchors": ["pyvallocation/views.py:FlexibleViewsProcessor"]}
{"id": "C231", "title": "Estimation commutes with forming portfolios", "statement": "The sample mean and the sample and exponentially weighted covariances of portfolios of the assets are those of the assets mapped through the portfolio weights, or the same error arises; the sample, Huber and median-of-means means and the sample and exponentially weighted covariances of an asset do not depend on which other assets are in the panel.", "quantifier": "all return panels (of at least two assets when no probabilities are given), probabilities, portfolio matrices, subsets of assets and estimator settings", "why_tests_cant": "all linear maps and subsets", "anchors": ["pyvallocation/moments.py:estimate_moments", "pyvallocation/moments.py:estimate_sample_moments", "pyvallocation/moments.py:covariance_ewma", "pyvallocation/moments.py:robust_mean_huber", "pyvallocation/moments.py:robust_mean_median_of_means"]}
{"id": "C232", "title": "Finer lots never track worse", "statement": "When every lot size is a multiple of the new one, discretize_weights with method milp and the new lot sizes succeeds as well, and its tracking error in currency plus penalised cash (its tracking error, without a cash penalty) is not larger. Long-only targets, exact solver.", "quantifier": "all long-only weights, prices, amounts, pairs of lot sizes, penalties and exact solvers", "why_tests_cant": "all pairs of lot sizes", "anchors": ["pyvallocation/discrete_allocation.py:discretize_weights", "pyvallocation/discrete_allocation.py:allocate_mip"]}
{"id": "C233", "title": "Excluding an asset by its bounds is the same as not listing it", "statement": "If the constraints force some assets to zero (bounds (0, 0)) and otherwise say what they say for the other assets, min_variance_at_return and min_cvar_at_return report the same risk as without these assets, or both report infeasibility; with a positive definite covariance of the others the portfolio and the variance frontier are the same, the excluded assets not being held. CVaR frontiers have the same returns and CVaRs whenever the least-CVaR portfolios agree on their return.", "quantifier": "all moments or scenarios, constraints that bound the weights, sets of excluded assets, targets and correct solvers, without transaction costs", "why_tests_cant": "all optimisation problems", "anchors": ["pyvallocation/portfolioapi.py:PortfolioWrapper.min_variance_at_return", "pyvallocation/portfolioapi.py:PortfolioWrapper.min_cvar_at_return", "pyvallocation/portfolioapi.py:PortfolioWrapper.variance_frontier", "pyvallocation/portfolioapi.py:PortfolioWrapper.cvar_frontier", "pyvallocation/utils/constraints.py:build_G_h_A_b"]}
{"id": "C234", "title": "The currency of prices does not matter", "statement": "Quoting each asset's prices in another currency or unit gives from_prices the same distribution and pandas_to_numpy_returns the same returns (simple or logarithmic, every way of filling gaps), or the same error.", "quantifier": "all price tables with missing or infinite entries, positive exchange rates, columns and options", "why_tests_cant": "all price tables and rates", "anchors": ["pyvallocation/portfolioapi.py:PortfolioWrapper.from_prices", "pyvallocation/utils/data_helpers.py:pandas_to_numpy_returns"]}
{"id": "C235", "title": "Returns do not look ahead", "statement": "Unless gaps are filled backwards (bfill), the returns pandas_to_numpy_returns computes from the first rows of a price history are the first of those it computes from the whole history.", "quantifier": "all price histories, continuations, columns and options", "why_tests_cant": "all histories and continuations", "anchors": ["pyvallocation/utils/data_helpers.py:pandas_to_numpy_returns"]}
{"id": "C236", "title": "Slower forgetting uses more of the history", "statement": "A longer half-life in generate_exp_decay_probabilities and a wider bandwidth in generate_gaussian_kernel_probabilities never lower the effective number of scenarios (entropy based or inverse Herfindahl), and the average age (squared distance from the reference point) never falls; with infinite bandwidth every scenario has the same probability.", "quantifier": "all numbers of scenarios, half-lives, reference values and bandwidths", "why_tests_cant": "all pairs of settings", "anchors": ["pyvallocation/probabilities.py:generate_exp_decay_probabilities", "pyvallocation/probabilities.py:generate_gaussian_kernel_probabilities", "pyvallocation/probabilities.py:compute_effective_number_scenarios", "pyvallocation/probabilities.py:compute_effective_number_scenarios_hhi"]}
{"id": "C237", "title": "Penalising and capping estimation risk are two sides of one coin", "statement": "Giving solve_robust_gamma_portfolio the squared estimation risk of a portfolio of robust_lambda_frontier with positive penalty as cap, with a smaller penalty, succeeds and reports that portfolio's expected return and squared estimation risk; a cap that the portfolio respects leaves the penalised compromise unchanged.", "quantifier": "all moments, uncertainty matrices with a Cholesky factor, bounded feasible constraints, penalties, columns and correct solvers", "why_tests_cant": "all optimisation problems", "anchors": ["pyvallocation/portfolioapi.py:PortfolioWrapper.robust_lambda_frontier", "pyvallocation/portfolioapi.py:PortfolioWrapper.solve_robust_gamma_portfolio"]}
{"id": "C238", "title": "Data overwhelm the prior, and a firm prior overwhelms the data", "statement": "As observations accumulate and the sample moments settle, RobustBayesPosterior.from_niw gives posterior means and covariances that tend to the sample's limits and an uncertainty of the mean that tends to zero, whatever the prior; as the prior counts grow against a fixed sample they tend to the prior's. With ever more observations cred_radius_mu tends to zero and cred_radius_sigma_factor to one.", "quantifier": "all priors and sequences of samples with positive definite covariances, and all confidence levels", "why_tests_cant": "limits of infinite sequences", "anchors": ["pyvallocation/bayesian.py:RobustBayesPosterior.from_niw", "pyvallocation/bayesian.py:NIWPosterior.update", "pyvallocation/bayesian.py:RobustBayesPosterior.cred_radius_mu", "pyvallocation/bayesian.py:RobustBayesPosterior.cred_radius_sigma_factor"]}
{"id": "C239", "title": "The order in which assets are listed does not matter to the optimal portfolio", "statement": "If assets, moments or scenarios, and constraints (bounds, relative bounds, groups, extra rows) are rearranged alike, the constraints are accepted alike and allow the same portfolios; min_variance_at_return and min_cvar_at_return report the same risk, or both report infeasibility, and with a positive definite covariance the portfolio is the same one in the other order. CVaR frontiers have the same returns and CVaRs whenever the least-CVaR portfolios agree on their return.", "quantifier": "all moments or scenarios, constraints that bound the weights, permutations, targets and correct solvers, without transaction costs", "why_tests_cant": "all optimisation problems and permutations", "anchors": ["pyvallocation/portfolioapi.py:PortfolioWrapper.cvar_frontier", "pyvallocation/portfolioapi.py:PortfolioWrapper.min_variance_at_return", "pyvallocation/portfolioapi.py:PortfolioWrapper.min_cvar_at_return", "pyvallocation/utils/constraints.py:build_G_h_A_b"]}
{"id": "C240", "title": "max_cash limits the money left over", "statement": "discretize_weights with method milp and max_cash leaves at most that much money; for long-only targets it succeeds exactly if some whole-lot allocation within the amount leaves at most max_cash, and gives the best of these (tracking error in currency plus penalised cash), raising RuntimeError otherwise. A looser limit never makes the compromise worse.", "quantifier": "all weights, prices, amounts, lot sizes, penalties, limits and exact solvers", "why_tests_cant": "all integer programmes", "anchors": ["pyvallocation/discrete_allocation.py:discretize_weights", "pyvallocation/discrete_allocation.py:allocate_mip"]}
{"id": "C241", "title": "Options of the allocators reach the allocator they belong to", "statement": "discretize_weights hands its keyword options to the chosen allocator with the documented defaults, refuses options the chosen allocator does not know with TypeError and unknown fallback modes with ValueError; options in fallback_kwargs reach the mixed-integer fallback, and unknown ones are refused.", "quantifier": "all weights, prices, amounts, lot sizes, methods and options", "why_tests_cant": "all combinations of options", "anchors": ["pyvallocation/discrete_allocation.py:discretize_weights", "pyvallocation/discrete_allocation.py:allocate_mip", "pyvallocation/discrete_allocation.py:allocate_greedy"]}
{"id": "C242", "title": "The order in which assets are listed does not matter to relaxed risk parity", "statement": "If assets, moments, constraint rows and risk budgets are rearranged alike, RelaxedRiskParity.solve gives the same portfolio in the other order, with the same marginal risks, average risk, contribution level, objective, target and greatest return.", "quantifier": "all moments, constraints fixing the total weight, budgets, penalties, targets, permutations and correct solvers", "why_tests_cant": "all optimisation problems and permutations", "anchors": ["pyvallocation/optimization.py:RelaxedRiskParity"]}
{"id": "C243", "title": "Relaxed risk parity is determined by its inputs", "statement": "Any two correct solvers and Cholesky routines give RelaxedRiskParity.solve the same result in every field, or the same error; likewise relaxed_risk_parity_portfolio and relaxed_risk_parity_frontier, portfolios and diagnostics alike.", "quantifier": "all moments, constraints, budgets, penalties, targets and pairs of correct solvers", "why_tests_cant": "all solvers", "anchors": ["pyvallocation/optimization.py:RelaxedRiskParity", "pyvallocation/portfolioapi.py:PortfolioWrapper.relaxed_risk_parity_portfolio", "pyvallocation/portfolioapi.py:PortfolioWrapper.relaxed_risk_parity_frontier"]}
{"id": "C244", "title": "Penalised robust portfolios are determined by their inputs", "statement": "When the constraints fix a total weight other than zero, robust_lambda_frontier with positive penalties and solve_robust_gamma_portfolio with a positive penalty return the same portfolios, returns and risks, or raise the same error, whatever correct solver and Cholesky routine are used.", "quantifier": "all moments, uncertainty matrices, constraints with a non-zero total weight, costs, penalties and pairs of correct solvers", "why_tests_cant": "all solvers", "anchors": ["pyvallocation/portfolioapi.py:PortfolioWrapper.robust_lambda_frontier", "pyvallocation/portfolioapi.py:PortfolioWrapper.solve_robust_gamma_portfolio"]}
{"id": "C245", "title": "The unit in which returns are expressed does not matter to relaxed risk parity", "statement": "Expressing returns in another unit (means and targets times k, covariances times k squared) leaves the portfolio of RelaxedRiskParity.solve unchanged and scales its marginal risks, average risk, contribution level, objective, target and greatest return.", "quantifier": "all moments, constraints, budgets, penalties, targets, units and correct solvers", "why_tests_cant": "all optimisation problems and units", "anchors": ["pyvallocation/optimization.py:RelaxedRiskParity.solve"]}
{"id": "C246", "title": "Return has a price in relaxed risk parity", "statement": "Asking RelaxedRiskParity.solve for more return, or for a larger penalty, never improves the reported objective, asking for a return never does better than asking for none, and the objective is convex in the target in force.", "quantifier": "all moments, constraints, budgets, penalties, targets and correct solvers", "why_tests_cant": "all optimisation problems and pairs of targets", "anchors": ["pyvallocation/optimization.py:RelaxedRiskParity.solve"]}
{"id": "C247", "title": "Selectors follow their argument", "statement": "On one frontier: a higher risk-free rate never gives tangency a safer portfolio; a looser cap never makes at_risk fail or lowers its return; a lower floor never makes at_return fail or raises its risk; a higher target never gives closest_risk a safer portfolio; a higher percentile never gives at_percentile a safer portfolio.", "quantifier": "all frontiers, risk labels, pairs of arguments and sort routines", "why_tests_cant": "all frontiers and pairs of arguments", "anchors": ["pyvallocation/portfolioapi.py:PortfolioFrontier.tangency", "pyvallocation/portfolioapi.py:PortfolioFrontier.at_risk", "pyvallocation/portfolioapi.py:PortfolioFrontier.at_return", "pyvallocation/portfolioapi.py:PortfolioFrontier.closest_risk", "pyvallocation/portfolioapi.py:PortfolioFrontier.at_percentile"]}
{"id": "C248", "title": "Firmer Black-Litterman views never increase uncertainty", "statement": "Stating further views, or the same views with more confidence or less uncertainty, never increases the Black-Litterman posterior variance of any portfolio.", "quantifier": "all priors, views, confidences, uncertainties and portfolios", "why_tests_cant": "all priors and views", "anchors": ["pyvallocation/views.py:BlackLittermanProcessor"]}
{"id": "C249", "title": "Certain and vague Black-Litterman views", "statement": "A view given uncertainty zero is met exactly by the Black-Litterman posterior mean; as the given uncertainties of all views grow without bound the posterior mean tends to the prior mean and the covariance to (1 + tau) times the prior covariance.", "quantifier": "all priors, views and uncertainty vectors", "why_tests_cant": "limits over all uncertainties", "anchors": ["pyvallocation/views.py:BlackLittermanProcessor"]}
{"id": "C250", "title": "The level of expected returns does not matter when the total weight is fixed", "statement": "When the constraints fix the total weight, adding a constant to all expected returns (to all scenario outcomes for CVaR) and the corresponding amount to return targets leaves the portfolios of min_variance_at_return, variance_frontier, robust_lambda_frontier and solve_robust_gamma_portfolio unchanged and lowers the CVaR of min_cvar_at_return by that amount.", "quantifier": "all moments and scenarios, constraints fixing the total weight, costs, targets, shifts and correct solvers", "why_tests_cant": "all optimisation problems and shifts", "anchors": ["pyvallocation/portfolioapi.py:PortfolioWrapper.variance_frontier", "pyvallocation/portfolioapi.py:PortfolioWrapper.min_variance_at_return", "pyvallocation/portfolioapi.py:PortfolioWrapper.min_cvar_at_return", "pyvallocation/portfolioapi.py:PortfolioWrapper.robust_lambda_frontier"]}
{"id": "C251", "title": "The minimum-variance portfolio does not depend on expected returns", "statement": "min_risk on a variance frontier returns the same portfolio and volatility whatever the expected returns and the number of portfolios asked for; it is the allowed portfolio of least variance.", "quantifier": "all positive definite covariances, pairs of mean vectors, feasible constraints that bound the weights, frontier sizes and correct solvers", "why_tests_cant": "all optimisation problems", "anchors": ["pyvallocation/portfolioapi.py:PortfolioWrapper.variance_frontier", "pyvallocation/portfolioapi.py:PortfolioFrontier.min_risk"]}
{"id": "C252", "title": "Only relative risk budgets matter to relaxed risk parity", "statement": "Multiplying every risk budget given to relaxed_risk_parity_portfolio or relaxed_risk_parity_frontier by the same positive number leaves the returned portfolios and diagnostics unchanged, and giving equal budgets is the same as giving none.", "quantifier": "all risk budget vectors, positive factors, moments, constraints, targets, multipliers and solvers", "why_tests_cant": "all budgets and factors", "anchors": ["pyvallocation/optimization.py:RelaxedRiskParity", "pyvallocation/portfolioapi.py:PortfolioWrapper.relaxed_risk_parity_portfolio", "pyvallocation/portfolioapi.py:PortfolioWrapper.relaxed_risk_parity_frontier"]}
{"id": "C253", "title": "Labelled moments keep their containers and pair by label", "statement": "log2simple, simple2log, project_mean_covariance and the matrices of a robust posterior return the mean in the container of the mean and the covariance in the container of the covariance (arrays for arrays, the same labels for pandas objects), compute the same numbers for arrays and pandas objects, and combine an asset's mean with that asset's own variance.", "quantifier": "all mean vectors and covariance matrices, as arrays or labelled pandas objects, horizons and scale factors", "why_tests_cant": "all moments and labellings", "anchors": ["pyvallocation/utils/projection.py:log2simple", "pyvallocation/utils/projection.py:simple2log", "pyvallocation/utils/projection.py:project_mean_covariance", "pyvallocation/bayesian.py:RobustBayesPosterior"]}
{"id": "C254", "title": "Assets without weight do not matter to the allocation", "statement": "The outcome of discretize_weights depends only on the assets whose weight exceeds 1e-8 in absolute value, their order, prices and lot sizes; further assets with negligible weight, and their prices and lot sizes, change nothing as long as they have a price.", "quantifier": "all pairs of inputs agreeing on the assets with weight, methods, options, sorts and solvers", "why_tests_cant": "all inputs", "anchors": ["pyvallocation/discrete_allocation.py:discretize_weights", "pyvallocation/discrete_allocation.py:DiscreteAllocationInput"]}
{"id": "C255", "title": "How a state variable is measured does not matter", "statement": "Measuring the conditioning variable in another unit, from another zero point or with the opposite sign - observations, scenarios, bandwidth and target alike - leaves the probabilities of generate_gaussian_kernel_probabilities and the report of kernel_focus_stress unchanged, defaults included, or gives the same error; reordering the scenarios reorders the probabilities.", "quantifier": "all observations, scenarios, bandwidths, targets, units and permutations", "why_tests_cant": "all series and units", "anchors": ["pyvallocation/probabilities.py:generate_gaussian_kernel_probabilities", "pyvallocation/probabilities.py:silverman_bandwidth", "pyvallocation/stress.py:kernel_focus_stress"]}
{"id": "C256", "title": "Higher credibility is more conservative", "statement": "A higher credibility level never lowers cred_radius_mu or cred_radius_sigma_factor of a NIWPosterior or RobustBayesPosterior, so the worst-case mean of a portfolio never rises; more observations with the same prior counts never enlarge cred_radius_mu.", "quantifier": "all updated posteriors, pairs of levels, numbers of observations and non-decreasing non-negative quantile functions", "why_tests_cant": "all posteriors and levels", "anchors": ["pyvallocation/bayesian.py:NIWPosterior.cred_radius_mu", "pyvallocation/bayesian.py:NIWPosterior.cred_radius_sigma_factor", "pyvallocation/bayesian.py:RobustBayesPosterior.cred_radius_mu", "pyvallocation/bayesian.py:RobustBayesPosterior.cred_radius_sigma_factor"]}
{"id": "C257", "title": "A finer frontier never selects worse", "statement": "On a variance frontier with m n + 1 instead of n + 1 portfolios (positive definite covariance), tangency attains at least the Sharpe ratio, at_risk at least the return, at_return at most the risk, min_risk at most the risk and max_return at least the return, and each succeeds whenever it did; likewise on CVaR frontiers whenever the portfolios of least CVaR have one return.", "quantifier": "all moments or scenarios, feasible constraints that bound the weights, n, m, selector arguments and correct solvers", "why_tests_cant": "all optimisation problems and selector arguments", "anchors": ["pyvallocation/portfolioapi.py:PortfolioWrapper.variance_frontier", "pyvallocation/portfolioapi.py:PortfolioWrapper.cvar_frontier", "pyvallocation/portfolioapi.py:PortfolioFrontier.tangency", "pyvallocation/portfolioapi.py:PortfolioFrontier.at_risk", "pyvallocation/portfolioapi.py:PortfolioFrontier.at_return"]}
{"id": "C258", "title": "The Huber mean minimises the Huber loss", "statement": "robust_mean_huber returns for each asset a location that is at least as good as the median in Huber's loss at the adaptive threshold (1.4826 MAD + 1e-12) sqrt(T / max(log max(T, 3), 2)), and whose loss exceeds that of any other location by at most the larger of 2 T range^2 / max_iter and T tol (1 + largest absolute bound) range; estimate_moments with the key huber reports it.", "quantifier": "all panels with at least one row, assets, tolerances, iteration limits and competing locations", "why_tests_cant": "all panels and locations", "anchors": ["pyvallocation/moments.py:robust_mean_huber", "pyvallocation/moments.py:estimate_moments"]}
{"id": "C259", "title": "Outliers cannot carry the robust means away", "statement": "If more than half of an asset's T observations (c of them) lie in an interval [lo, hi] of length D, robust_mean_huber returns for it a value within c (2 D + (1.4826 D + 1e-12) sqrt(T / max(log max(T, 3), 2)) / 2) / (2 c - T) of that interval, however large the other observations are; if fewer observations lie outside the interval than half the number of blocks, robust_mean_median_of_means returns a value in the interval itself.", "quantifier": "all panels, assets, intervals, values of the outlying observations, non-negative tolerances, positive iteration limits, valid block counts and shuffles", "why_tests_cant": "all panels and all sizes of the outliers", "anchors": ["pyvallocation/moments.py:robust_mean_huber", "pyvallocation/moments.py:robust_mean_median_of_means"]}
{"id": "C260", "title": "Weights need not be bounded", "statement": "With simple returns and a positive definite covariance, min_variance_at_return answers even when the constraints leave the weights unbounded: whenever some portfolio satisfying the constraints in force reaches the target, it returns the unique one of least variance plus impact cost among those, with that portfolio's own return and volatility; when none does, it raises InfeasibleOptimizationError.", "quantifier": "all wrappers, positive definite covariances, constraint specifications, trading costs and targets", "why_tests_cant": "all wrappers, constraints and targets", "anchors": ["pyvallocation/portfolioapi.py:PortfolioWrapper.min_variance_at_return"]}
{"id": "C261", "title": "Two-fund separation", "statement": "When the constraints are equations only (no long-only rule, bounds, groups or inequalities), there are no trading costs and the covariance is positive definite, any mixture of two portfolios returned by min_variance_at_return is exactly the portfolio the method returns for the same mixture of their returns.", "quantifier": "all wrappers, positive definite covariances, equality constraints, pairs of targets and mixing proportions in [0, 1]", "why_tests_cant": "all wrappers and pairs of targets", "anchors": ["pyvallocation/portfolioapi.py:PortfolioWrapper.min_variance_at_return"]}
{"id": "C262", "title": "Optimality certificate of minimum-variance portfolios", "statement": "With simple returns and a positive definite covariance, a portfolio is the one min_variance_at_return returns if and only if it satisfies the constraints in force, reaches the target, and no admissible portfolio reaching the target can be approached at a negative marginal cost (covariance with the portfolio plus marginal impact); in particular, without costs, every admissible portfolio reaching the target has with the returned one a covariance of at least the returned variance.", "quantifier": "all wrappers, positive definite covariances, constraints, impact costs, targets and candidate portfolios", "why_tests_cant": "all competitors of all problems", "anchors": ["pyvallocation/portfolioapi.py:PortfolioWrapper.min_variance_at_return", "pyvallocation/optimization.py:MeanVariance"]}
{"id": "C263", "title": "Mixing scenario weightings never hides risk", "statement": "For two probability vectors and their mixture with weight theta: the portfolio CVaR under the mixture is at least the mixture of the CVaRs (with or without demeaning); estimate_sample_moments gives the mixed mean, and a covariance equal to the mixed covariances plus theta (1 - theta) times the outer product of the mean difference; the entropy effective number of scenarios is at least the weighted geometric mean of the two, the inverse-Herfindahl number at least the smaller.", "quantifier": "all scenario sets, portfolios, pairs of probability vectors, mixing weights in [0, 1] and confidence levels in (0, 1)", "why_tests_cant": "all weightings and portfolios", "anchors": ["pyvallocation/utils/functions.py:portfolio_cvar", "pyvallocation/moments.py:estimate_sample_moments", "pyvallocation/probabilities.py:compute_effective_number_scenarios", "pyvallocation/probabilities.py:compute_effective_number_scenarios_hhi"]}
{"id": "C264", "title": "The tracking error bounds what rounding does to the portfolio", "statement": "For every successful discrete allocation, tracking_error is the sum over the assets of the absolute differences between the normalised target weights and achieved_weights; replacing the target by the achieved weights changes the expected return by at most the largest absolute mean times tracking_error, the volatility by at most the largest asset volatility times it, and the portfolio CVaR by at most the largest absolute scenario return times it.", "quantifier": "all weights, prices, totals, lot sizes, methods and fallback modes with a successful call; all means, covariances, scenario sets and confidence levels", "why_tests_cant": "all inputs and all risk models", "anchors": ["pyvallocation/discrete_allocation.py:discretize_weights", "pyvallocation/discrete_allocation.py:DiscreteAllocationResult", "pyvallocation/utils/functions.py:portfolio_cvar"]}
{"id": "C265", "title": "CVaR, VaR and volatility agree with each other", "statement": "For scenarios with sample mean mu and covariance S, portfolio_var is at most portfolio_cvar, which lies between the expected loss and the expected loss plus the volatility times sqrt(confidence / (1 - confidence)); across methods, for a wrapper holding the moments of its scenarios, the CVaR of the min_cvar_at_return portfolio is at most that of the min_variance_at_return portfolio for the same target, which is at most minus its return plus its risk times sqrt((1 - alpha) / alpha), and the volatility of the latter is at most that of the former.", "quantifier": "all scenario sets, probability vectors, portfolios, confidence levels in (0, 1), constraints that bound the weights and attainable targets", "why_tests_cant": "all scenario sets and targets", "anchors": ["pyvallocation/utils/functions.py:portfolio_cvar", "pyvallocation/utils/functions.py:portfolio_var", "pyvallocation/portfolioapi.py:PortfolioWrapper.min_cvar_at_return", "pyvallocation/portfolioapi.py:PortfolioWrapper.min_variance_at_return"]}
{"id": "C266", "title": "What the Tyler iteration computes", "statement": "A successful robust_covariance_tyler call on data with positive total variance returns the end of a run of Tyler steps: it starts from the sample covariance, each step weights the deviations from the column means by N over the squared distance under the previous scatter (distance kept above 1e-6, weight below 1e6), rescales to trace N and mixes in the rescaled target; the run stops at the first step whose relative change is within tol, or after exactly max_iter steps. Every portfolio keeps at least the shrinkage share of its variance under the target, the default target with positive shrinkage gives a positive definite matrix, and shrinkage one returns the scaled target.", "quantifier": "all data sets, shrinkages, tolerances, targets, iteration limits and pseudo-inverse routines", "why_tests_cant": "all data and all iteration histories", "anchors": ["pyvallocation/moments.py:robust_covariance_tyler"]}
{"id": "C267", "title": "Projected log moments compound", "statement": "Log-return moments projected over h periods and converted to simple returns compound the one-period ones: expected gross returns and expected products of gross returns are the h-th powers of the one-period values, for a whole number of periods this gives the mean and covariance of the compounded return, projections over successive horizons multiply, and from_moments with return_type='log' on the projected moments stores exactly these.", "quantifier": "all means, covariances, horizons and numbers of periods", "why_tests_cant": "all real moments and horizons", "anchors": ["pyvallocation/utils/projection.py:log2simple", "pyvallocation/utils/projection.py:project_mean_covariance", "pyvallocation/portfolioapi.py:PortfolioWrapper.from_moments"]}
{"id": "C268", "title": "Black-Litterman views in instalments", "statement": "Giving independent views in two calls, the second starting from the posterior of the first, is the same as giving them all in one call.", "quantifier": "all positive definite priors, view lists, diagonal uncertainties and positive tau", "why_tests_cant": "all splits of all view lists", "anchors": ["pyvallocation/views.py:BlackLittermanProcessor"]}
{"id": "C269", "title": "Validated allocator inputs can be reused", "statement": "Building a DiscreteAllocationInput again from the stored weights, prices and lot sizes of a validated one gives the same input, and allocating from it the same result.", "quantifier": "all accepted inputs", "why_tests_cant": "all weight vectors", "anchors": ["pyvallocation/discrete_allocation.py:DiscreteAllocationInput", "pyvallocation/discrete_allocation.py:discretize_weights"]}
{"id": "C270", "title": "All frontiers end at the same expected return", "statement": "The largest attainable expected return does not depend on how risk is measured: the variance frontier and the CVaR frontier of one wrapper both end at it, and the robust frontier contains a portfolio earning it whenever its penalty grid contains zero.", "quantifier": "all wrappers with scenarios, all constraint sets with bounded weights, all grids and confidence levels", "why_tests_cant": "all distributions and constraints", "anchors": ["pyvallocation/portfolioapi.py:PortfolioWrapper.variance_frontier", "pyvallocation/portfolioapi.py:PortfolioWrapper.cvar_frontier", "pyvallocation/portfolioapi.py:PortfolioWrapper.robust_lambda_frontier"]}
{"id": "C271", "title": "The PSD guard is idempotent and changes as little as needed", "statement": "ensure_psd_matrix never lowers a portfolio's variance, raises every variance by one common multiple of the sum of squared weights, exceeding the least sufficient amount by at most the jitter; only the symmetric part of its input matters and applying it to its own result changes nothing.", "quantifier": "all square matrices and non-negative jitters", "why_tests_cant": "all matrices and directions", "anchors": ["pyvallocation/utils/validation.py:ensure_psd_matrix"]}
{"id": "C272", "title": "Indistinguishable assets are treated alike", "statement": "If a rearrangement of the assets changes neither the moments nor what the constraints allow, the minimum-variance portfolio for any target is unchanged by it; N interchangeable assets under the default constraints get 1/N each.", "quantifier": "all rearrangements, positive definite covariances, constraints and targets", "why_tests_cant": "all symmetries of all inputs", "anchors": ["pyvallocation/portfolioapi.py:PortfolioWrapper.min_variance_at_return"]}
{"id": "C273", "title": "Robust weights follow expected returns", "statement": "Of two robust problems (penalised frontier or capped) that differ only in the expected returns, portfolios with the same penalty follow them: raising the expected return of one asset never lowers its weight. (For return targets this is false.)", "quantifier": "all pairs of wrappers that differ in expected returns, all constraints, penalties and caps", "why_tests_cant": "all pairs of inputs", "anchors": ["pyvallocation/portfolioapi.py:PortfolioWrapper.robust_lambda_frontier", "pyvallocation/portfolioapi.py:PortfolioWrapper.solve_robust_gamma_portfolio"]}
{"id": "C274", "title": "A riskier asset is held no more", "statement": "Of two min_variance_at_return calls that differ only in the covariance, the variance added to the first portfolio is at least the variance added to the second; in particular if only the variance of one asset rises, the absolute weight of that asset does not.", "quantifier": "all pairs of covariances, all constraints, trading costs and targets", "why_tests_cant": "all pairs of inputs", "anchors": ["pyvallocation/portfolioapi.py:PortfolioWrapper.min_variance_at_return"]}
{"id": "C275", "title": "Risk numbers are stable", "statement": "If the P&L of two portfolios (or of one portfolio under two sets of scenarios) differ by at most e in every scenario, their VaRs and CVaRs differ by at most e (2e when the mean is taken out). Moving a share d of the probability moves the CVaR by at most the range of the P&L times d / (1 - confidence); no such bound holds for VaR.", "quantifier": "all weights, scenarios, probabilities and confidence levels", "why_tests_cant": "all pairs of inputs", "anchors": ["pyvallocation/utils/functions.py:portfolio_var", "pyvallocation/utils/functions.py:portfolio_cvar"]}
{"id": "C276", "title": "Small errors in the moments do small damage", "statement": "If every covariance used is within e of the true one and gross exposure is at most G, the portfolio min_variance_at_return chooses has a true variance at most 2eG^2 above the best attainable and the variance reported is within eG^2 of the true one; likewise penalised robust portfolios lose at most 2eG when every expected return is within e.", "quantifier": "all pairs of moments, constraints, costs, targets and penalties", "why_tests_cant": "all pairs of inputs", "anchors": ["pyvallocation/portfolioapi.py:PortfolioWrapper.min_variance_at_return", "pyvallocation/portfolioapi.py:PortfolioWrapper.robust_lambda_frontier"]}
{"id": "C277", "title": "Small errors in the scenarios do small damage", "statement": "If every scenario return used is within e of the true one and gross exposure is at most G, the minimum-CVaR portfolio has a true CVaR at most 2eG above the best attainable.", "quantifier": "all pairs of scenario sets, probabilities, constraints and tail levels", "why_tests_cant": "all pairs of inputs", "anchors": ["pyvallocation/portfolioapi.py:PortfolioWrapper.min_cvar_at_return"]}
{"id": "C278", "title": "CVaR is the worst expected loss over limited reweightings", "statement": "The CVaR at a confidence level is the largest expected loss over all reweightings of the scenarios that make none more than 1 / (1 - confidence) times as likely, and one of them attains it; hence no stress test that stays within this limit reports an expected loss above the nominal CVaR.", "quantifier": "all weights, scenarios, probabilities, confidence levels and reweightings", "why_tests_cant": "all reweightings", "anchors": ["pyvallocation/utils/functions.py:portfolio_cvar", "pyvallocation/stress.py:stress_test"]}
{"id": "C279", "title": "The reported KL divergence bounds what a stress can do", "statement": "For any nominal and stressed probabilities, the KL divergence reported by stress_test bounds the probability that was moved (Pinsker, up to the clipping at 1e-16), and through it the change of the mean and of the CVaR of every portfolio by a multiple of the range of its P&L.", "quantifier": "all portfolios, scenarios, nominal and stressed probabilities", "why_tests_cant": "all pairs of weightings", "anchors": ["pyvallocation/stress.py:stress_test", "pyvallocation/stress.py:_kl_divergence"]}
{"id": "C280", "title": "Least-CVaR portfolios guard against reweighted scenarios", "statement": "min_cvar_at_return and every point of the CVaR frontier return the portfolio whose largest expected loss, over every reweighting of the scenarios that multiplies no probability by more than 1 / (1 - confidence), is least among all portfolios meeting the same constraints and target.", "quantifier": "all scenarios, probabilities, constraints, targets and tail levels", "why_tests_cant": "all inputs and every competing portfolio", "anchors": ["pyvallocation/portfolioapi.py:PortfolioWrapper.min_cvar_at_return", "pyvallocation/portfolioapi.py:PortfolioWrapper.cvar_frontier"]}
{"id": "C281", "title": "Robust portfolios have the best worst case", "statement": "A penalised robust portfolio is the one with the best expected return in the worst case over the ellipsoid that the uncertainty covariance and the radius lambda describe: mu - y with y' S^-1 y at most lambda^2.", "quantifier": "all means, uncertainty covariances, constraints and radii", "why_tests_cant": "all inputs and every point of the ellipsoid", "anchors": ["pyvallocation/portfolioapi.py:PortfolioWrapper.robust_lambda_frontier", "pyvallocation/optimization.py:RobustOptimizer"]}
{"id": "C282", "title": "Longer horizons draw down more", "statement": "On the same draws, a longer horizon never lowers the mean, the median, the level quantile or the worst of the simulated drawdowns, for every portfolio and scenario set; on the same paths a higher confidence never lowers the level and leaves the other statistics unchanged.", "quantifier": "all portfolios, scenarios, probabilities, repricing functions, horizons and draws", "why_tests_cant": "all inputs", "anchors": ["pyvallocation/utils/projection.py:simulate_paths", "pyvallocation/utils/performance.py:drawdown_quantile"]}
{"id": "C283", "title": "Dominated assets do not lower the least CVaR", "statement": "If every asset of a larger universe is matched or beaten, scenario by scenario, by one of the listed assets, min_cvar_at_return reports the same risk with and without the assets not listed, at every target, under long-only, fully invested constraints (and all constraints that stay met when weight moves to the better asset).", "quantifier": "all scenarios, probabilities, targets, tail levels and constraints of that kind", "why_tests_cant": "all pairs of universes", "anchors": ["pyvallocation/portfolioapi.py:PortfolioWrapper.min_cvar_at_return"]}
{"id": "C284", "title": "The cash penalty trades cash against tracking", "statement": "A heavier cash_penalty in the mixed-integer allocator never leaves more cash and (for non-negative penalties) never tracks the target better; whether an allocation is found does not depend on the penalty.", "quantifier": "all weights, prices, amounts, lots and cash limits, and all pairs of penalties", "why_tests_cant": "all pairs of calls", "anchors": ["pyvallocation/discrete_allocation.py:allocate_mip", "pyvallocation/discrete_allocation.py:discretize_weights"]}
{"id": "C285", "title": "The effective number of scenarios behaves like a count", "statement": "Merging scenarios never raises either effective number and splitting never lowers it; for independent scenario sets the numbers multiply; a blend of two weightings has at least the number of the more concentrated one.", "quantifier": "all probability vectors, mergers, pairs and blends", "why_tests_cant": "all inputs", "anchors": ["pyvallocation/probabilities.py:compute_effective_number_scenarios", "pyvallocation/probabilities.py:compute_effective_number_scenarios_hhi"]}
{"id": "C286", "title": "Estimates can be updated as observations arrive", "statement": "The sample moments of two pooled samples follow from the moments of each; under exponential weighting one more observation moves the mean by its weight towards the observation and the covariance by the square of the surprise; covariance_ewma of a longer history is the old matrix blended with the square of the new observation.", "quantifier": "all samples, weights, half-lives, spans and new observations", "why_tests_cant": "all histories", "anchors": ["pyvallocation/moments.py:estimate_sample_moments", "pyvallocation/moments.py:covariance_ewma", "pyvallocation/probabilities.py:generate_exp_decay_probabilities"]}
{"id": "C287", "title": "Without views Black–Litterman gives back the market portfolio", "statement": "With no views and no explicit prior mean, market weights w, risk aversion δ and covariance Σ give the posterior mean δΣm and covariance Σ, where m is w divided by its sum; m is the only portfolio with the largest expected return less δ/2 times variance at those moments, and, handed to PortfolioWrapper with any bounded constraints that allow m, min_variance_at_return at the market's expected return is m itself.", "quantifier": "all positive definite covariances, market weights with a non-zero sum, risk aversions, and bounded constraints that allow the market portfolio", "why_tests_cant": "all calls without views", "anchors": ["pyvallocation/views.py:BlackLittermanProcessor", "pyvallocation/portfolioapi.py:PortfolioWrapper.min_variance_at_return"]}
{"id": "C288", "title": "Views tilt the market portfolio along the views' own portfolios", "statement": "With a market-implied prior and any views, the portfolio with the largest expected return less δ/2 times variance at the posterior moments is 1/(1+τ) times the sum of the market portfolio and one multiple of each view's portfolio (the asset, or the pair long-short): an asset no view refers to keeps its market weight up to that factor, whatever its correlations.", "quantifier": "all positive definite covariances, market weights, views, confidences, view covariances and τ", "why_tests_cant": "all calls with views that succeed", "anchors": ["pyvallocation/views.py:BlackLittermanProcessor"]}
{"id": "C289", "title": "Rebalancing again from the last answer", "statement": "Calling min_variance_at_return again and again with the same target, constraints and impact costs, each time from the last answer's weights, always succeeds, never raises the volatility, and the variance left plus all impact paid after the first call is at most the variance after the first; with min_cvar_at_return and proportional costs the CVaR left plus all costs paid after the first call is exactly the CVaR after the first, and no allowed portfolio reaching the target is worth moving to.", "quantifier": "all distributions, bounded constraints, targets, non-negative costs, starting weights and numbers of rebalancings", "why_tests_cant": "all sequences of calls", "anchors": ["pyvallocation/portfolioapi.py:PortfolioWrapper.min_variance_at_return", "pyvallocation/portfolioapi.py:PortfolioWrapper.min_cvar_at_return"]}
{"id": "C290", "title": "is_updated tells what the posterior object will answer", "statement": "NIWPosterior.is_updated is true after a history of calls exactly if some update in it was valid for the freshly constructed object, and then stays true; while it is false every getter raises RuntimeError, once it is true no getter does and further updates do. chi2_quantile(sqrt=True) is the non-negative root of the plain quantile and fails exactly when that does.", "quantifier": "all constructions and all histories of updates, getters and writes to returned arrays", "why_tests_cant": "all call histories", "anchors": ["pyvallocation/bayesian.py:NIWPosterior.is_updated", "pyvallocation/bayesian.py:chi2_quantile"]}
{"id": "C291", "title": "Scaling the size of the portfolio", "statement": "With the target, total weight, every bound, limit and right-hand side and the current holdings multiplied by k > 0, min_variance_at_return (positive definite covariance, with or without impact costs) returns k times the weights, return and volatility, and min_cvar_at_return an optimum CVaR plus proportional cost k times as large; each scaled call raises InfeasibleOptimizationError exactly if the unscaled one does.", "quantifier": "all distributions, constraints of every kind, sizes k > 0, targets, costs and holdings", "why_tests_cant": "all problems and sizes", "anchors": ["pyvallocation/portfolioapi.py:PortfolioWrapper.min_variance_at_return", "pyvallocation/portfolioapi.py:PortfolioWrapper.min_cvar_at_return", "pyvallocation/utils/constraints.py:build_G_h_A_b"]}
{"id": "C292", "title": "Which exception a rejected constraint specification raises", "statement": "A specification rejected by build_G_h_A_b raises ValueError only if a number, pair or shape in it is wrong (non-finite, crossed, an asset compared with itself, wrong width, no assets) and IndexError only if a bounds mapping, relative limit or group names an asset that does not exist; no other exception is raised, and with only one of the two kinds of defect the exception is determined.", "quantifier": "all constraint specifications and numbers of assets", "why_tests_cant": "an iff over all inputs", "anchors": ["pyvallocation/utils/constraints.py:build_G_h_A_b", "pyvallocation/utils/constraints.py:_check_number"]}
{"id": "C293", "title": "Unlimited tail-risk reduction is reported as infeasible", "statement": "On scenarios, min_cvar_at_return answers exactly when some portfolio satisfying the constraints in force reaches the target and CVaR plus proportional cost is bounded below over those that do, in particular whenever allowed portfolios cannot earn more than some level; its answer then minimises. When risk can be lowered without limit (the constraints admit ever larger trades that gain in every scenario) it raises InfeasibleOptimizationError although the target is within reach.", "quantifier": "all scenario wrappers, constraint specifications, trading costs, targets and tail levels", "why_tests_cant": "an iff over all inputs", "anchors": ["pyvallocation/portfolioapi.py:PortfolioWrapper.min_cvar_at_return", "pyvallocation/optimization.py:MeanCVaR"]}
{"id": "C294", "title": "Lending and borrowing scale one mix of risky assets", "statement": "With simple returns, a riskless asset that the constraints let be held long or short freely, and no riskless combination of the others, every portfolio min_variance_at_return gives above the riskless rate earns exactly its target; the portfolio for any other target from the riskless rate upwards is answered too, with risky weights and reported volatility proportional to the target's excess over the riskless rate. At or below that rate everything is held in the riskless asset. Every target is answered as soon as one allowed portfolio earns more than the riskless rate.", "quantifier": "all wrappers with such an asset, all constraint specifications leaving it free, all pairs of targets", "why_tests_cant": "all inputs and targets", "anchors": ["pyvallocation/portfolioapi.py:PortfolioWrapper.min_variance_at_return", "pyvallocation/optimization.py:MeanVariance"]}
{"id": "C295", "title": "Which exception a rejected input raises", "statement": "ValueError is the only exception raised by the discrete-allocation input, weight normalisation and averaging, the probability helpers, scenario probabilities and square matrices of a distribution, the optimiser key of an ensemble, the wrapper's trading costs, the frontier container, portfolio_var, the sample-moment, Ledoit-Wolf and POET-threshold arguments, simple2log and RobustBayesPosterior.sigma1. NIWPosterior and its update raise ValueError exactly for wrong shapes and ranges, RuntimeError for a second update or a matrix that cannot be factorised, and ZeroDivisionError only for a confidence truncated to zero. A view value raises TypeError exactly when it is no number, and a frontier column out of range is an IndexError.", "quantifier": "all inputs of these calls", "why_tests_cant": "an iff over all inputs", "anchors": ["pyvallocation/discrete_allocation.py:DiscreteAllocationInput", "pyvallocation/probabilities.py:resolve_probabilities", "pyvallocation/bayesian.py:NIWPosterior.update", "pyvallocation/views.py:FlexibleViewsProcessor", "pyvallocation/moments.py:shrink_covariance_ledoit_wolf"]}
{"id": "C296", "title": "variance_frontier needs bounded returns, not bounded weights", "statement": "Provided the constraints in force contain an inequality, variance_frontier answers exactly when some portfolio satisfies them and the expected returns of those that do are bounded above, for every covariance matrix; it then delivers the efficient frontier together with the returns and volatilities of its columns. In every other case it raises RuntimeError.", "quantifier": "all wrappers with simple returns, constraint specifications with a limit, trading costs and numbers of portfolios", "why_tests_cant": "an iff over all inputs", "anchors": ["pyvallocation/portfolioapi.py:PortfolioWrapper.variance_frontier", "pyvallocation/optimization.py:MeanVariance"]}
{"id": "C297", "title": "cvar_frontier needs bounded returns, not bounded weights", "statement": "On scenarios, cvar_frontier answers exactly when some portfolio satisfies the constraints in force and the scenario mean returns of those that do are bounded above, however large their weights and tail losses; its columns are then an efficient frontier of CVaR plus proportional cost, ordered by reported return.", "quantifier": "all scenario wrappers, constraint specifications, trading costs, tail levels and numbers of portfolios", "why_tests_cant": "an iff over all inputs", "anchors": ["pyvallocation/portfolioapi.py:PortfolioWrapper.cvar_frontier", "pyvallocation/optimization.py:MeanCVaR"]}
{"id": "C298", "title": "Exceptions of the remaining entry points", "statement": "Beyond C295: portfolio_var and portfolio_cvar on several portfolios raise ZeroDivisionError exactly for a valid level, no scenarios and no probabilities, and otherwise only ValueError; as_discrete_allocation raises IndexError for every column outside the frontier; compose_repricers raises KeyError or TypeError according to the first bad instrument; a view that is neither number, pair nor interval is a TypeError and every other bad view a ValueError; relaxed risk parity raises ValueError exactly for a negative regulator and RuntimeError for every solver failure; the graphical lasso raises LinAlgError exactly for a singular start; trading costs of a wrong length are a TypeError only with a single asset; a missing frontier in a plot is a TypeError; stress_test, linear_map, average_frontiers' label step, the date column of price tables, square matrix arguments, stored scenarios and maximum drawdown only ever raise ValueError.", "quantifier": "all inputs rejected by these calls", "why_tests_cant": "the exception class is part of the contract and depends on which of several tests fails first", "anchors": ["pyvallocation/stress.py:stress_test", "pyvallocation/stress.py:linear_map", "pyvallocation/utils/projection.py:compose_repricers", "pyvallocation/portfolioapi.py:PortfolioFrontier.as_discrete_allocation", "pyvallocation/optimization.py:RelaxedRiskParity"]}
{"id": "C299", "title": "Exceptions of entropy pooling, simulated priors and stressed dictionaries", "statement": "entropy_pooling raises ValueError exactly when the method is unknown or the prior is not a non-empty list of finite strictly positive numbers, with or without inequality views; on every other input nothing but RuntimeError, never when the optimiser never reports failure and always when it always does. A prior simulated from moments raises only ValueError, and RuntimeError only when the moments are complete, of matching sizes, with a positive number of scenarios. stress_invariants with views raises TypeError on weights given as a dictionary wherever it reports on the same weights given as a vector.", "quantifier": "all priors, rows, methods and optimisers; all moments, generators' draws and factorisations; all histories, views, seeds and repricing rules", "why_tests_cant": "the class of the exception depends on which guard fires first, for every optimiser and every input", "anchors": ["pyvallocation/views.py:entropy_pooling", "pyvallocation/views.py:FlexibleViewsProcessor", "pyvallocation/stress.py:stress_invariants"]}
