#!/usr/bin/env python3
"""Writes properties.jsonl (single source of truth for the property list)."""
import json, os
P = []
def p(title, statement, quantifier, why, anchors):
    import re
    # remarks of the form "(False ...)" / "(Second half false ...)" are kept here as a
    # maintainer's note; the published statement is the property the user relies on.
    statement = re.sub(r"\s*\((?:False|Second half false|The last clause is false|Weights with negative)[^()]*(?:\([^()]*\)[^()]*)*\)", "", statement).strip()
    P.append(dict(id="C%02d" % (len(P)+1), title=title, statement=statement,
                  quantifier=quantifier, why_tests_cant=why, anchors=anchors))
D="pyvallocation/discrete_allocation.py"; PR="pyvallocation/probabilities.py"
V="pyvallocation/views.py"; M="pyvallocation/moments.py"; O="pyvallocation/optimization.py"
A="pyvallocation/portfolioapi.py"; E="pyvallocation/ensembles.py"; S="pyvallocation/stress.py"
B="pyvallocation/bayesian.py"; U="pyvallocation/utils/"
# ---- discrete allocation -------------------------------------------------
p("Greedy allocator always terminates",
  "allocate_greedy / discretize_weights(method='greedy') finishes for every accepted long-only input and every max_iterations: its top-up loop runs at most max_iterations purchases plus one pass per asset.",
  "all accepted long-only inputs, all asset counts, all max_iterations, all orderings of tied weights",
  "a non-terminating input is one point of an infinite space; a test that passes only shows termination of the inputs it ran",
  [f"{D}:allocate_greedy"])
p("Greedy never overspends and never raises the overspend error",
  "For every accepted long-only input the greedy allocation costs at most total_value (plus the loop's 1e-12 slack), the returned leftover_cash is non-negative, and the 'Allocation exceeded available funds' RuntimeError cannot be raised by the greedy path.",
  "all accepted long-only inputs and iteration caps (exact arithmetic)",
  "an overspend needs a particular combination of prices, lots and weights; tests cannot enumerate them",
  [f"{D}:allocate_greedy", f"{D}:_build_result"])
p("Cash is conserved",
  "In every returned DiscreteAllocationResult, leftover_cash plus the market value of the reported shares equals total_value (within the 1e-8 noise guard), achieved_weights are market value / total_value, and tracking_error is the L1 distance between normalised target weights and achieved weights.",
  "all share vectors, all prices and totals, both allocators",
  "an accounting identity over all real inputs", [f"{D}:_build_result"])
p("Whole non-negative lots",
  "Every share count returned by the greedy allocator is a non-negative integer multiple of that asset's lot size (missing lot sizes count as 1), and assets absent from the result dict hold zero shares.",
  "all accepted long-only inputs", "quantifies over every loop history", [f"{D}:allocate_greedy", f"{D}:_lot_sizes_to_series"])
p("Greedy rounding error is below one lot per asset",
  "After the greedy allocator, each asset's market value differs from weight*total_value by less than the cost of one lot; hence tracking_error is below (sum of lot costs)/total_value.",
  "all accepted long-only inputs, all iteration caps", "an error bound over all inputs and all loop histories", [f"{D}:allocate_greedy"])
p("Greedy leaves no affordable underweight asset",
  "Unless the iteration cap was hit, when the greedy loop stops every asset that is still underweight by more than 1e-12 has a lot cost exceeding the remaining cash.",
  "all accepted long-only inputs", "a maximality claim: needs every exit path of the loop", [f"{D}:allocate_greedy"])
p("Input validation and weight normalisation",
  "DiscreteAllocationInput accepts exactly: non-empty series, a price for each weight label, at least one weight with |w|>1e-8, strictly positive prices for kept labels, total_value>0, positive lot sizes and a positive weight sum; accepted weights sum to 1 and keep the proportions of the kept input weights.",
  "all weight/price/lot mappings", "an iff over an infinite input space", [f"{D}:DiscreteAllocationInput.__post_init__", f"{D}:_to_series"])
p("MILP allocator is L1-optimal for long-only targets",
  "With an exact MILP solver, allocate_mip on a long-only input returns an allocation that minimises (dollar L1 tracking error + cash_penalty*leftover cash) over all non-negative whole-lot allocations costing at most total_value (max_cash unset): the variable bounds and the auxiliary variables cut off no affordable allocation.",
  "all accepted long-only inputs, all non-negative cash penalties, all competing allocations",
  "optimality is a universally quantified claim over competitors", [f"{D}:allocate_mip"])
p("MILP allocator honours leveraged long targets",
  "For inputs with shorts (net weight one, a long leg above 100%) allocate_mip can reach the integer allocation closest to the target. (False of the code: lots are capped at about total_value per asset and the error variable at total_value.)",
  "all long/short inputs", "the failing region is a set of inputs, not a single case", [f"{D}:allocate_mip"])
# ---- constraints -----------------------------------------------------------
p("Constraint matrices mean what the user asked",
  "For every Constraints specification accepted by build_G_h_A_b, a weight vector w satisfies G w <= h and A w = b iff it satisfies, literally: w>=0 when long_only, the per-asset lower/upper bounds, every relative bound w_i - w_j <= k, every group bound, every additional row, and the total weight.",
  "all constraint specifications, all n, all weight vectors", "feasible-set equality over all vectors", [U+"constraints.py:build_G_h_A_b", U+"constraints.py:Constraints"])
p("Invalid constraint specifications are rejected",
  "build_G_h_A_b raises exactly when n_assets is not positive, a bound index is out of range, a lower bound exceeds its upper bound, a relative bound has i=j or an out-of-range index, a group index is out of range, or an additional row has the wrong width.",
  "all constraint specifications", "an iff over all inputs", [U+"constraints.py:build_G_h_A_b"])
# ---- risk measures ---------------------------------------------------------
p("portfolio_cvar is the Rockafellar-Uryasev CVaR",
  "portfolio_cvar(e, R, p, confidence) equals the minimum over c of c + E[(loss-c)+]/(1-confidence), for every scenario matrix, probability vector and confidence in (0,1).",
  "all scenario counts, returns, probabilities, confidences", "optimality over all thresholds c and all distributions", [U+"functions.py:portfolio_cvar"])
p("CVaR dominates VaR and both bracket the losses",
  "For the same inputs min loss <= VaR <= CVaR <= max loss, and VaR is a (1-confidence)-quantile: P(return < -VaR) < = 1-confidence <= P(return <= -VaR).",
  "all distributions and confidences", "inequality over all distributions", [U+"functions.py:portfolio_cvar", U+"functions.py:portfolio_var"])
p("CVaR is a coherent risk measure",
  "portfolio_cvar is positively homogeneous and subadditive in the exposures, translation-equivariant in the P&L, and monotone in the P&L; it is non-decreasing in the confidence level.",
  "all exposures, scenario matrices, probabilities", "functional inequalities over all pairs of portfolios", [U+"functions.py:portfolio_cvar"])
p("Risk numbers do not depend on scenario order",
  "Permuting the scenarios together with their probabilities leaves portfolio_var and portfolio_cvar unchanged.",
  "all permutations", "all S! permutations of all inputs", [U+"functions.py:portfolio_cvar", U+"functions.py:portfolio_var"])
# ---- probabilities ---------------------------------------------------------
p("normalize_probability_vector contract",
  "On success the returned vector has the input's length, is non-negative (strictly positive when requested), is the input rescaled, and sums to one within 1e-5+1e-8 (exactly one whenever the input sum was outside that tolerance); it raises exactly on empty, non-finite, negative (or non-positive) input or non-positive total.",
  "all vectors including NaN and infinities", "an iff over all float vectors", [f"{PR}:normalize_probability_vector"])
p("Exponential decay half-life",
  "generate_exp_decay_probabilities(T, half_life) returns T positive probabilities summing to one, strictly increasing in time, with the weight doubling every half_life observations, and rejects non-positive half lives.",
  "all T, all half lives", "all lengths and decay rates", [f"{PR}:generate_exp_decay_probabilities"])
p("Gaussian kernel probabilities favour the nearest states",
  "generate_gaussian_kernel_probabilities returns positive probabilities summing to one and a scenario closer to the target state never gets a smaller probability: probabilities are in the ratio of normal densities with the bandwidth as standard deviation, by default Silverman's 1.06 sd n^(-1/5).",
  "all state series, bandwidths, targets", "ordering claim over all pairs of scenarios", [f"{PR}:generate_gaussian_kernel_probabilities"])
p("Effective number of scenarios is between 1 and S",
  "compute_effective_number_scenarios (entropy) lies in [1,S], equals S exactly for uniform probabilities, equals 1 exactly for a point mass; the Herfindahl variant 1/sum p^2 lies in [1,S] and never exceeds the entropy variant.",
  "all probability vectors", "analytic inequality over the simplex", [f"{PR}:compute_effective_number_scenarios"])
# ---- views -----------------------------------------------------------------
p("Entropy pooling returns a probability vector",
  "Whenever entropy_pooling returns, the posterior is strictly positive and sums exactly to one, whatever multipliers the optimiser stopped at.",
  "all priors, constraint systems and optimiser outcomes", "all optimiser outcomes, not only converged ones", [f"{V}:entropy_pooling"])
p("Entropy pooling is KL-optimal",
  "If the optimiser stops at a local minimiser of the dual objective over its multiplier box (inequality multipliers >= 0) with no exponent on the +-700 clip, the posterior satisfies every equality and inequality view and has the smallest Kullback-Leibler divergence from the prior among all distributions satisfying the views.",
  "all priors, views with a sum-to-one row, and competing distributions", "optimality against every competing distribution", [f"{V}:entropy_pooling", f"{V}:_entropy_pooling_dual_objective"])
p("Dual gradient is the derivative of the dual objective",
  "The gradient handed to the optimiser is the exact derivative of the objective handed to it, in every coordinate, as long as no exponent hits the +-700 clip.",
  "all multipliers, priors and constraint matrices", "derivative identity at every point", [f"{V}:_entropy_pooling_dual_objective"])
p("View operators are encoded with the right direction",
  "A posterior satisfies the constraint rows generated for a set of mean views iff it satisfies each view literally: equality, >=, <=, between, and relative views E[A]-E[B]; strict operators are treated as their non-strict versions.",
  "all scenario matrices, view dictionaries and distributions", "iff over all distributions", [f"{V}:FlexibleViewsProcessor._build_constraints", f"{V}:FlexibleViewsProcessor._parse_view_specs"])
p("Volatility, variance, skewness and correlation views are met when lower moments are",
  "A distribution that satisfies the generated rows and whose mean (and variance) at the viewed assets equals the linearisation point has exactly the requested volatility/variance/skewness/correlation; in general the realised variance differs from the target by exactly mu_lin^2 - mu_post^2.",
  "all scenario matrices, targets, distributions", "moment identities over all distributions", [f"{V}:FlexibleViewsProcessor._build_constraints"])
p("All stated views hold in the final posterior",
  "When views are jointly satisfiable, the posterior returned by FlexibleViewsProcessor satisfies all of them. (False of the code: quantile and CVaR views, and each block in sequential mode, are solved without the earlier views' rows.)",
  "all combinations of view blocks", "depends on combinations of view kinds and on the solver path", [f"{V}:FlexibleViewsProcessor._compute_posterior_probabilities"])
p("No views means prior",
  "With no views at all the posterior probabilities are the prior probabilities, unchanged.",
  "all priors", "identity for all priors", [f"{V}:FlexibleViewsProcessor._compute_posterior_probabilities"])
p("Constructing a views processor does not modify the caller's views",
  "Building FlexibleViewsProcessor leaves the mean_views dictionary passed by the caller unchanged, so the same dictionary can be reused. (False of the code when rank_mean is also given.)",
  "all dictionaries and rank lists", "aliasing: visible only in the history of calls", [f"{V}:FlexibleViewsProcessor.__init__"])
p("rank_mean yields a ranking",
  "Any posterior satisfying the rows generated for rank_mean=[a1..ak] (no explicit view on those pairs) has E[a1]>=E[a2]>=...>=E[ak].",
  "all rankings of any length", "chain of any length", [f"{V}:FlexibleViewsProcessor.__init__"])
p("CVaR view rows pin the tail",
  "A distribution satisfying the rows the CVaR-view solver builds for cut index s puts probability gamma on the s+1 worst scenarios and has conditional mean cvar_target there, so portfolio_cvar at confidence 1-gamma equals -cvar_target; the Newton search performs at most max_newton_iter rounds and never returns a candidate with larger KL than its first solvable one.",
  "all scenarios, gammas, targets, solver outcomes", "search histories and all distributions", [f"{V}:FlexibleViewsProcessor._solve_cvar_view"])
p("Range and target helpers validate",
  "at_least/at_most/above/below/between accept exactly finite numbers (with lo<=hi for between) and are interpreted as the corresponding inequality; every accepted view value yields only finite targets. (The last clause is false for a raw ('between', lo, hi) tuple.)",
  "all floats including NaN and infinities", "NaN/inf corners over all floats", [f"{V}:between", f"{V}:FlexibleViewsProcessor._parse_view", f"{V}:FlexibleViewsProcessor._parse_view_specs"])
p("Black-Litterman mean is the Bayesian posterior mean",
  "With Sigma, Omega positive definite and tau>0 the returned posterior mean satisfies the mixed-estimation normal equations ((tau Sigma)^-1 + P' Omega^-1 P) mu = (tau Sigma)^-1 pi + P' Omega^-1 Q, i.e. it is the Gaussian posterior mean.",
  "all dimensions, view counts, covariances", "matrix identity for all sizes", [f"{V}:BlackLittermanProcessor._compute_posterior"])
p("Black-Litterman covariance is between Sigma and (1+tau) Sigma",
  "The returned posterior covariance is symmetric and lies, in the positive semidefinite order, between Sigma and (1+tau) Sigma; in particular it is positive semidefinite.",
  "all dimensions, PSD covariances, PSD Omega with invertible view covariance", "matrix inequality for all sizes", [f"{V}:BlackLittermanProcessor._compute_posterior"])
p("Idzorek confidence is the tilt fraction",
  "For a single view with confidence c (1e-6<=c<=1-1e-6), omega='idzorek', idzorek_use_tau=True, the posterior view return moves exactly the fraction c from the prior view return towards the target; with tiny or full confidence it is clipped to 1e-6 / 1-1e-6.",
  "all covariances, views, confidences", "identity over all inputs", [f"{V}:BlackLittermanProcessor._build_omega", f"{V}:BlackLittermanProcessor._compute_posterior"])
p("Black-Litterman pick matrix encodes the views",
  "Row k of P applied to a mean vector gives mu_i for an absolute view on i and mu_i - mu_j for a relative view (i,j). (False of the code when i and j resolve to the same asset: the row is -e_i.)",
  "all view dictionaries and mean vectors", "all keys and vectors", [f"{V}:BlackLittermanProcessor._build_views"])
# ---- moments ---------------------------------------------------------------
p("Sample covariance is a genuine covariance",
  "estimate_sample_moments returns a mean that is the p-weighted average, and a symmetric positive semidefinite covariance equal to E[RR'] - mu mu', unchanged by adding a constant vector to all scenarios.",
  "all T, N, scenario matrices, probabilities", "PSD is a claim over all directions", [f"{M}:estimate_sample_moments"])
p("Jorion shrinkage stays between the sample mean and the GMV mean",
  "shrink_mean_jorion returns, coordinate-wise, a convex combination of the sample mean and the common minimum-variance mean, leaving the minimum-variance portfolio's expected return unchanged.",
  "all means, PD covariances, T>0, N>2", "all inputs", [f"{M}:shrink_mean_jorion"])
p("James-Stein shrinkage moves towards the target, never past either end",
  "shrink_mean_james_stein returns target + s*(mu-target) with s in [0,1]. (False for N=1 with a custom target: s>1.)",
  "all means, covariances, targets", "all dimensions", [f"{M}:shrink_mean_james_stein"])
p("Ledoit-Wolf returns a convex combination and actually shrinks",
  "shrink_covariance_ledoit_wolf returns delta*F+(1-delta)*S with delta in [0,1], hence PSD for PSD inputs with the identity target; and it shrinks a noisy sample covariance. (Second half false for the identity target: delta is 0 whenever mean(pi) <= trace(pi), e.g. for every Gaussian fourth-moment structure.)",
  "all return matrices", "all inputs", [f"{M}:shrink_covariance_ledoit_wolf"])
p("OAS is a trace-preserving convex combination",
  "For N>=2 shrink_covariance_oas uses an intensity in [0,1], preserves the trace (average variance) and positive semidefiniteness before the PSD guard.",
  "all return matrices, T>=1, N>=2", "all inputs", [f"{M}:shrink_covariance_oas"])
p("EWMA covariance weights",
  "covariance_ewma equals sum_t w_t r_t r_t' with weights lambda^(T-1) on the first row and (1-lambda)lambda^(T-1-t) on row t; the weights sum to one, and for span>=1 the matrix is PSD.",
  "all T>=1, N, spans", "closed form for every T by induction", [f"{M}:covariance_ewma"])
p("Tyler estimator preserves total variance",
  "robust_covariance_tyler rescales its scatter matrix so that its trace equals the sample trace. (False of the code: the trace it returns is the sample trace divided by N.)",
  "all inputs on which the loop runs", "all iterates", [f"{M}:robust_covariance_tyler"])
p("POET preserves variances and thresholding only shrinks",
  "factor_covariance_poet leaves the diagonal (sample variances) unchanged before the PSD guard, reproduces the sample covariance exactly at threshold 0 for any number of factors, and soft-thresholding never increases or sign-flips an off-diagonal residual.",
  "all return matrices, k, thresholds", "all inputs", [f"{M}:factor_covariance_poet", f"{M}:_soft_threshold"])
p("Robust means stay in the data range and follow shifts",
  "robust_mean_huber and robust_mean_median_of_means return, per asset, a value between that asset's smallest and largest observation, and shift by c when all observations shift by c (median of means; same permutation).",
  "all data, all permutations, block counts, iteration counts", "all iterates and permutations", [f"{M}:robust_mean_huber", f"{M}:robust_mean_median_of_means"])
p("Median-of-means blocks partition the sample",
  "The blocks are disjoint, non-empty, cover every observation exactly once and differ in size by at most one; one block gives the plain mean.",
  "all T>=1 and block counts", "all sizes", [f"{M}:robust_mean_median_of_means"])
p("PSD guard repairs any symmetric matrix",
  "For every square input (given exact eigenvalues) ensure_psd_matrix returns a symmetric matrix that is positive semidefinite up to its tolerance (quadratic form at least -jitter*||x||^2), returns the symmetrised input unchanged when it is already positive semidefinite, and otherwise moves only the diagonal, by one common non-negative amount.",
  "all square matrices", "all directions and matrices", [U+"validation.py:ensure_psd_matrix"])
# ---- ensembles ---------------------------------------------------------------
p("Averaged exposures are convex combinations",
  "average_exposures with non-negative weights returns, per asset, a value between the smallest and largest sample exposure; linear constraints (budget, bounds, groups) satisfied by all samples are satisfied by the average. (Weights with negative entries are accepted although documented as non-negative.)",
  "all sample matrices and weights", "all convex constraint systems", [f"{E}:average_exposures", U+"weights.py:normalize_weights"])
p("Stacking folds partition the samples",
  "exposure_stacking's L folds are disjoint, cover every sample exactly once, and are non-empty for every 2<=L<=num_samples; other L are rejected.",
  "all sample counts and L", "all sizes", [f"{E}:exposure_stacking"])
p("Stacking solves the documented cross-validation problem",
  "The QP assembled by exposure_stacking has objective equal, up to a constant, to the sum over folds of the squared distance between the fold mean and the combination of the remaining samples, and its result is a convex combination of the samples.",
  "all sample matrices, L", "objective identity for all stacking weights", [f"{E}:exposure_stacking"])
p("Solver options are always restored",
  "After exposure_stacking (or any use of the temporary-option context) the global solver option dictionary equals what it was before, whether the body succeeded or raised.",
  "all option dictionaries, all bodies, all exception points", "every crash point", [f"{E}:_temporary_solver_options"])
p("Default ensemble works for a single specification",
  "assemble_portfolio_ensemble with default arguments succeeds for any non-empty list of specifications. (False of the code: a single specification gives one fold, which stacking rejects.)",
  "all specification counts", "boundary over all counts", [f"{E}:assemble_portfolio_ensemble", f"{E}:_determine_stack_folds", f"{E}:exposure_stacking"])
p("Selectors are reusable",
  "A frontier selector built from a specification returns the same portfolio each time it is called on the same frontier. (False of the code for 'min_risk' with a risk_label: the label is popped from shared keyword arguments on first use.)",
  "all call histories", "state across calls", [f"{E}:_build_selector"])
# ---- frontier API ------------------------------------------------------------
p("Frontier selection picks the extremal portfolio",
  "min_risk / max_return / tangency return the first portfolio on the frontier whose risk / return / (finite) Sharpe ratio is extremal, and report that same portfolio's weights, return and risk.",
  "all frontiers", "argmin/argmax over all frontiers", [f"{A}:PortfolioFrontier.min_risk", f"{A}:PortfolioFrontier.max_return", f"{A}:PortfolioFrontier.tangency"])
p("at_risk respects the risk cap and at_return the return floor",
  "at_risk(r) returns the highest-return portfolio among those with risk <= r, at_return(m) the lowest-risk portfolio among those with return >= m, closest_risk the one whose risk is nearest the target; the first two raise InfeasibleOptimizationError exactly when no portfolio qualifies.",
  "all frontiers and thresholds", "all thresholds", [f"{A}:PortfolioFrontier.at_risk", f"{A}:PortfolioFrontier.at_return", f"{A}:PortfolioFrontier.closest_risk"])
p("Risk percentiles rank portfolios",
  "Risk percentiles lie in [0,1], order portfolios as their risks do, reach 0 and 1, and percentile inputs in (1,100] are read as percent.",
  "all frontiers and percentiles", "all sizes", [f"{A}:PortfolioFrontier.risk_percentiles", f"{A}:PortfolioFrontier._normalize_percentile", f"{A}:PortfolioFrontier.at_percentile"])
p("CVaR frontier envelope is monotone and convex",
  "The post-processing of cvar_frontier returns risks that, sorted by return, are non-decreasing and lie on the lower convex envelope of the solved points (never above the running maximum, never below a solved point's envelope).",
  "all solver outputs", "all point sets", [f"{A}:PortfolioWrapper.cvar_frontier"])
p("Constructor constraints are honoured",
  "Constraints given to the PortfolioWrapper are the ones used by its optimisers. (False of the code for a specification with no rows at all: it is replaced with long-only, fully invested.)",
  "all constraint specifications", "all specifications", [f"{A}:PortfolioWrapper._resolve_constraints"])
# ---- projection / performance / stress ------------------------------------------
p("Return conversions invert each other",
  "simple<->compound scenario conversion and log<->simple moment conversion are mutually inverse on their domains, and the converted covariance is symmetric.",
  "all vectors/matrices in the domain", "round trip over all reals", [U+"projection.py:convert_scenarios_compound_to_simple", U+"projection.py:log2simple", U+"projection.py:simple2log"])
p("Scenario projection and path simulation agree",
  "For the same drawn indices the cumulative path at step h equals the projected h-step sum, and every projected scenario is the sum of exactly `horizon` drawn scenario rows.",
  "all horizons, scenario matrices, draws", "all horizons", [U+"projection.py:project_scenarios", U+"projection.py:simulate_paths"])
p("Repricing of a zero move is zero P&L",
  "A function built by make_repricing_fn returns zero P&L for a zero risk-driver move; compose_repricers feeds each instrument exactly the columns of the drivers it names, in order, and so returns zero for a zero move whenever each instrument's own function does; it fails exactly when a driver is missing or a specification is malformed.",
  "all portfolios of repricers", "all compositions", [U+"projection.py:make_repricing_fn", U+"projection.py:compose_repricers"])
p("Drawdowns are fractions and zero only for monotone wealth",
  "For positive wealth paths each reported drawdown is in [0,1); max drawdown is 0 iff wealth never falls below an earlier value. (False when the earlier value is the initial wealth 1: a loss in the first step is not counted.)",
  "all wealth paths", "all paths", [U+"performance.py:drawdown_quantile"])
p("Scenario P&L aligns labels",
  "scenario_pnl and stress_test give the same result for any reordering of the weights' labels, and reject missing or extra labels.",
  "all label permutations", "all permutations", [S+":_align_weights", U+"performance.py:scenario_pnl"])
p("Reported KL divergence is non-negative",
  "The KL divergence reported by stress_test between posterior and nominal probabilities is non-negative and zero iff the probabilities coincide (no entry below 1e-16).",
  "all probability vectors", "analytic inequality", [S+":_kl_divergence"])
# ---- bayesian ------------------------------------------------------------------
p("NIW update is the conjugate posterior",
  "NIWPosterior.update yields T1=t0+n, nu1=nu0+n, a posterior mean that is the T-weighted average of prior and sample mean, and a posterior scale matrix that is symmetric PSD whenever prior and sample covariances are.",
  "all dimensions and parameters", "all sizes; PSD in all directions", [f"{B}:NIWPosterior.update"])
p("NIW life cycle",
  "Posterior getters raise before update and are stable after it; a second update raises and leaves the posterior unchanged.",
  "all call sequences", "all call histories", [f"{B}:NIWPosterior"])
p("Jittered Cholesky retry is bounded",
  "_cholesky_pd calls the factorisation at most seven times, returns a factor of A + jitter*I with jitter 0 or at most 1e-12*10^5-scaled, and uses jitter 0 when A itself factors.",
  "all factorisation outcomes", "all failure patterns", [f"{B}:_cholesky_pd"])
# ---- optimisation ----------------------------------------------------------------
p("The CVaR linear programme computes portfolio CVaR",
  "For each weight vector the minimum over auxiliary variables of the LP objective assembled by MeanCVaR equals portfolio_cvar of that weight vector, so LP-optimal weights minimise CVaR over the user's feasible set.",
  "all scenario matrices, probabilities, feasible sets, competitors", "optimality over all competitors", [f"{O}:MeanCVaR", U+"functions.py:portfolio_cvar"])
p("Robust risk term is the uncertainty-ellipsoid norm",
  "The second-order cone in the robust optimiser bounds sqrt(w' S w). (False of the code: with the lower Cholesky factor L it bounds ||L w||, which differs unless L is normal, e.g. diagonal.)",
  "all covariance matrices and weights", "all matrices", [f"{O}:RobustOptimizer", f"{B}:_cholesky_pd"])
p("max_sharpe respects bounds",
  "MeanVariance.max_sharpe's homogenised problem has a solution for every feasible long-only problem with upper bounds. (False of the code: the right-hand side h is dropped, so an upper bound row w_i<=u becomes y_i<=0.)",
  "all bound systems", "all constraint systems", [f"{O}:MeanVariance.max_sharpe"])
p("Turnover blocks penalise exactly |w-w0|",
  "Minimising the auxiliary variables of the linear-turnover blocks for fixed w gives sum_i c_i |w_i - w0_i|; the quadratic-turnover blocks give sum_i lambda_i (w_i-w0_i)^2 up to a constant.",
  "all weights, previous weights, costs", "all inputs", [f"{O}:_linear_turnover_blocks", f"{O}:_quadratic_turnover"])
p("Relaxed risk parity cone is the risk-contribution floor",
  "The rotated cone added per asset is equivalent to x_i*zeta_i >= b_i*gamma^2 with x_i, zeta_i >= 0, and the target clip keeps the target in [min_target, max attainable return].",
  "all points, budgets", "all points", [f"{O}:RelaxedRiskParity.solve"])
# ---- added as the model grew ------------------------------------------------------
p("The minimum-risk portfolio of a CVaR frontier has the smallest CVaR",
  "min_risk on the frontier returned by cvar_frontier selects a portfolio whose CVaR is no larger than that of any other portfolio on it.",
  "all solved frontiers, all signs of CVaR", "must hold for every scenario set, including those with negative CVaR", [f"{A}:PortfolioWrapper.cvar_frontier", f"{A}:PortfolioFrontier.min_risk"])
p("Ensemble specifications made from a wrapper keep its constraints",
  "A specification built by PortfolioWrapper.make_ensemble_spec optimises over the same feasible set as the wrapper it was made from.",
  "all constraint specifications", "all constraint systems", [f"{A}:PortfolioWrapper.make_ensemble_spec", f"{E}:make_portfolio_spec"])
p("combine='frontier' uses each specification's own frontier",
  "With combine='frontier' every specification contributes exactly one column of its own frontier: the requested one, or the first of smallest risk.",
  "all lists of specifications", "all lists, including repeated names", [f"{E}:assemble_portfolio_ensemble"])
p("AssetsDistribution always holds a probability vector",
  "A constructed AssetsDistribution with scenarios carries non-negative probabilities summing to one and proportional to those given (uniform when omitted), a number of assets consistent with every input, and either no asset names or exactly one per asset, equal to every label set supplied; other inputs raise ValueError.",
  "all combinations of moments, scenarios, probabilities and labels", "all shapes, label sets and non-finite values", [f"{A}:AssetsDistribution.__post_init__"])
p("Converted and scaled covariances stay positive semidefinite",
  "log2simple and the horizon scaling of project_mean_covariance return a positive semidefinite covariance whenever the input covariance is positive semidefinite.",
  "all means and PSD covariances of any size", "all directions", [U+"projection.py:log2simple", U+"projection.py:project_mean_covariance"])
p("Projected log returns reprice to compounded returns",
  "Projecting scenarios of log returns over a horizon and repricing with reprice_exp yields, for each simulation, the product of the drawn gross returns minus one.",
  "all scenarios, horizons and draws", "all horizons", [U+"projection.py:project_scenarios", U+"projection.py:reprice_exp"])
p("Projection accepts every valid scenario weighting",
  "project_scenarios and simulate_paths accept every weighting that is non-negative and sums to one within the library's tolerance, and reject negative weights.",
  "all weight vectors", "all vectors, including ones at the tolerance edge", [U+"projection.py:project_scenarios", U+"projection.py:simulate_paths"])
p("Every accepted weighting yields a report",
  "stress_test and performance_report return a report with one row per portfolio for every confidence in (0,1), every scenario weighting that resolve_probabilities accepts, and weights with one row per asset.",
  "all scenario matrices, weightings, weights", "all vectors at and inside the tolerance edges", [S+":stress_test", U+"performance.py:performance_report"])
p("Reports describe the portfolio's P&L",
  "Each row reported by stress_test / performance_report holds the expected P&L, its standard deviation, its VaR and CVaR (Rockafellar-Uryasev) at the confidence level and the entropy-based effective number of scenarios, for that portfolio's weights matched by label, under the stated probabilities and transformed scenarios; VaR <= CVaR and 1 <= ENS <= T.",
  "all portfolios, scenario sets, probabilities, transforms", "all inputs", [S+":stress_test", U+"performance.py:performance_report"])
p("Linear stresses move the report linearly",
  "stress_test with transform=linear_map(scale=s>=0, mean_shift=b) maps return to s*return+w.b, stdev to s*stdev, VaR/CVaR to s*VaR-w.b, s*CVaR-w.b; stressing with the nominal probabilities leaves every number unchanged with KL 0.",
  "all portfolios, scenarios, scales, shifts", "all inputs", [S+":stress_test", S+":linear_map"])
p("Invariant-level stress tests match weights by label",
  "stress_invariants gives the same report for every ordering of the weights' labels.",
  "all label permutations, with and without stress views", "all permutations", [S+":stress_invariants"])
p("horizon_report has one correct row per horizon",
  "For distinct horizons the table has exactly one row per horizon, in order, with distinct labels, each the performance report of the scenarios projected to that horizon.",
  "all lists of horizons", "all horizons", [U+"performance.py:horizon_report"])
p("Path simulation supports every repricing function projection supports",
  "simulate_paths (and drawdown_quantile) applies the repricing function at each step to the cumulative moves, for any number of instruments.",
  "all numbers of drivers and instruments", "all shapes", [U+"projection.py:simulate_paths", U+"performance.py:drawdown_quantile"])

p("Sequential Bayesian updates equal one pooled update",
  "Updating a prior with one data set and using the posterior as prior for a second data set gives the posterior of a single NIWPosterior.update with the pooled data.",
  "all dimensions, priors, data sets and sizes", "algebraic identity over all inputs",
  ["pyvallocation/bayesian.py:NIWPosterior.update"])
p("RobustBayesPosterior.from_niw is consistent with the posterior",
  "The bundle exists exactly when nu1 > 2, recovers Sigma1 from its stored covariance, never has more variance than Sigma1, and reports the same credibility radii as NIWPosterior.",
  "all inputs, all levels", "all inputs; PSD order in all directions",
  ["pyvallocation/bayesian.py:RobustBayesPosterior"])
p("cred_radius_mu is the worst-case mean multiplier",
  "w'mu1 - cred_radius_mu(p) sqrt(w'Sigma1 w) is the minimum of w'mu over the ellipsoid (mu-mu1)' S_mu^-1 (mu-mu1) <= chi2 quantile, and it is attained.",
  "all portfolios, posteriors, levels, all points of the ellipsoid", "optimality over a continuum",
  ["pyvallocation/bayesian.py:NIWPosterior.cred_radius_mu", "pyvallocation/bayesian.py:NIWPosterior.get_S_mu"])
p("cred_radius_sigma_factor is the worst-case variance multiplier",
  "cred_radius_sigma_factor(p) * w'Sigma1 w is the maximum of w'Sigma w over the covariance uncertainty ellipsoid around get_sigma_ce, and it is attained.",
  "all portfolios, posteriors, levels, all matrices in the ellipsoid", "optimality over a continuum of matrices",
  ["pyvallocation/bayesian.py:NIWPosterior.cred_radius_sigma_factor", "pyvallocation/bayesian.py:NIWPosterior.get_sigma_ce"])
p("Mean uncertainty is expressed in consistent horizon units",
  "mean_uncertainty_cov_log is the covariance of the horizon mean, mean_uncertainty_cov_simple the delta-method covariance of the expected simple return over the horizon, with and without the exact correction.",
  "all horizons, portfolios, posteriors", "all inputs",
  ["pyvallocation/bayesian.py:RobustBayesPosterior.mean_uncertainty_cov_log", "pyvallocation/bayesian.py:RobustBayesPosterior.mean_uncertainty_cov_simple"])
p("NIW updates respect asset labels",
  "A labelled sample is combined with the labelled prior by label: the order in which assets are listed does not matter, and inconsistent labels are rejected.",
  "all label orders", "all permutations of labels",
  ["pyvallocation/bayesian.py:NIWPosterior.__init__", "pyvallocation/bayesian.py:NIWPosterior.update"])

p("Mean-variance solve returns the minimum-variance portfolio",
  "MeanVariance's solution satisfies the constraints and the return target and no allowed portfolio reaching the target has a smaller variance plus quadratic impact cost; a solution is returned whenever an allowed portfolio reaches the target.",
  "all covariances, constraints, targets, impact costs; all competing portfolios", "optimality over a continuum",
  [O+":MeanVariance", O+":MeanVariance._solve_target"])
p("Efficient frontiers have the requested columns in the right order",
  "efficient_frontier returns one column per requested point, from the minimum-risk portfolio's return to the maximal allowed return in equal steps, each column being the minimum-risk allowed portfolio for its target; risks do not decrease along the columns.",
  "all problems (the variance problem with at least one inequality), numbers of points; all competing portfolios", "optimality over a continuum, all counts",
  [O+":MeanVariance.efficient_frontier", O+":MeanCVaR.efficient_frontier"])
p("Robust optimisation trades return for robustness monotonically",
  "For lambda1 < lambda2 the portfolio RobustOptimizer.solve_lambda_variant returns for lambda2 has no larger uncertainty radius and no larger nominal return than the one for lambda1; efficient_frontier(lambdas) returns one portfolio per lambda, in the given order, ordered that way for any two of its lambdas, and refuses an empty list or a negative lambda.",
  "all problems and pairs of lambdas, all lists of lambdas", "all optima", [O+":RobustOptimizer.solve_lambda_variant", O+":RobustOptimizer.efficient_frontier"])
p("The gamma variant maximises return under the uncertainty caps",
  "RobustOptimizer.solve_gamma_variant returns an allowed portfolio whose uncertainty radius is at most the square root of the cap and whose return minus gamma_mu times the radius is maximal among the allowed portfolios within the cap; negative parameters are rejected.",
  "all problems, caps; all competing portfolios", "optimality over a continuum", [O+":RobustOptimizer.solve_gamma_variant"])
p("The robust optimiser supports proportional transaction costs",
  "RobustOptimizer with initial weights and proportional costs maximises nominal return minus robustness penalty minus turnover cost.",
  "all problems with costs", "all inputs", [O+":RobustOptimizer"])
p("The robust optimiser reports the uncertainty radius of its weights",
  "The risk returned with a RobustOptimizer solution is the norm of the returned weights in the uncertainty metric, for every lambda >= 0.",
  "all problems and lambdas", "all optima", [O+":RobustOptimizer.solve_lambda_variant"])

p("Relaxed risk parity returns an optimal long-only portfolio",
  "RelaxedRiskParity.solve returns a long-only portfolio satisfying the user's constraints and the reported target, its marginal risks, average risk and contribution floor, and no other such portfolio has a smaller objective; it succeeds whenever such a portfolio exists.",
  "all covariances, constraints, targets, regularisations; all competing portfolios", "optimality over a continuum",
  [O+":RelaxedRiskParity.solve"])
p("Default risk budgets give the equal-risk-contribution portfolio",
  "RelaxedRiskParity without risk_budgets (and without regulariser or target) returns the equal-risk-contribution portfolio; with risk_budgets it returns the portfolio whose risk contributions are proportional to the budgets.",
  "all covariance matrices and budgets", "all matrices", [O+":RelaxedRiskParity.__init__", O+":RelaxedRiskParity.solve"])
p("The reported maximal return is the best attainable return",
  "The max_return reported by RelaxedRiskParity.solve, which caps the target, is the largest expected return of any long-only, fully invested portfolio satisfying the constraints.",
  "all constraint sets", "all portfolios", [O+":RelaxedRiskParity._max_linear_return"])

p("Insufficient distribution inputs are rejected",
  "AssetsDistribution raises ValueError unless it is given both mu and cov, or scenarios: no distribution object exists without a mean and a covariance.",
  "all argument combinations", "all combinations of missing arguments and shapes", [A+":AssetsDistribution.__post_init__"])

p("Discretisation method names select the documented algorithms",
  "discretize_weights accepts exactly the documented method names, greedy/rounddown selecting the same algorithm and milp/mip/integer/lp the same exact one; any other name raises ValueError.",
  "all method strings", "all strings", [D+":discretize_weights"])
p("from_prices builds the distribution of the periodic simple returns",
  "PortfolioWrapper.from_prices turns T+1 rows of positive finite prices into T equally weighted scenarios P[t+1]/P[t]-1 and their mean and covariance; compounding them reproduces the price relative; non-positive, non-finite or too short histories raise ValueError.",
  "all price histories", "all lengths, sizes and prices", [A+":PortfolioWrapper.from_prices"])
p("from_scenarios converts log scenarios scenario by scenario",
  "PortfolioWrapper.from_scenarios with return_type='log' stores exp(r)-1 for every scenario and asset and the mean and covariance of the converted scenarios; with 'simple' it stores the scenarios unchanged.",
  "all scenario matrices and probability vectors", "all sizes and values", [A+":PortfolioWrapper.from_scenarios"])

p("from_moments stores the moments it is given",
  "PortfolioWrapper.from_moments with simple moments stores mu and cov (cov unchanged when positive semidefinite); with return_type='log' it stores exp(mu+diag(cov)/2)-1 and the matching lognormal covariance, and log moments obtained from simple moments by simple2log are stored as the original simple moments; inconsistent shapes raise ValueError.",
  "all moments, labels and return types", "all dimensions and values", [A+":PortfolioWrapper.from_moments", U+"projection.py:log2simple"])
p("Robust portfolios do not depend on the annualisation factor",
  "For a wrapper made by from_robust_posterior, the optimal weights of the robust problem are the same for every positive annualization_factor.",
  "all posteriors, factors, penalties", "all positive factors", [A+":PortfolioWrapper.from_robust_posterior", O+":RobustOptimizer"])
p("variance_frontier is the efficient frontier of the constraints in force",
  "On a non-empty bounded set of portfolios satisfying the specification in force, variance_frontier succeeds; its columns satisfy the specification, each minimises variance (plus impact cost) among allowed portfolios with at least its return, the first has least risk of all, they reach an equally spaced grid of returns up to the largest attainable; returns and volatilities reported are those of the columns.",
  "all moments, constraint specifications, costs, frontier sizes", "optimality against all portfolios", [A+":PortfolioWrapper.variance_frontier"])
p("min_risk and max_return of a variance frontier are the global optima",
  "Without trading costs, min_risk on the frontier returned by variance_frontier has the least variance of all portfolios satisfying the constraints, and max_return the largest return when the frontier has more than one column; at_return returns efficient portfolios.",
  "all moments and constraint specifications limiting something besides total weight and equality rows", "optimality against all portfolios", [A+":PortfolioFrontier.min_risk", A+":PortfolioFrontier.max_return", A+":PortfolioWrapper.variance_frontier"])
p("min_variance_at_return is optimal or raises InfeasibleOptimizationError",
  "min_variance_at_return returns a portfolio satisfying the constraints in force with at least the requested return and least variance (plus impact cost), and raises InfeasibleOptimizationError exactly when no allowed portfolio reaches the return.",
  "all moments, constraints, costs, targets", "optimality against all portfolios", [A+":PortfolioWrapper.min_variance_at_return"])
p("Wrappers of log-return moments minimise the risk they report",
  "For a wrapper made by from_robust_posterior, the volatility reported by min_variance_at_return is the least among allowed portfolios with the reported return.",
  "all log-return moments", "optimality against all portfolios", [A+":PortfolioWrapper.min_variance_at_return", A+":PortfolioWrapper._report_mu_cov"])
p("min_cvar_at_return is optimal or raises InfeasibleOptimizationError",
  "min_cvar_at_return returns a portfolio satisfying the constraints in force, whose reported return is at least the requested one, of least CVaR (plus proportional cost); it raises InfeasibleOptimizationError when no allowed portfolio reaches the return, and reports the CVaR of the portfolio.",
  "all scenario sets, constraints, costs, targets", "optimality against all portfolios", [A+":PortfolioWrapper.min_cvar_at_return"])
p("robust_lambda_frontier sweeps the penalty grid",
  "robust_lambda_frontier returns one column per penalty of the grid (given, or equally spaced from 0 to max_lambda), in order of increasing risk, with its penalty recorded; every column satisfies the constraints; returns do not decrease along the frontier; an empty or negative grid raises ValueError.",
  "all grids, moments, constraints", "all grids and feasible sets", [A+":PortfolioWrapper.robust_lambda_frontier"])
p("Relaxed risk parity always delivers a portfolio and never lowers the target",
  "With valid inputs, once the pure risk parity problem is solvable relaxed_risk_parity_portfolio_with_diagnostics returns a portfolio (relaxing the return target if needed, with a warning), and the target it reports is the requested one or a relaxation of it, never above it.",
  "all moments, penalties, targets", "all retry histories of the solver", [A+":PortfolioWrapper.relaxed_risk_parity_portfolio_with_diagnostics", A+":PortfolioWrapper._solve_relaxed_rp"])
p("relaxed_risk_parity_frontier has one column per multiplier",
  "relaxed_risk_parity_frontier returns, after the optional pure risk parity anchor, one column per target multiplier in the given order, with the multiplier recorded; invalid grids and a negative lambda raise ValueError.",
  "all multiplier grids", "all grids", [A+":PortfolioWrapper.relaxed_risk_parity_frontier"])
p("Transaction cost vectors of the wrong length are rejected",
  "A cost specification whose vectors do not have one entry per asset raises ValueError, whether given to the constructor or to a method.",
  "all cost vectors", "all lengths", [A+":PortfolioWrapper._apply_transaction_costs", A+":PortfolioWrapper._resolve_constraints"])

p("cvar_frontier is the efficient CVaR frontier of the constraints in force",
  "On a non-empty bounded set of portfolios satisfying the specification in force, cvar_frontier succeeds; its columns satisfy the specification, each minimises the scenario CVaR (plus proportional cost) among allowed portfolios with at least its scenario-mean return, they reach an equally spaced grid of returns up to the largest attainable, and the CVaR reported (the raw measure; also the plotted one unless the risks are made monotone) is the absolute value of that of the column.",
  "all scenario sets, constraint specifications, costs, frontier sizes, tail levels", "optimality against all portfolios", [A+":PortfolioWrapper.cvar_frontier"])

p("Stress helpers reweight scenarios as documented",
  "exp_decay_stress, kernel_focus_stress and entropy_pooling_stress report, for the same portfolios, nominal metrics under the given probabilities and stressed metrics under, respectively, probabilities halving every half_life scenarios, Gaussian-kernel probabilities around the target (by default the last focus value), and the given posterior, with their KL divergence; a non-positive half-life or a focus series without one entry per scenario raises ValueError, and valid inputs always yield a report.",
  "all portfolios, scenario sets, weightings, half-lives, focus series, bandwidths", "all inputs", ["pyvallocation/stress.py:exp_decay_stress", "pyvallocation/stress.py:kernel_focus_stress", "pyvallocation/stress.py:entropy_pooling_stress"])
p("Misshapen stress inputs raise ValueError",
  "stress_test raises ValueError exactly when the transform does not return a finite array of the scenarios' shape (other inputs being valid), and otherwise reports the metrics of the returned scenarios; scenario_pnl raises ValueError unless unlabelled weights have one row per asset and otherwise returns the scenario-by-portfolio products.",
  "all transforms and weights", "all shapes", ["pyvallocation/stress.py:stress_test", "pyvallocation/utils/performance.py:scenario_pnl"])

p("solve_robust_gamma_portfolio respects the cap and is optimal",
  "solve_robust_gamma_portfolio returns a portfolio satisfying the constraints in force whose squared estimation risk is at most gamma_sigma_sq and which minimises gamma_mu times estimation risk minus mean return among such portfolios; it reports the portfolio's return (in the units of the other methods) and squared estimation risk; negative parameters raise ValueError and an unattainable cap raises RuntimeError.",
  "all moments, constraints, penalties and caps", "optimality against all portfolios", [A+":PortfolioWrapper.solve_robust_gamma_portfolio"])

p("Named selectors pick the documented portfolio",
  "The named selectors of an ensemble specification return the portfolio their name documents: tangency the largest ratio of excess return (risk-free rate zero unless given) to risk, min_risk the least risk, max_return the largest return, risk_target / risk_match the best return within / the nearest to the given level of the named (or default) risk measure, risk_percentile the portfolio at the given percentile of risks, column the given column; an unknown name or a missing argument raises ValueError.",
  "all frontiers, labels and selector arguments", "all frontiers", [E+":_build_selector"])
p("assemble_portfolio_ensemble returns the requested combination",
  "assemble_portfolio_ensemble evaluates every specification and returns, for each requested combination (average or stack, of selected portfolios or of frontier columns), the corresponding combination; an unknown combination name, an empty specification list or invalid fold counts raise ValueError, and an error of a specification is passed on.",
  "all specifications and combination requests", "all specification lists", [E+":assemble_portfolio_ensemble"])
p("Projection options are applied in the documented order",
  "The projection options of a specification scale the moments by annualization_factor, then convert log-return moments to simple-return moments if log_to_simple or to_simple asks for it, then apply the transform; an unknown option raises ValueError.",
  "all moments and option dictionaries", "all dictionaries", [E+":_apply_projection", E+":make_portfolio_spec"])
p("A specification's distribution comes from the documented source",
  "make_portfolio_spec uses the distribution factory if given, else the distribution, else the returns: after preprocessing, with probabilities matched to rows by label when they are a Series, either as scenarios with exactly those rows and normalised weights, or as estimated (and projected) moments whose covariance is positive definite when the estimate is positive semidefinite; missing returns or unusable probabilities raise ValueError and errors of the parts are passed on.",
  "all data, probabilities, preprocessing steps, estimators", "all inputs", [E+":_build_distribution", E+":make_portfolio_spec"])
p("Combining portfolios checks labels and dimensions",
  "average_exposures / exposure stacking over several sample sets accept them exactly when there is at least one, they have the same positive number of assets, the column selections are valid and no two carry different asset labels; the selected columns (all by default) are concatenated in order and the labels are those of the labelled inputs.",
  "all sequences of sample sets", "all label and shape combinations", [E+":_collect_samples"])
p("Portfolios of different specifications are combined by asset label",
  "Averaging portfolios selected from specifications over different or differently ordered assets gives each asset the weighted average of its weights, counting a missing asset as zero.",
  "all label sets and orders", "all label orders", [E+":assemble_portfolio_ensemble", E+":average_exposures"])

p("from_invariants stores the repriced sum of exactly `horizon` drawn rows as equally likely scenarios",
  "PortfolioWrapper.from_invariants stores n_simulations equally likely scenarios. Each is the repricing of the sum of exactly `horizon` historical rows, each row drawn with its normalised probability. Without a repricing function, log-return invariants give the compounded simple return of the drawn rows; a single function is applied to the whole matrix of sums and a DataFrame's columns become the asset names; a dict gives each instrument its own function of its own named drivers and the instruments become the asset names, in order. A dict with unnamed columns is a TypeError; every positive horizon and number of simulations with usable probabilities is accepted.",
  "every history, horizon, number of simulations, probability vector, repricing specification and stream of random numbers",
  "the chain bootstrap, repricing, distribution must be right for every draw; a test sees one seed",
  [f"{U}projection.py:project_scenarios", f"{U}projection.py:compose_repricers", f"{A}:PortfolioWrapper.from_invariants"])

p("The graphical lasso returns a positive definite precision, its inverse, and minimises the penalised likelihood",
  "sparse_precision_glasso(R, alpha=a) returns a covariance and a precision that are inverse to each other and positive definite; they satisfy the optimality conditions of -log det P + tr(S P) + a * sum of off-diagonal |P_ij| up to the stopping tolerance 1e-4 (variances within 1e-4(sqrt N + a N) of the sample variances, covariances within a plus that), no positive definite matrix has an objective lower by more than a stated multiple of 1e-4, and the precision is sparse. With alpha='auto' the penalty is the one of five candidates a_max*100^(-k/4) with the best held-out Gaussian log-likelihood (within 1e-8). Fewer than two rows or a non-positive penalty are ValueErrors; the only other failure is RuntimeError on non-convergence.",
  "all return panels, all penalties, assume_centered on or off, every eigendecomposition routine returning an orthogonal eigenbasis",
  "optimality compares with every positive definite matrix, a continuum; the test suite checks one panel",
  [f"{M}:sparse_precision_glasso", f"{M}:_graphical_lasso_admm", f"{M}:_soft_threshold"])

p("estimate_moments weighs the scenarios by the given probabilities",
  "estimate_moments(R, p, mean_estimator, cov_estimator) estimates the moments of the scenario distribution in which scenario t has probability p_t: with 'sample' estimators it returns the probability-weighted mean and covariance, every estimator uses p, and omitting p is the same as passing equal probabilities.",
  "all scenario panels, all probability vectors, all estimator names", "quantifies over every panel, weight vector and estimator pair",
  [f"{M}:estimate_moments", f"{M}:estimate_sample_moments"])

p("Estimator names select the estimator and the covariance is symmetric and positive semidefinite",
  "A successful estimate_moments call means that both names are documented ones (in any capitalisation); the mean is the output of the named mean estimator with the given options and the covariance that of the named covariance estimator, and the covariance is symmetric and positive semidefinite up to 1e-8 (every eigenvalue at least -1e-8), given a valid probability vector, an EWMA span of at least one and Tyler's PSD guard left on. An unknown name is a ValueError.",
  "all scenario panels, probability vectors, estimator names and options", "quantifies over every panel and option combination",
  [f"{M}:estimate_moments"])

p("Sample moments carry the asset labels whatever container the probabilities come in",
  "estimate_sample_moments(R, p) with a DataFrame R and valid probabilities (array or Series) returns a mean Series and covariance DataFrame labelled by the columns of R; with an ndarray R it returns arrays.",
  "all panels, label sets and probability containers", "all shapes, including T = N",
  [f"{M}:estimate_sample_moments", f"{M}:_labels", f"{M}:_wrap"])

p("The one-shot Normal-Inverse-Wishart functions agree with the posterior object",
  "posterior_moments_niw and its uncertainty variant succeed exactly when constructing the posterior object, updating it and reading its estimates does, and return the same numbers.",
  "all priors, samples, confidence levels and risk-aversion inputs", "all inputs, including those rejected",
  [f"{M}:posterior_moments_niw", f"{A}:PortfolioWrapper", f"{B}:NIWPosterior"])

p("Black-Litterman prior mean and input checks",
  "The prior mean is pi if given, else the equilibrium mean risk_aversion * Sigma * w / sum(w) of the market weights, else prior_mean; exactly one must be supplied and have one entry per asset. A covariance that is not square, a non-positive risk aversion, no prior mean, or vectors of the wrong length are ValueErrors. An asymmetric covariance is replaced by its symmetric part. Without views the posterior is exactly this prior.",
  "all covariances, prior vectors, market weights and risk aversions, arrays or labelled", "all lengths and argument combinations",
  [f"{V}:BlackLittermanProcessor.__init__"])

p("Black-Litterman views and confidences are read by label, and the result is the published posterior for them",
  "Each view key refers to assets by name, else as an integer name, else by position; unknown labels, and sequences without exactly one element, are ValueErrors. A vector of views is one absolute view per asset. Confidences are one number for all views, a dictionary by view key with 1 for missing keys, or an array in view order with exactly one entry per view. The posterior is the He-Litterman formula for exactly these views, with the view covariance tau*diag(P Sigma P') by default, the odds (1-c)/c times the view variance for Idzorek confidences, or the one supplied.",
  "all asset labels, view dictionaries, confidence and omega specifications", "all keys, label sets and container types",
  [f"{V}:BlackLittermanProcessor._asset_index", f"{V}:BlackLittermanProcessor._build_views", f"{V}:BlackLittermanProcessor._parse_conf", f"{V}:BlackLittermanProcessor._build_omega"])

p("Building a Black-Litterman processor leaves the caller's arrays unchanged",
  "After BlackLittermanProcessor(...) every array passed by the caller has the contents it had before.",
  "all inputs", "tests pass fresh literals and never look at them again",
  [f"{V}:BlackLittermanProcessor.__init__"])

p("pandas_to_numpy_returns: accepted inputs, shape and absence of NaN",
  "pandas_to_numpy_returns succeeds exactly when the date column (if named) is the index or a parseable column, the price columns exist and are numeric (or some numeric column and row exists), and the return and fill methods are documented names. The result then contains no NaN, has one column per price column in the requested order, and T-1 rows (at most T-1 when incomplete rows are dropped). Failures are ValueErrors, except that a named non-numeric price column with a documented return method is a TypeError.",
  "all price frames, column selections, date columns and option names", "all frames with any pattern of missing values",
  [f"{U}data_helpers.py:pandas_to_numpy_returns"])

p("pandas_to_numpy_returns: entries are the period returns and compound to the total price change",
  "Each entry is the log or simple return of that column over that period when both prices are available, otherwise the neighbouring available return chosen by the fill method (zero if none); dropping keeps exactly the complete periods. The returns of a column compound to its total price change, and non-positive prices are rejected.",
  "all price histories, including missing prices", "compounding quantifies over all lengths and gap patterns",
  [f"{U}data_helpers.py:pandas_to_numpy_returns"])

p("numpy_weights_to_pandas_series pairs names and weights by position",
  "A one-dimensional array and a list of strings of the same length give a Series whose k-th label carries the k-th weight; anything else is a ValueError.",
  "all arrays and name lists", "all lengths and types",
  [f"{U}data_helpers.py:numpy_weights_to_pandas_series"])

p("Averaging frontiers averages one portfolio per frontier",
  "average_frontiers pools one column of each frontier (the requested one, negative positions counting from the end, else the first minimum-risk column), requires a common positive number of assets and identical asset labels, and returns the weighted mean of the pooled portfolios (equal weights by default, caller weights by position, normalised by a positive sum) with those labels; it raises in every other case. Every linear limit or equality satisfied by all portfolios of the frontiers is satisfied by the result (limits: for non-negative weights).",
  "every list of frontiers or sample sets, selection list, weight argument and linear functional",
  "the frontiers, their sizes, labels and selections vary without bound; unit tests only average two or three frontiers",
  [f"{E}:average_frontiers", f"{E}:_collect_samples", f"{E}:_series_from_vector"])
p("Stacking frontiers returns a convex combination and is bounded by the number of frontiers",
  "exposure_stack_frontiers and stack_portfolios return a convex combination of the pooled portfolios minimising the cross-validation loss over L folds that split them, carrying their labels, and so satisfying every linear limit all of them satisfy; it succeeds whenever 2 <= L <= number of pooled portfolios. Frontiers contribute one portfolio each when selections are omitted or given, as the argument documentation says (the Notes and the module example say the full matrices are used).",
  "every list of frontiers or sample sets, L, selection list and QP solver that is sound and complete",
  "optimality and feasibility are universally quantified over all convex combinations and all linear functionals",
  [f"{E}:exposure_stack_frontiers", f"{E}:stack_portfolios"])
p("Risk-percentile selections align frontiers",
  "risk_percentile_selections returns exactly one column per frontier, the first whose risk percentile under the requested label is nearest the requested one, and average_frontiers with these selections returns the mean of those columns.",
  "every family of non-empty frontiers over the same assets, percentile, risk label and tie-breaking of the sort",
  "frontiers of different sizes and ties are unbounded",
  [f"{E}:risk_percentile_selections", f"{A}:PortfolioFrontier.index_at_risk_percentile"])
p("A dictionary of constraints means what it says",
  "Constraints.from_dict(d).to_matrices(n), when it succeeds, admits exactly the portfolios that satisfy every recognised item of d, long-only and fully invested unless d overrides it; the order of keys and unrecognised keys do not matter.",
  "every dictionary with values of the right kind, every number of assets, every weight vector",
  "the admitted set is an infinite set of weight vectors",
  ["pyvallocation/utils/constraints.py:Constraints.from_dict", "pyvallocation/utils/constraints.py:Constraints.to_matrices"])
p("Frontier tables show the requested portfolios",
  "PortfolioFrontier.to_frame(columns, column_labels) succeeds exactly when every requested position exists (negative ones count from the end) and the caller's labels are as many as the columns; the frame holds the requested portfolios in the requested order under the caller's labels, else the requested positions, else 0..M-1, indexed by asset label.",
  "every frontier, request and label list",
  "requests are lists of unbounded length with repetitions and negative positions",
  [f"{A}:PortfolioFrontier.to_frame", f"{A}:PortfolioFrontier._select_weights"])
p("Whole-share allocation of a frontier portfolio",
  "as_discrete_allocation(column, ...) raises IndexError for every column outside 0..M-1 (negative ones included) and otherwise gives exactly what discretize_weights gives for that portfolio under its asset labels (Asset_0, Asset_1, ... when unlabelled); the greedy method on a long-only column with valid prices succeeds, stays within the value and holds every asset within one lot of its weight.",
  "every frontier over rational weights, column, price and lot dictionary, value, iteration cap and sort tie-breaking",
  "budget and tracking bounds must hold for all prices, lots and weights",
  [f"{A}:PortfolioFrontier.as_discrete_allocation", f"{D}:discretize_weights"])

p("POET returns the principal factor decomposition of its covariance",
  "factor_covariance_poet(return_decomp=True) returns k factors (the requested number, at most N, at least one) whose scores have mean zero, are uncorrelated and have non-increasing variances; the loadings are the covariances of the returns with the scores per standard deviation of the score; the loadings never explain more variance than the sample has in any direction and leave unexplained, in standardised units, in no direction more than the variance of any retained factor; the returned covariance is, up to one common non-negative amount on the diagonal, loadings loadings' plus the unexplained part with its off-diagonal entries soft-thresholded.",
  "all return matrices, factor counts, thresholds, exact eigen-decompositions and sorting of ties",
  "quantifies over all samples and all directions of a vector space",
  [f"{M}:factor_covariance_poet"])

p("Scenarios simulated from a prior mean and covariance have those moments",
  "FlexibleViewsProcessor(prior_mean=mu, prior_cov=S, num_scenarios=k) with a covariance whose symmetric part is positive semidefinite succeeds for every k > 0 and produces scenarios mu + L z for the generator's draws z, with L L' equal to the symmetric part of S plus 1e-6 on the diagonal: the sample mean and covariance are the affine images of those of the draws, hence exactly mu and S (+1e-6 I) for standardised draws; a custom distribution_fn receives the same two moments, its output is used when it has shape (k, N) and rejected otherwise; missing moments, non-positive k and mismatching shapes are ValueErrors.",
  "all means, covariances, numbers of scenarios, draws and custom generators", "all draws of a random generator and all positive semidefinite matrices",
  [f"{V}:FlexibleViewsProcessor.__init__"])
p("Prior moments are matched to assets by label",
  "When prior_mean is a Series and prior_cov a DataFrame, each asset is simulated with the mean and covariances given under its own label, or the call raises.",
  "all labelled means and covariances, in any order", "all orders of all label sets",
  [f"{V}:FlexibleViewsProcessor.__init__"])
p("What a views processor reports is consistent, and survives the hand-off to the portfolio layer",
  "get_posterior_probabilities() is a probability vector; get_posterior() is the mean and (positive semidefinite) covariance of get_scenarios() under it, under the asset labels; PortfolioWrapper.from_scenarios(get_scenarios(), get_posterior_probabilities()) and from_moments(*get_posterior()) succeed and store exactly these scenarios, probabilities, moments and names.",
  "all scenario sets, priors, views, modes and correct entropy-pooling solvers", "quantifies over all views and all solver outputs",
  [f"{V}:FlexibleViewsProcessor", f"{A}:PortfolioWrapper.from_scenarios", f"{A}:PortfolioWrapper.from_moments"])
p("Views to portfolio: the optimiser minimises risk under the posterior",
  "With the posterior handed over by from_scenarios and constraints c, the min_risk portfolio of variance_frontier satisfies c, reports its expected outcome and standard deviation under the posterior, and no portfolio satisfying c has smaller posterior variance; every portfolio of cvar_frontier has the least posterior CVaR among those satisfying c with at least its posterior expected outcome.",
  "all scenario sets, views, bounded feasible constraint sets (with an inequality among them for the variance frontier), and correct solvers", "optimality over an infinite set of portfolios through four composed stages",
  [f"{V}:FlexibleViewsProcessor", f"{A}:PortfolioWrapper.variance_frontier", f"{A}:PortfolioWrapper.cvar_frontier"])
p("Views given as vectors constrain the assets by position",
  "A vector of mean views (without ranking, quantile or CVaR views, simultaneous mode, distinct labels) makes the posterior mean equal to that vector, whatever the other moment views; a vector of volatilities or variances given with it is attained exactly too; a vector of the wrong length is a ValueError.",
  "all scenario sets, priors, vectors and further moment views", "equality of every component for every feasible vector",
  [f"{V}:FlexibleViewsProcessor.__init__"])
p("Integer drivers are simulated like the same numbers stored as floats",
  "simulate_paths and drawdown_quantile give the same paths and the same report for drivers stored as integers as for the same numbers stored as floating point: the path at each step is the repricing of the cumulative moves.",
  "all driver matrices with integer entries, probabilities, draws and repricing functions", "all driver values and all draws of the generator",
  [f"{U}projection.py:simulate_paths", f"{U}performance.py:drawdown_quantile"])
p("Drawdown reports match weights to drivers by label",
  "drawdown_quantile of a labelled portfolio over labelled drivers uses, for every driver, the weight given under its label: the order in which the portfolio lists its assets does not matter.",
  "all labelled portfolios and driver tables", "all permutations of all label sets",
  [f"{U}performance.py:drawdown_quantile"])
p("An ensemble call returns exactly what was asked for",
  "assemble_portfolio_ensemble(ensemble=...) holds an 'average' ('stack') portfolio exactly when the argument names it, up to letter case and surrounding blanks; any other visible name makes the call raise; None, blank strings, 'none' as a string and sequences of None and blanks ask for nothing and always succeed for working specifications; average, stacked and get return these portfolios or None / the default; combine is recognised in any letter case and nothing else is accepted.",
  "all request arguments, specifications, weights, folds and solvers", "requests are arbitrary strings and sequences",
  [f"{E}:assemble_portfolio_ensemble", f"{E}:_normalise_ensemble_argument", f"{E}:EnsembleResult"])
p("Ensemble results document their specifications",
  "The metadata of a specification keeps every entry the user supplies and fills in optimiser, mean_estimator, cov_estimator and use_scenarios only where absent; with distinct names the result lists, in the order of the specifications, the frontier each factory built, the portfolio each selector picked from it, and each metadata dictionary. With repeated names it still lists every selected portfolio, and the frontier and metadata of the last specification of each name.",
  "all metadata dictionaries and specification lists", "dictionaries and lists of unbounded size",
  [f"{E}:make_portfolio_spec", f"{E}:assemble_portfolio_ensemble", f"{E}:EnsembleResult"])
p("Estimated moments do not depend on the order of the assets",
  "estimate_moments of a return table with its columns in another order reports, for every choice of estimators and options, the same mean for every asset and the same covariance for every pair of assets, under the reordered labels, and fails with the same error otherwise.",
  "all return tables, column orders, probabilities, estimators and options (POET: the number of factors does not cut through a repeated eigenvalue)", "all permutations of all tables through iterative estimators",
  [f"{M}:estimate_moments"])
p("Estimated moments do not depend on the order of the scenarios",
  "Shuffling the rows of the return table together with their probabilities leaves the result of estimate_moments exactly the same, for every mean estimator except median-of-means and every covariance estimator except EWMA and the cross-validated graphical lasso.",
  "all return tables, row orders, probabilities, estimators and options", "all permutations of all tables",
  [f"{M}:estimate_moments"])
p("Adding a constant to the returns moves the mean and not the covariance",
  "Adding a constant to every return of an asset adds it to the asset's estimated mean and leaves the estimated covariance as it was (estimators that shrink the mean to a common value: the same constant for all assets; OAS and graphical lasso: with assume_centered=False).",
  "all return tables, constants, non-negative probabilities summing to one and options", "exact equality for all tables and constants",
  [f"{M}:estimate_moments"])
p("Estimates do not depend on the units of the returns",
  "Multiplying all returns by a positive constant (decimals to per cent) multiplies the estimated mean by it and the estimated covariance by its square.",
  "all return tables, constants, probabilities, estimators and options", "exact equality for all tables and constants",
  [f"{M}:estimate_moments", f"{M}:shrink_covariance_ledoit_wolf"])
p("Views with impossible targets or unknown assets are rejected",
  "A views processor accepts views exactly when every label names an asset, every target is a finite number (bounds in order) and lies in its range: volatilities positive, variances non-negative, correlations in [-1, 1], quantile probabilities strictly between 0 and 1; skewness views also need an asset with positive variance when they are used. Otherwise the constructor raises and no posterior exists.",
  "all scenario sets, priors, label sets and views of every kind", "quantifies over all view dictionaries and targets",
  [f"{V}:FlexibleViewsProcessor.__init__", f"{V}:FlexibleViewsProcessor._parse_view_specs"])
p("Given scenarios and probabilities are the prior of a views processor",
  "FlexibleViewsProcessor(prior_risk_drivers=R, prior_probabilities=p) keeps R under its column labels (or positions) and accepts p exactly when it has one entry per scenario; without views the posterior is (R, p) itself, or R with equal probabilities when p is omitted, in both modes and whatever the solver.",
  "all scenario matrices, probability vectors and labels", "exact equality for all matrices",
  [f"{V}:FlexibleViewsProcessor.__init__", f"{V}:FlexibleViewsProcessor.get_posterior_probabilities"])
p("The alternate risks attached to a frontier are what their labels say",
  "variance_frontier and relaxed_risk_parity_frontier of a wrapper with scenarios carry one overlay, 'CVaR (95%)': the absolute CVaR at 95% of every column; cvar_frontier carries the volatility of every column over the scenarios and its raw CVaR; robust_lambda_frontier carries the CVaR and a volatility computed from return_cov (matched by asset label), else from the covariance of a robust posterior, else from the scenarios, all in the order of the columns with their penalties; volatilities refer to the same (simple) returns as the returns listed beside them.",
  "all wrappers, constraints, grids, reference covariances and solvers", "every column of every frontier",
  [f"{A}:PortfolioWrapper.variance_frontier", f"{A}:PortfolioWrapper.cvar_frontier", f"{A}:PortfolioWrapper.robust_lambda_frontier", f"{A}:PortfolioWrapper.relaxed_risk_parity_frontier"])
p("Relaxed risk parity diagnostics are consistent",
  "risk_contributions_pct lists each asset's share of the portfolio variance and adds up to 100; target_clipped is true exactly when the portfolio was not held to the requested target.",
  "all wrappers, constraints, penalties and targets", "all covariances and solver outcomes",
  [f"{A}:PortfolioWrapper.relaxed_risk_parity_portfolio_with_diagnostics"])
p("Methods that need moments raise ValueError without them",
  "variance_frontier, min_variance_at_return, robust_lambda_frontier, solve_robust_gamma_portfolio and the relaxed risk parity methods raise ValueError when the mean or the covariance is missing, whatever the other arguments; the CVaR methods do so when there are no scenarios either.",
  "all wrappers and arguments", "all combinations of arguments",
  [f"{A}:PortfolioWrapper"])
p("CVaR methods without scenarios use simulated ones",
  "On a wrapper without scenarios, cvar_frontier and min_cvar_at_return give exactly the result of a wrapper that holds 5000 equally likely draws from the normal distribution of its moments, converted to simple returns when the moments are those of log returns, with the expected simple returns.",
  "all moments, seeds, generators, constraints and costs", "all draws of the generator",
  [f"{A}:PortfolioWrapper._scenario_inputs", f"{A}:PortfolioWrapper.cvar_frontier", f"{A}:PortfolioWrapper.min_cvar_at_return"])
p("The one-shot Black-Litterman function agrees with the processor",
  "posterior_moments_black_litterman returns exactly the posterior mean and covariance of a BlackLittermanProcessor built from the same arguments; omitting omega means omega='idzorek', so a call with views and without confidences raises ValueError; without views it returns the prior. The other omitted arguments are risk_aversion 1, tau 0.05 and idzorek_use_tau True.",
  "all prior specifications, views, confidences and uncertainty arguments", "all argument combinations",
  [f"{M}:posterior_moments_black_litterman", f"{V}:BlackLittermanProcessor"])
p("A Black-Litterman confidence applies to the view it is written for",
  "A confidence given in a dictionary, under the view's own key or under the joined key 'A,B' as the module documentation writes it, is the confidence used for that view.",
  "all views and confidence dictionaries", "all dictionaries",
  [f"{V}:BlackLittermanProcessor", f"{M}:posterior_moments_black_litterman"])
p("A Black-Litterman posterior handed to the portfolio wrapper is optimised as it is",
  "The posterior mean and covariance passed to PortfolioWrapper.from_moments are stored exactly, under the posterior's labels; the minimum-risk portfolio of the variance frontier minimises the posterior variance over the admissible portfolios, and the posterior variance of every portfolio lies between its prior variance and (1 + tau) times it.",
  "all posteriors, constraints with an inequality among them and solvers", "all admissible portfolios",
  [f"{V}:BlackLittermanProcessor.get_posterior", f"{A}:PortfolioWrapper.from_moments", f"{A}:PortfolioWrapper.variance_frontier"])
p("From a price history to whole shares",
  "For a finite, strictly positive price DataFrame with distinct labels and the default constraints, from_prices and variance_frontier succeed; every frontier portfolio is long-only and fully invested and no such portfolio with at least its average historical return has a smaller historical variance (the first: no portfolio at all); as_discrete_allocation turns any of them, at any positive quotes and for any positive amount, into whole shares without overspending, the money in every asset within one share of its weight (up to the 1e-8 cut-off of the weights, once per asset).",
  "all price histories, quotes, amounts, frontier sizes and correct convex solvers", "the composition of four modules over all inputs",
  [f"{A}:PortfolioWrapper.from_prices", f"{A}:PortfolioWrapper.variance_frontier", f"{A}:PortfolioFrontier.as_discrete_allocation", f"{D}:discretize_weights"])
p("The assets a Black-Litterman view is about",
  "A label of a view refers to the asset carrying it; if no asset does, an integer refers to the asset at that position (from zero) and a string of digits to the number it spells, as a label first and as a position otherwise; any other label raises ValueError. An absolute view is about the mean of that asset, a relative view on two different assets about the difference of their means.",
  "all label sets without repetition, labels and mean vectors", "all label sets",
  [f"{V}:BlackLittermanProcessor._asset_index", f"{V}:BlackLittermanProcessor._build_views"])
p("Non-finite inputs of the discrete allocator are refused",
  "DiscreteAllocationInput (and so discretize_weights) raises ValueError when a weight, a price of a kept asset or total_value is NaN or infinite.",
  "all weight, price and lot mappings over floats with NaN and infinities", "all floats",
  [f"{D}:DiscreteAllocationInput.__post_init__"])
p("The variance frontier is determined by its inputs",
  "With a positive definite covariance, variance_frontier and min_variance_at_return do not depend on the convex solver: any two correct solvers give the same number of portfolios and the same portfolios, returns and volatilities (or both report infeasibility).",
  "all means, positive definite covariances, constraints with an inequality among them admitting a bounded non-empty set of portfolios, trading costs, frontier sizes and correct solvers", "all solvers",
  [f"{A}:PortfolioWrapper.variance_frontier", f"{A}:PortfolioWrapper.min_variance_at_return", f"{O}:MeanVariance"])
p("The variance frontier does not depend on the order of the assets",
  "If two wrappers describe the same assets in different orders (means, positive definite covariance, trading costs and constraints corresponding), their variance frontiers list the same portfolios, each with its weights in the respective order, and the same returns and volatilities.",
  "all permutations, means, positive definite covariances, constraints with an inequality among them admitting a bounded non-empty set of portfolios, costs and correct solvers", "all orders and solvers",
  [f"{A}:PortfolioWrapper.variance_frontier", f"{O}:MeanVariance"])
p("The greedy allocator hands over to the mixed-integer allocator only at an explicit cap",
  "For a valid long-only call with normalised weights above 1e-12 and no iteration cap (or one above the number of kept assets), the greedy method returns the greedy allocation whatever fallback_mode and the MILP solver are; with max_iterations <= 0 and fallback_mode 'auto' or 'milp' it returns the MILP allocation whenever that succeeds.",
  "all valid long-only inputs, caps, fallback modes and solvers", "all runs of the loop",
  [f"{D}:allocate_greedy", f"{D}:discretize_weights"])
PL = "pyvallocation/plotting.py"
p("plot_frontiers draws the frontiers and highlights the selectors' portfolios",
  "plot_frontiers draws every frontier supplied, in order, as the curve of the requested risk against the returns, under the caller's label (else the risk label, else the risk measure); an overlay exactly for the requested measures the frontier has; the recorded highlights are the first portfolio of least drawn risk, of greatest return, and of greatest excess return per unit of drawn risk, and agree with min_risk, max_return and tangency. The risk axis is named by the risk label, else by the frontiers' common risk measure, else 'Risk'. Malformed input raises TypeError or ValueError, an unknown risk label KeyError, an unknown marker or tangency without a risk-free rate ValueError; otherwise it succeeds.",
  "all frontiers, labels, markers, overlays and risk labels", "all frontiers",
  [f"{PL}:plot_frontiers", f"{PL}:_normalize_frontiers", f"{PL}:_resolve_highlight"])
p("plot_frontiers_grid draws every frontier in the panel of its group",
  "One panel per group, in the order in which the groups first occur; the panel of a group draws exactly the frontiers of that group; the grid has room for every panel; the documented legend policies are accepted.",
  "all frontiers, grouping functions, labels and grid widths", "all groupings",
  [f"{PL}:plot_frontiers_grid"])
p("plot_frontier_report marks the portfolio whose weights it shows",
  "For every documented selection the report shows the weights of the portfolio the frontier's selector returns and marks exactly that portfolio's point of the drawn curve; it succeeds whenever the selector does. A selection without the argument it needs raises KeyError, an undocumented selection ValueError.",
  "all frontiers, selections, arguments and risk labels", "all selections",
  [f"{PL}:plot_frontier_report"])
p("plot_weights(top_n) shows the largest weights",
  "With top_n = n the n largest weights are drawn (for a negative n, all but the -n smallest; without it all), each under its own label, ascending for barh and descending otherwise, whatever the order of ties.",
  "all weight Series, kinds and n", "all Series",
  [f"{PL}:plot_weights"])
p("The parameter plots pair each portfolio with its own parameter",
  "plot_param_impact draws every portfolio of the frontier exactly once per panel, at its own parameter value with its own return and risk, in non-decreasing order of the parameter; plot_robust_surface draws (parameter, risk, return) of every portfolio and plot_robust_path colours it by its parameter; missing or non-finite parameters raise ValueError (plot_robust_path: fall back to the position).",
  "all frontiers with one metadata entry per portfolio", "all frontiers",
  [f"{PL}:plot_param_impact", f"{PL}:plot_robust_surface", f"{PL}:plot_robust_path"])
p("The 3D picture of the assumptions shows principal components",
  "In plot_assumptions_3d the axes are the first three principal components of the covariance (orthonormal, each of greatest variance orthogonal to the ones before), the covariance shown is diagonal with their variances, the percentage in an axis label is the variance along that axis over the total variance, and if the mean and covariance are those of the scenarios then the mean and covariance shown are those of the scenarios shown.",
  "all means, covariances, scenarios, eigen-solvers and sorting routines", "all covariances",
  [f"{PL}:plot_assumptions_3d", f"{PL}:_project_to_3d"])
p("The ellipsoid drawn is the n_std ellipsoid of the covariance",
  "Every mesh point lies on the ellipsoid of n_std standard deviations (with 1e-16 added to the variances), which in every direction stays within n_std standard deviations of the mean; the principal axes end on the one-standard-deviation ellipsoid. The mesh is closed (first and last meridian coincide, the poles are single opposite points).",
  "all covariances, radii, resolutions and eigen-solvers", "all covariances",
  [f"{PL}:_ellipsoid_mesh", f"{PL}:plot_assumptions_3d"])
p("Scenarios in the 3D picture are thinned evenly",
  "At most max_points scenarios are drawn: all if there are no more, otherwise max_points different ones in order, the first and the last among them, with gaps that differ by at most one.",
  "all numbers of scenarios and max_points", "all sizes",
  [f"{PL}:plot_assumptions_3d"])
p("The CVaR frontier is determined by its inputs",
  "For scenarios, min_cvar_at_return reports the same CVaR with any two correct convex solvers, and cvar_frontier the same returns and CVaRs.",
  "all scenarios, probabilities, constraints admitting a bounded non-empty set of portfolios, tail levels, frontier sizes and correct solvers", "all solvers",
  [f"{A}:PortfolioWrapper.cvar_frontier", f"{A}:PortfolioWrapper.min_cvar_at_return", f"{O}:MeanCVaR"])
p("Risk along a frontier is monotone and convex",
  "Along a variance frontier (and along a CVaR frontier on scenarios where no admitted portfolio has negative CVaR) without trading costs the risk never decreases, and every portfolio's risk is at most the average of its neighbours'.",
  "all means, covariances, scenarios, constraints with an inequality among them admitting a bounded non-empty set of portfolios, frontier sizes and correct solvers", "all inputs and solvers",
  [f"{A}:PortfolioWrapper.variance_frontier", f"{A}:PortfolioWrapper.cvar_frontier", f"{O}:_FrontierMixin._frontier"])
p("More freedom never costs risk",
  "If a second call admits every portfolio of the first - the same assets or more, weaker constraints, an equal or lower target return - then it finds a portfolio whenever the first does, and its volatility (min_variance_at_return) or CVaR (min_cvar_at_return) is not larger.",
  "all pairs of universes, moments or scenarios agreeing on the common assets, bounded constraint sets, targets and correct solvers, without trading costs", "all pairs of calls",
  [f"{A}:PortfolioWrapper.min_variance_at_return", f"{A}:PortfolioWrapper.min_cvar_at_return"])
p("Portfolios do not depend on the units of returns",
  "Multiplying means and targets by k > 0 and covariances by k^2 (percentages instead of fractions) leaves the optimal portfolios unchanged and multiplies returns and volatilities by k.",
  "all k > 0, means, positive definite covariances, bounded constraints, targets, frontier sizes and correct solvers, without trading costs", "all inputs",
  [f"{A}:PortfolioWrapper.min_variance_at_return", f"{A}:PortfolioWrapper.variance_frontier", f"{O}:_FrontierMixin._frontier"])
p("A lot is a big share",
  "With positive lot sizes, discretize_weights in lots gives the same outcome as allocating single units priced at a whole lot each: the same errors, leftover cash, achieved weights and tracking error, and shares equal to the units times the lot size.",
  "all weights, prices, amounts, positive lot sizes, methods, iteration caps, fallback modes, sorts and solvers that are functions of the weights and of the programme", "all runs",
  [f"{D}:discretize_weights", f"{D}:allocate_greedy", f"{D}:allocate_mip"])
p("Only relative weights matter to the allocator",
  "Multiplying all weights by a positive factor changes nothing in discretize_weights as long as no weight crosses the cut-off of 1e-8 below which weights are ignored.",
  "all weights, factors, prices, amounts, lots, methods and solvers", "all inputs",
  [f"{D}:DiscreteAllocationInput.__post_init__", f"{D}:discretize_weights"])
p("The allocation does not depend on the currency",
  "Multiplying prices and the amount by k > 0 leaves the shares, achieved weights and tracking error of the greedy allocation unchanged and multiplies the leftover cash by k.",
  "all valid long-only inputs, k, caps and sorts", "all inputs",
  [f"{D}:allocate_greedy"])
p("The allocation does not depend on the order of the assets",
  "With distinct kept weights, permuting the weights and giving prices and lot sizes in any order leaves every holding, the leftover cash and the tracking error of the greedy allocation unchanged.",
  "all valid long-only inputs with distinct kept weights, permutations, caps and descending sorts", "all orders",
  [f"{D}:allocate_greedy", f"{D}:discretize_weights"])
p("Attainable targets are attained",
  "If the target value of every kept asset is a whole number of lots, both allocators buy exactly those lots with no cash left and no tracking error; in particular discretising the achieved weights of a long-only allocation with the money it spent reproduces its shares.",
  "all valid long-only inputs, caps, sorts, non-negative cash penalties and correct solvers; for the round trip holdings above 1e-8 of the amount", "all inputs",
  [f"{D}:allocate_greedy", f"{D}:allocate_mip", f"{D}:discretize_weights"])
p("Views the prior already meets change nothing",
  "If every view already holds under the prior scenario probabilities, FlexibleViewsProcessor returns the prior probabilities and the prior's mean and covariance, exactly as without views.",
  "all scenarios, priors, assets, well-formed views satisfied by the prior and exact entropy-pooling solvers", "all views",
  [f"{V}:FlexibleViewsProcessor", f"{V}:entropy_pooling"])
p("The order of views does not matter",
  "Writing the entries of the view dictionaries of FlexibleViewsProcessor in another order gives the same posterior probabilities, mean and covariance.",
  "all scenarios, priors, views of all kinds, permutations of the dictionaries and exact entropy-pooling solvers", "all orders",
  [f"{V}:FlexibleViewsProcessor"])
p("The order of scenarios does not matter to views",
  "Reordering the scenarios together with the prior probabilities reorders the posterior probabilities in the same way and leaves posterior mean and covariance unchanged.",
  "all scenarios, priors, views, permutations and exact entropy-pooling solvers; no ties between scenarios of an asset with a CVaR view", "all orders",
  [f"{V}:FlexibleViewsProcessor"])
p("The order of assets does not matter to views",
  "Listing the assets (columns, labels and vectors of views) in another order leaves the posterior probabilities of FlexibleViewsProcessor unchanged and lists posterior mean and covariance in that order.",
  "all scenarios, priors, views, permutations and exact entropy-pooling solvers; CVaR views as a dictionary", "all orders",
  [f"{V}:FlexibleViewsProcessor"])
p("Variance and volatility of one or many portfolios",
  "portfolio_variance returns w'Cw: a number for a weight vector or a single column, otherwise an array with one entry per column; portfolio_volatility returns the square roots. For a covariance matrix the volatilities are never NaN, non-negative, absolutely homogeneous and subadditive, and with the covariance of scenarios the variance is that of the portfolio's outcomes. A covariance that is not square over the instruments is rejected.",
  "all weights, numbers of instruments and portfolios, and covariance arrays", "all inputs",
  [f"{U}functions.py:portfolio_variance", f"{U}functions.py:portfolio_volatility", f"{U}functions.py:_ensure_weights_matrix"])
p("VaR and CVaR of many portfolios",
  "For a weight matrix portfolio_var and portfolio_cvar give, for every portfolio, the number they give for that column alone - its VaR and CVaR under the probabilities; a single portfolio gives a number, several give one entry per portfolio in order. Scenario matrices and probability vectors of the wrong size and confidences outside (0,1) raise ValueError.",
  "all weights, numbers of portfolios, scenarios, probabilities, confidences and tie orders of the sort", "all inputs",
  [f"{U}functions.py:portfolio_var", f"{U}functions.py:portfolio_cvar"])
p("Black-Litterman targets move only the mean, and linearly", "In BlackLittermanProcessor the numbers asked for by the views affect only the posterior mean: whether the call succeeds and the posterior covariance do not depend on them, and targets between two sets of targets give the mean between the two posterior means. Views that ask for exactly the prior values leave the prior mean unchanged, whatever their confidence, and with the default view uncertainty a single view moves the quantity it speaks about exactly half of the way to its target.",
  "all covariances, priors, views, targets, confidences and view uncertainties", "linearity in the targets is a statement about pairs of calls", [f"{V}:BlackLittermanProcessor", f"{V}:BlackLittermanProcessor._compute_posterior"])
p("The order of Black-Litterman views does not matter", "Listing the views in another order, with array confidences and given view uncertainties in that order too, gives the same posterior mean and covariance or the same error.",
  "all view lists and reorderings", "all reorderings of all view lists", [f"{V}:BlackLittermanProcessor", f"{V}:BlackLittermanProcessor._build_views"])
p("The order of assets does not matter to Black-Litterman", "Listing covariance, labels, prior mean or market weights in another order gives the posterior mean and covariance in that order, or the same error, when labels are distinct and the views name assets by label.",
  "all inputs and reorderings of the assets", "all reorderings", [f"{V}:BlackLittermanProcessor"])
p("Black-Litterman does not depend on the units of returns", "With prior means and targets multiplied by k > 0, covariance and given view variances by k^2 and the risk aversion divided by k, the posterior mean is multiplied by k and the posterior covariance by k^2; errors are unchanged.",
  "all k > 0, all symmetric covariances and views", "all scale factors", [f"{V}:BlackLittermanProcessor"])
p("Frontier portfolios are evenly spaced in expected return", "Unless the frontier consists of a single portfolio, variance_frontier and cvar_frontier step from the least-risk portfolio to the greatest attainable expected return in equal steps of expected return, whenever all least-risk portfolios have the same expected return (in particular for a positive definite covariance).",
  "all moments or scenarios, constraints with an inequality among them, numbers of portfolios and correct solvers (variance: also quadratic trading costs)", "all optimisation problems and solvers", [f"{A}:PortfolioWrapper.variance_frontier", f"{A}:PortfolioWrapper.cvar_frontier", f"{O}:_FrontierMixin._frontier"])
p("Only the distribution of the scenarios matters", "Two scenario lists with probabilities under which every joint outcome has the same probability (scenarios split, merged, reordered, or of probability zero added) give the same mean and covariance in estimate_sample_moments, the same portfolio_var and portfolio_cvar for every portfolio, demeaned or not, the same least CVaR in min_cvar_at_return (or infeasibility on both), and CVaR frontiers with the same returns and CVaRs whenever the least-CVaR portfolios agree on their return.",
  "all pairs of scenario lists of any lengths with the same distribution, portfolios, confidences, constraints, correct solvers and tie orders", "all equivalent descriptions of a distribution",
  [f"{U}functions.py:portfolio_var", f"{U}functions.py:portfolio_cvar", f"{M}:estimate_sample_moments", f"{A}:PortfolioWrapper.min_cvar_at_return", f"{A}:PortfolioWrapper.cvar_frontier"])

p("A frontier is built only from pieces that fit", "PortfolioFrontier raises ValueError unless there is one return, one risk and one value of every alternate risk measure per column of weights, and one asset name per row when names are given; otherwise it holds exactly what it was given.",
  "all weight matrices, vectors, names and alternate risks of all sizes", "all combinations of shapes", [f"{A}:PortfolioFrontier.__post_init__"])
p("Selections carry the asset labels", "Every selection from a frontier is a Series listing the picked weights in row order under the frontier's asset names (positions 0..N-1 without names), with the pick's return and risk. In an ensemble the pick enters the selection table under the same labels and the specification's name; a custom selector's Series keeps its own labels, its array is labelled like the frontier's rows (ValueError for a wrong length when there are names), alone or first in a tuple. Averaging the selections gives each asset held by all frontiers, at whatever row, the weighted sum of its picked weights.",
  "all frontiers, selectors, selector outputs, numbers of specifications and orders of assets", "all label orders and selector outputs", [f"{A}:PortfolioFrontier._to_pandas", f"{U}weights.py:wrap_exposure_vector", f"{E}:_coerce_weights_series", f"{E}:_build_selector"])
p("A frontier advertises the risk measures it accepts", "available_risk_measures lists exactly the labels accepted as risk_label; any other label raises KeyError.",
  "all frontiers and labels", "all labels", [f"{A}:PortfolioFrontier.available_risk_measures", f"{A}:PortfolioFrontier._risk_vector"])
p("Optimiser classes reject matrices of the wrong shape", "MeanVariance and RelaxedRiskParity use G w <= h and A w = b row by row when there is one column per asset and one right-hand side per row, and reject anything else, including a matrix without right-hand side; so do a covariance that does not match the mean and risk budgets of another length.",
  "all matrices, vectors and shapes", "all shapes", [f"{O}:RelaxedRiskParity._extract_user_constraints", f"{O}:RelaxedRiskParity", f"{O}:MeanVariance", f"{O}:_BaseOptimization._init_constraints"])
p("Constraint matrices may be written as lists of rows", "A constraint matrix passed to MeanVariance or RelaxedRiskParity as a nested list means the same as the array with those rows.",
  "all matrices", "all matrices", [f"{O}:_BaseOptimization._init_constraints"])

p("Only the distribution of the scenarios matters to views", "Two scenario lists with prior probabilities under which every joint outcome has the same probability (scenarios split, merged, duplicated or listed differently) give FlexibleViewsProcessor the same posterior mean and covariance and posteriors under which every joint outcome has the same probability, or raise on both; scenarios with the same outcome keep their prior odds.",
  "all pairs of scenario lists of any lengths with the same distribution, all views, both modes and exact entropy-pooling solvers", "all equivalent descriptions of a distribution", [f"{V}:FlexibleViewsProcessor", f"{V}:FlexibleViewsProcessor._compute_posterior_probabilities", f"{V}:FlexibleViewsProcessor._solve_cvar_view"])
p("Views move the model towards every distribution that satisfies them", "With mean and quantile views, the posterior of FlexibleViewsProcessor is at most as far, in relative entropy, as the prior from any distribution over the scenarios that satisfies all the views, and strictly closer unless it is the prior; with one kind only, the gain is at least the distance from prior to posterior.",
  "all scenarios, priors, mean and quantile views, target distributions, both modes and exact entropy-pooling solvers", "all distributions satisfying the views", [f"{V}:FlexibleViewsProcessor", f"{V}:entropy_pooling"])
p("Stronger views move the model further", "If every distribution satisfying the second set of mean views (or of quantile views) satisfies the first set (views added, bounds tightened), the second posterior is at least as far from the prior as the first, and equal to it when the first posterior already satisfies the second set.",
  "all scenarios, priors and pairs of view sets, both modes and exact entropy-pooling solvers", "all pairs of view sets", [f"{V}:FlexibleViewsProcessor"])
p("Views can be entered in instalments", "After a call with equality views on means, a second FlexibleViewsProcessor call that uses the first posterior as prior_probabilities and states views implying the first ones gives exactly what a single call from the original prior gives, including whether it raises; in particular repeating a call from its own posterior changes nothing.",
  "all scenarios, priors, first equality views on means, second mean and quantile views, both modes and exact entropy-pooling solvers", "histories of calls", [f"{V}:FlexibleViewsProcessor"])

p("Trading pays for itself", "When the current holdings satisfy the constraints and reach the target, min_variance_at_return with market-impact costs and min_cvar_at_return with proportional costs save at least as much variance (CVaR) as the trade costs, so the result is never riskier than the current holdings; if no allowed portfolio reaching the target has less risk than the current holdings, the result has exactly their risk, and with positive costs they are kept unchanged.",
  "all moments or scenarios, constraints, holdings, non-negative costs (passed to the call or to the constructor), targets and correct solvers", "all optimisation problems", [f"{A}:PortfolioWrapper.min_variance_at_return", f"{A}:PortfolioWrapper.min_cvar_at_return", f"{A}:PortfolioWrapper._apply_transaction_costs"])
p("Higher costs trade less", "Of two calls of min_variance_at_return (market impact) or min_cvar_at_return (proportional costs) that differ only in the level of the costs, the one with the higher level trades no more, as measured by the costs, and its result has no smaller risk.",
  "all moments or scenarios, constraints, holdings, cost vectors, pairs of levels, targets and correct solvers", "all pairs of calls", [f"{A}:PortfolioWrapper.min_variance_at_return", f"{A}:PortfolioWrapper.min_cvar_at_return"])

p("A distribution does not change after its construction", "Once AssetsDistribution has been built, its mean, covariance, scenarios, probabilities and names stay what they were, whatever the caller does to the arrays that were passed.",
  "all arguments and all histories of in-place assignments to the caller's arrays", "all histories of later assignments", [f"{A}:AssetsDistribution", f"{A}:AssetsDistribution.__post_init__"])
p("A specification does not change after it was made", "The frontier, selector and metadata of a specification made by make_portfolio_spec are those determined by the arguments at the time it was made, whatever the caller does to the dictionaries and data that were passed.",
  "all arguments and all later contents of the caller's objects", "all histories between making and running", [f"{E}:make_portfolio_spec", f"{E}:_build_distribution"])

p("The frontier answers the query for its own returns", "Asking min_variance_at_return (min_cvar_at_return) for the return of any portfolio of the frontier computed from the same inputs succeeds and reports that portfolio's risk when risk alone is minimised; with a positive definite covariance it is that portfolio.",
  "all moments or scenarios, bounded feasible constraints with an inequality among them, frontier lengths, columns and correct solvers", "all optimisation problems", [f"{A}:PortfolioWrapper.variance_frontier", f"{A}:PortfolioWrapper.min_variance_at_return", f"{A}:PortfolioWrapper.cvar_frontier", f"{A}:PortfolioWrapper.min_cvar_at_return"])
p("Deeper tails are never safer", "The CVaR of the portfolio returned by min_cvar_at_return for a smaller alpha is at least that of the one returned for a larger alpha at the same target, which is at least its expected loss; both calls succeed or both report infeasibility. The reported risk is the absolute value of the CVaR.",
  "all scenarios, bounded constraints, targets, pairs of tail probabilities and correct solvers", "all optimisation problems", [f"{A}:PortfolioWrapper.min_cvar_at_return", f"{O}:MeanCVaR"])
p("How constraints are written does not matter", "Two sets of constraints allowing the same portfolios give the same risk at every target return, or both report infeasibility; with a positive definite covariance the same portfolio and the same variance frontier.",
  "all pairs of constraint descriptions with the same allowed portfolios, all moments or scenarios, targets and correct solvers", "all descriptions of a set of portfolios", [f"{A}:PortfolioWrapper._resolve_constraints", f"{A}:PortfolioWrapper.min_variance_at_return", f"{A}:PortfolioWrapper.min_cvar_at_return", f"{A}:PortfolioWrapper.variance_frontier"])
p("Budgets can be stated in any currency unit", "When every amount in the constraints (total weight, bounds, relative and group limits, right-hand sides) and the target return are multiplied by k > 0, the constraints stay acceptable and the result's risk is multiplied by k; with a positive definite covariance so are every weight and the return.",
  "all moments or scenarios, constraints, factors, targets and correct solvers", "all optimisation problems", [f"{A}:PortfolioWrapper.min_variance_at_return", f"{A}:PortfolioWrapper.min_cvar_at_return", f"{U}constraints.py:build_G_h_A_b"])
p("Listing an asset twice adds nothing", "If some assets are listed several times (same mean, covariances and scenarios) and the constraints only look at the total held in each asset, min_variance_at_return and min_cvar_at_return report the same risk as without the copies, or both report infeasibility; the default constraints are of this kind.",
  "all moments or scenarios, numbers of copies, constraints, targets and correct solvers", "all optimisation problems", [f"{A}:PortfolioWrapper.min_variance_at_return", f"{A}:PortfolioWrapper.min_cvar_at_return"])
p("A finer frontier passes through the coarser one", "With n + 1 and m n + 1 portfolios asked for, every m-th portfolio of the longer variance frontier is the corresponding portfolio of the shorter one (positive definite covariance); for CVaR frontiers the returns and risks agree whenever the portfolios of least CVaR have one return.",
  "all moments or scenarios, bounded feasible constraints with an inequality among them, n, m and correct solvers", "all optimisation problems and lengths", [f"{A}:PortfolioWrapper.variance_frontier", f"{A}:PortfolioWrapper.cvar_frontier", f"{O}:MeanVariance.efficient_frontier"])
p("The mixed-integer allocator is never beaten by the greedy one", "On long-only targets with an exact solver and no cash penalty, discretize_weights with method milp has a tracking error at most that of method greedy; with a penalty the same holds for tracking error in currency plus penalised cash.",
  "all long-only weights, prices, amounts, lot sizes, penalties and exact solvers", "all inputs", [f"{D}:discretize_weights", f"{D}:allocate_mip", f"{D}:allocate_greedy"])
p("Large amounts are tracked arbitrarily closely", "For long-only targets and every tolerance there is an amount from which on the greedy allocation succeeds with tracking error and cash fraction below the tolerance.",
  "all long-only weights, prices, lot sizes and tolerances", "all amounts", [f"{D}:discretize_weights"])

p("Stress tests on risk drivers", "stress_invariants without stress views describes (mean, standard deviation, VaR, CVaR, ENS) the portfolio's P&L over equally likely simulations, each the repricing of a sum of horizon rows of the history drawn uniformly, the weights matched with the instruments by name. With stress views it adds a row for the same portfolio over simulations whose rows are drawn from a distribution over the history satisfying every view, with exact optimisation the closest one to uniform, repriced in the same way.",
  "all histories, repricings, weights, stress views, seeds, horizons, numbers of simulations and generators", "all inputs and draws", [f"{S}:stress_invariants"])
p("Stress views that already hold change nothing", "If the stress views hold over the equally weighted history, the stressed row of stress_invariants equals the nominal row.",
  "all histories, repricings, weights, views satisfied by the history and generators", "all inputs and draws", [f"{S}:stress_invariants"])
p("stress_invariants accepts sound input", "stress_invariants succeeds on every non-empty history with a repricing that fits its drivers, one weight per P&L column (array, or dict by name), positive horizon and number of simulations, confidence in (0, 1) and stress views that some reweighting of the history satisfies.",
  "all histories with any number of drivers, repricings, weights, views, seeds and generators", "all inputs", [f"{S}:stress_invariants"])

p("Averaging or stacking strategies blends returns and never adds risk", "Every ensemble portfolio of assemble_portfolio_ensemble is a convex blend of the strategies' portfolios (equal shares for the default average): it satisfies every constraint specification that all of them satisfy, its expected return is the blend of theirs, and its volatility and its CVaR are at most the blend of theirs, under any mean, covariance, scenarios and tail probability. Caller-supplied ensemble weights are non-negative.",
  "all lists of strategies, ensemble entries, fold counts, non-negative weights, moments, scenarios and correct solvers", "all strategies and all measures of risk at once", [f"{E}:assemble_portfolio_ensemble", f"{E}:average_exposures", f"{E}:exposure_stacking"])
p("The order of the strategies does not matter to an ensemble", "Listing the strategies in another order gives the same ensemble portfolios, ensemble weights being omitted or given by name.",
  "all lists of strategies and their reorderings, fold counts and correct solvers", "all permutations", [f"{E}:assemble_portfolio_ensemble", f"{E}:exposure_stacking", f"{E}:average_exposures"])

p("Robust portfolios do not depend on the order of the assets", "Listing the assets in another order (mean, uncertainty and constraints reordered alike) reorders the weights of the robust optimiser's penalised portfolio in the same way and leaves its return and risk unchanged.",
  "all means, uncertainty matrices, constraints, penalties, reorderings and correct solvers", "all permutations", [f"{O}:RobustOptimizer.solve_lambda_variant"])
p("Bayesian estimation commutes with forming portfolios", "Feeding the normal-inverse-Wishart prior and the sample moments of independent portfolios of the assets (other units, another order, part of the assets, genuine mixtures) gives the posterior mean, mean uncertainty and covariance of those portfolios.",
  "all priors, samples, mixing matrices of full row rank and radii", "all linear maps", [f"{B}:NIWPosterior.update", f"{B}:NIWPosterior.get_mu_ce", f"{B}:NIWPosterior.get_S_mu", f"{B}:NIWPosterior.get_sigma_ce", f"{B}:RobustBayesPosterior.from_niw"])
p("Assets without views do not influence the Black-Litterman posterior of the others", "Leaving out assets that no view names (and, when the prior comes from market weights, that have no weight) gives the remaining assets the same Black-Litterman posterior mean and covariance.",
  "all covariances, priors, views by label, confidences, uncertainty settings and sets of assets without views", "all subsets of assets", [f"{V}:BlackLittermanProcessor"])

p("Assets that no view names do not influence the posterior of the others", "Leaving out assets that no view names gives FlexibleViewsProcessor the same posterior scenario probabilities, and the remaining assets the same posterior mean and covariance, or the same error. Views are given by label and at least two assets remain.",
  "all scenario matrices, priors, views of every kind, both modes, sets of assets and entropy-pooling solvers", "all subsets of assets", [f"{V}:FlexibleViewsProcessor", f"{V}:FlexibleViewsProcessor._asset_idx"])
p("The unit in which returns are expressed does not matter to views", "Expressing each asset's returns, and the targets of the views on it, in another unit leaves the posterior probabilities of FlexibleViewsProcessor unchanged and scales the posterior mean and covariance accordingly; assets compared with each other share a unit.",
  "all scenario matrices, priors, views of every kind, both modes, units and exact entropy-pooling solvers", "all units", [f"{V}:FlexibleViewsProcessor"])
p("Estimation commutes with forming portfolios", "The sample mean and the sample and exponentially weighted covariances of portfolios of the assets are those of the assets mapped through the portfolio weights, or the same error arises; the sample, Huber and median-of-means means and the sample and exponentially weighted covariances of an asset do not depend on which other assets are in the panel.",
  "all return panels (of at least two assets when no probabilities are given), probabilities, portfolio matrices, subsets of assets and estimator settings", "all linear maps and subsets", [f"{M}:estimate_moments", f"{M}:estimate_sample_moments", f"{M}:covariance_ewma", f"{M}:robust_mean_huber", f"{M}:robust_mean_median_of_means"])

p("Finer lots never track worse", "When every lot size is a multiple of the new one, discretize_weights with method milp and the new lot sizes succeeds as well, and its tracking error in currency plus penalised cash (its tracking error, without a cash penalty) is not larger. Long-only targets, exact solver.",
  "all long-only weights, prices, amounts, pairs of lot sizes, penalties and exact solvers", "all pairs of lot sizes", [f"{D}:discretize_weights", f"{D}:allocate_mip"])
p("Excluding an asset by its bounds is the same as not listing it", "If the constraints force some assets to zero (bounds (0, 0)) and otherwise say what they say for the other assets, min_variance_at_return and min_cvar_at_return report the same risk as without these assets, or both report infeasibility; with a positive definite covariance of the others the portfolio and the variance frontier are the same, the excluded assets not being held. CVaR frontiers have the same returns and CVaRs whenever the least-CVaR portfolios agree on their return.",
  "all moments or scenarios, constraints that bound the weights, sets of excluded assets, targets and correct solvers, without transaction costs", "all optimisation problems", [f"{A}:PortfolioWrapper.min_variance_at_return", f"{A}:PortfolioWrapper.min_cvar_at_return", f"{A}:PortfolioWrapper.variance_frontier", f"{A}:PortfolioWrapper.cvar_frontier", f"{U}constraints.py:build_G_h_A_b"])

p("The currency of prices does not matter", "Quoting each asset's prices in another currency or unit gives from_prices the same distribution and pandas_to_numpy_returns the same returns (simple or logarithmic, every way of filling gaps), or the same error.",
  "all price tables with missing or infinite entries, positive exchange rates, columns and options", "all price tables and rates", [f"{A}:PortfolioWrapper.from_prices", U + "data_helpers.py:pandas_to_numpy_returns"])
p("Returns do not look ahead", "Unless gaps are filled backwards (bfill), the returns pandas_to_numpy_returns computes from the first rows of a price history are the first of those it computes from the whole history.",
  "all price histories, continuations, columns and options", "all histories and continuations", [U + "data_helpers.py:pandas_to_numpy_returns"])

p("Slower forgetting uses more of the history", "A longer half-life in generate_exp_decay_probabilities and a wider bandwidth in generate_gaussian_kernel_probabilities never lower the effective number of scenarios (entropy based or inverse Herfindahl), and the average age (squared distance from the reference point) never falls; with infinite bandwidth every scenario has the same probability.",
  "all numbers of scenarios, half-lives, reference values and bandwidths", "all pairs of settings", [f"{PR}:generate_exp_decay_probabilities", f"{PR}:generate_gaussian_kernel_probabilities", f"{PR}:compute_effective_number_scenarios", f"{PR}:compute_effective_number_scenarios_hhi"])
p("Penalising and capping estimation risk are two sides of one coin", "Giving solve_robust_gamma_portfolio the squared estimation risk of a portfolio of robust_lambda_frontier with positive penalty as cap, with a smaller penalty, succeeds and reports that portfolio's expected return and squared estimation risk; a cap that the portfolio respects leaves the penalised compromise unchanged.",
  "all moments, uncertainty matrices with a Cholesky factor, bounded feasible constraints, penalties, columns and correct solvers", "all optimisation problems", [f"{A}:PortfolioWrapper.robust_lambda_frontier", f"{A}:PortfolioWrapper.solve_robust_gamma_portfolio"])

p("Data overwhelm the prior, and a firm prior overwhelms the data", "As observations accumulate and the sample moments settle, RobustBayesPosterior.from_niw gives posterior means and covariances that tend to the sample's limits and an uncertainty of the mean that tends to zero, whatever the prior; as the prior counts grow against a fixed sample they tend to the prior's. With ever more observations cred_radius_mu tends to zero and cred_radius_sigma_factor to one.",
  "all priors and sequences of samples with positive definite covariances, and all confidence levels", "limits of infinite sequences", [f"{B}:RobustBayesPosterior.from_niw", f"{B}:NIWPosterior.update", f"{B}:RobustBayesPosterior.cred_radius_mu", f"{B}:RobustBayesPosterior.cred_radius_sigma_factor"])
p("The order in which assets are listed does not matter to the optimal portfolio", "If assets, moments or scenarios, and constraints (bounds, relative bounds, groups, extra rows) are rearranged alike, the constraints are accepted alike and allow the same portfolios; min_variance_at_return and min_cvar_at_return report the same risk, or both report infeasibility, and with a positive definite covariance the portfolio is the same one in the other order. CVaR frontiers have the same returns and CVaRs whenever the least-CVaR portfolios agree on their return.",
  "all moments or scenarios, constraints that bound the weights, permutations, targets and correct solvers, without transaction costs", "all optimisation problems and permutations", [f"{A}:PortfolioWrapper.cvar_frontier", f"{A}:PortfolioWrapper.min_variance_at_return", f"{A}:PortfolioWrapper.min_cvar_at_return", f"{U}constraints.py:build_G_h_A_b"])
p("max_cash limits the money left over", "discretize_weights with method milp and max_cash leaves at most that much money; for long-only targets it succeeds exactly if some whole-lot allocation within the amount leaves at most max_cash, and gives the best of these (tracking error in currency plus penalised cash), raising RuntimeError otherwise. A looser limit never makes the compromise worse.",
  "all weights, prices, amounts, lot sizes, penalties, limits and exact solvers", "all integer programmes", [f"{D}:discretize_weights", f"{D}:allocate_mip"])
p("Options of the allocators reach the allocator they belong to", "discretize_weights hands its keyword options to the chosen allocator with the documented defaults, refuses options the chosen allocator does not know with TypeError and unknown fallback modes with ValueError; options in fallback_kwargs reach the mixed-integer fallback, and unknown ones are refused.",
  "all weights, prices, amounts, lot sizes, methods and options", "all combinations of options", [f"{D}:discretize_weights", f"{D}:allocate_mip", f"{D}:allocate_greedy"])

p("The order in which assets are listed does not matter to relaxed risk parity", "If assets, moments, constraint rows and risk budgets are rearranged alike, RelaxedRiskParity.solve gives the same portfolio in the other order, with the same marginal risks, average risk, contribution level, objective, target and greatest return.",
  "all moments, constraints fixing the total weight, budgets, penalties, targets, permutations and correct solvers", "all optimisation problems and permutations", [f"{O}:RelaxedRiskParity"])

p("Relaxed risk parity is determined by its inputs", "Any two correct solvers and Cholesky routines give RelaxedRiskParity.solve the same result in every field, or the same error; likewise relaxed_risk_parity_portfolio and relaxed_risk_parity_frontier, portfolios and diagnostics alike.",
  "all moments, constraints, budgets, penalties, targets and pairs of correct solvers", "all solvers", [f"{O}:RelaxedRiskParity", f"{A}:PortfolioWrapper.relaxed_risk_parity_portfolio", f"{A}:PortfolioWrapper.relaxed_risk_parity_frontier"])
p("Penalised robust portfolios are determined by their inputs", "When the constraints fix a total weight other than zero, robust_lambda_frontier with positive penalties and solve_robust_gamma_portfolio with a positive penalty return the same portfolios, returns and risks, or raise the same error, whatever correct solver and Cholesky routine are used.",
  "all moments, uncertainty matrices, constraints with a non-zero total weight, costs, penalties and pairs of correct solvers", "all solvers", [f"{A}:PortfolioWrapper.robust_lambda_frontier", f"{A}:PortfolioWrapper.solve_robust_gamma_portfolio"])
p("The unit in which returns are expressed does not matter to relaxed risk parity", "Expressing returns in another unit (means and targets times k, covariances times k squared) leaves the portfolio of RelaxedRiskParity.solve unchanged and scales its marginal risks, average risk, contribution level, objective, target and greatest return.",
  "all moments, constraints, budgets, penalties, targets, units and correct solvers", "all optimisation problems and units", [f"{O}:RelaxedRiskParity.solve"])
p("Return has a price in relaxed risk parity", "Asking RelaxedRiskParity.solve for more return, or for a larger penalty, never improves the reported objective, asking for a return never does better than asking for none, and the objective is convex in the target in force.",
  "all moments, constraints, budgets, penalties, targets and correct solvers", "all optimisation problems and pairs of targets", [f"{O}:RelaxedRiskParity.solve"])

p("Selectors follow their argument", "On one frontier: a higher risk-free rate never gives tangency a safer portfolio; a looser cap never makes at_risk fail or lowers its return; a lower floor never makes at_return fail or raises its risk; a higher target never gives closest_risk a safer portfolio; a higher percentile never gives at_percentile a safer portfolio.",
  "all frontiers, risk labels, pairs of arguments and sort routines", "all frontiers and pairs of arguments", [f"{A}:PortfolioFrontier.tangency", f"{A}:PortfolioFrontier.at_risk", f"{A}:PortfolioFrontier.at_return", f"{A}:PortfolioFrontier.closest_risk", f"{A}:PortfolioFrontier.at_percentile"])
p("Firmer Black-Litterman views never increase uncertainty", "Stating further views, or the same views with more confidence or less uncertainty, never increases the Black-Litterman posterior variance of any portfolio.",
  "all priors, views, confidences, uncertainties and portfolios", "all priors and views", [f"{V}:BlackLittermanProcessor"])
p("Certain and vague Black-Litterman views", "A view given uncertainty zero is met exactly by the Black-Litterman posterior mean; as the given uncertainties of all views grow without bound the posterior mean tends to the prior mean and the covariance to (1 + tau) times the prior covariance.",
  "all priors, views and uncertainty vectors", "limits over all uncertainties", [f"{V}:BlackLittermanProcessor"])

p("The level of expected returns does not matter when the total weight is fixed", "When the constraints fix the total weight, adding a constant to all expected returns (to all scenario outcomes for CVaR) and the corresponding amount to return targets leaves the portfolios of min_variance_at_return, variance_frontier, robust_lambda_frontier and solve_robust_gamma_portfolio unchanged and lowers the CVaR of min_cvar_at_return by that amount.",
  "all moments and scenarios, constraints fixing the total weight, costs, targets, shifts and correct solvers", "all optimisation problems and shifts", [f"{A}:PortfolioWrapper.variance_frontier", f"{A}:PortfolioWrapper.min_variance_at_return", f"{A}:PortfolioWrapper.min_cvar_at_return", f"{A}:PortfolioWrapper.robust_lambda_frontier"])
p("The minimum-variance portfolio does not depend on expected returns", "min_risk on a variance frontier returns the same portfolio and volatility whatever the expected returns and the number of portfolios asked for; it is the allowed portfolio of least variance.",
  "all positive definite covariances, pairs of mean vectors, feasible constraints that bound the weights, frontier sizes and correct solvers", "all optimisation problems", [f"{A}:PortfolioWrapper.variance_frontier", f"{A}:PortfolioFrontier.min_risk"])

p("Only relative risk budgets matter to relaxed risk parity", "Multiplying every risk budget given to relaxed_risk_parity_portfolio or relaxed_risk_parity_frontier by the same positive number leaves the returned portfolios and diagnostics unchanged, and giving equal budgets is the same as giving none.",
  "all risk budget vectors, positive factors, moments, constraints, targets, multipliers and solvers", "all budgets and factors", [f"{O}:RelaxedRiskParity", f"{A}:PortfolioWrapper.relaxed_risk_parity_portfolio", f"{A}:PortfolioWrapper.relaxed_risk_parity_frontier"])
p("Labelled moments keep their containers and pair by label", "log2simple, simple2log, project_mean_covariance and the matrices of a robust posterior return the mean in the container of the mean and the covariance in the container of the covariance (arrays for arrays, the same labels for pandas objects), compute the same numbers for arrays and pandas objects, and combine an asset's mean with that asset's own variance.",
  "all mean vectors and covariance matrices, as arrays or labelled pandas objects, horizons and scale factors", "all moments and labellings", [f"{U}projection.py:log2simple", f"{U}projection.py:simple2log", f"{U}projection.py:project_mean_covariance", f"{B}:RobustBayesPosterior"])

p("Assets without weight do not matter to the allocation", "The outcome of discretize_weights depends only on the assets whose weight exceeds 1e-8 in absolute value, their order, prices and lot sizes; further assets with negligible weight, and their prices and lot sizes, change nothing as long as they have a price.",
  "all pairs of inputs agreeing on the assets with weight, methods, options, sorts and solvers", "all inputs", [f"{D}:discretize_weights", f"{D}:DiscreteAllocationInput"])
p("How a state variable is measured does not matter", "Measuring the conditioning variable in another unit, from another zero point or with the opposite sign - observations, scenarios, bandwidth and target alike - leaves the probabilities of generate_gaussian_kernel_probabilities and the report of kernel_focus_stress unchanged, defaults included, or gives the same error; reordering the scenarios reorders the probabilities.",
  "all observations, scenarios, bandwidths, targets, units and permutations", "all series and units", [f"{PR}:generate_gaussian_kernel_probabilities", f"{PR}:silverman_bandwidth", f"{S}:kernel_focus_stress"])
p("Higher credibility is more conservative", "A higher credibility level never lowers cred_radius_mu or cred_radius_sigma_factor of a NIWPosterior or RobustBayesPosterior, so the worst-case mean of a portfolio never rises; more observations with the same prior counts never enlarge cred_radius_mu.",
  "all updated posteriors, pairs of levels, numbers of observations and non-decreasing non-negative quantile functions", "all posteriors and levels", [f"{B}:NIWPosterior.cred_radius_mu", f"{B}:NIWPosterior.cred_radius_sigma_factor", f"{B}:RobustBayesPosterior.cred_radius_mu", f"{B}:RobustBayesPosterior.cred_radius_sigma_factor"])
p("A finer frontier never selects worse", "On a variance frontier with m n + 1 instead of n + 1 portfolios (positive definite covariance), tangency attains at least the Sharpe ratio, at_risk at least the return, at_return at most the risk, min_risk at most the risk and max_return at least the return, and each succeeds whenever it did; likewise on CVaR frontiers whenever the portfolios of least CVaR have one return.",
  "all moments or scenarios, feasible constraints that bound the weights, n, m, selector arguments and correct solvers", "all optimisation problems and selector arguments", [f"{A}:PortfolioWrapper.variance_frontier", f"{A}:PortfolioWrapper.cvar_frontier", f"{A}:PortfolioFrontier.tangency", f"{A}:PortfolioFrontier.at_risk", f"{A}:PortfolioFrontier.at_return"])

p("The Huber mean minimises the Huber loss", "robust_mean_huber returns for each asset a location that is at least as good as the median in Huber's loss at the adaptive threshold (1.4826 MAD + 1e-12) sqrt(T / max(log max(T, 3), 2)), and whose loss exceeds that of any other location by at most the larger of 2 T range^2 / max_iter and T tol (1 + largest absolute bound) range; estimate_moments with the key huber reports it.",
  "all panels with at least one row, assets, tolerances, iteration limits and competing locations", "all panels and locations", [f"{M}:robust_mean_huber", f"{M}:estimate_moments"])

p("Outliers cannot carry the robust means away", "If more than half of an asset's T observations (c of them) lie in an interval [lo, hi] of length D, robust_mean_huber returns for it a value within c (2 D + (1.4826 D + 1e-12) sqrt(T / max(log max(T, 3), 2)) / 2) / (2 c - T) of that interval, however large the other observations are; if fewer observations lie outside the interval than half the number of blocks, robust_mean_median_of_means returns a value in the interval itself.",
  "all panels, assets, intervals, values of the outlying observations, non-negative tolerances, positive iteration limits, valid block counts and shuffles", "all panels and all sizes of the outliers", [f"{M}:robust_mean_huber", f"{M}:robust_mean_median_of_means"])

p("Weights need not be bounded", "With simple returns and a positive definite covariance, min_variance_at_return answers even when the constraints leave the weights unbounded: whenever some portfolio satisfying the constraints in force reaches the target, it returns the unique one of least variance plus impact cost among those, with that portfolio's own return and volatility; when none does, it raises InfeasibleOptimizationError.",
  "all wrappers, positive definite covariances, constraint specifications, trading costs and targets", "all wrappers, constraints and targets", [f"{A}:PortfolioWrapper.min_variance_at_return"])

p("Two-fund separation", "When the constraints are equations only (no long-only rule, bounds, groups or inequalities), there are no trading costs and the covariance is positive definite, any mixture of two portfolios returned by min_variance_at_return is exactly the portfolio the method returns for the same mixture of their returns.",
  "all wrappers, positive definite covariances, equality constraints, pairs of targets and mixing proportions in [0, 1]", "all wrappers and pairs of targets", [f"{A}:PortfolioWrapper.min_variance_at_return"])

p("Optimality certificate of minimum-variance portfolios", "With simple returns and a positive definite covariance, a portfolio is the one min_variance_at_return returns if and only if it satisfies the constraints in force, reaches the target, and no admissible portfolio reaching the target can be approached at a negative marginal cost (covariance with the portfolio plus marginal impact); in particular, without costs, every admissible portfolio reaching the target has with the returned one a covariance of at least the returned variance.",
  "all wrappers, positive definite covariances, constraints, impact costs, targets and candidate portfolios", "all competitors of all problems", [f"{A}:PortfolioWrapper.min_variance_at_return", f"{O}:MeanVariance"])

p("Mixing scenario weightings never hides risk", "For two probability vectors and their mixture with weight theta: the portfolio CVaR under the mixture is at least the mixture of the CVaRs (with or without demeaning); estimate_sample_moments gives the mixed mean, and a covariance equal to the mixed covariances plus theta (1 - theta) times the outer product of the mean difference; the entropy effective number of scenarios is at least the weighted geometric mean of the two, the inverse-Herfindahl number at least the smaller.",
  "all scenario sets, portfolios, pairs of probability vectors, mixing weights in [0, 1] and confidence levels in (0, 1)", "all weightings and portfolios", [f"{U}functions.py:portfolio_cvar", f"{M}:estimate_sample_moments", f"{PR}:compute_effective_number_scenarios", f"{PR}:compute_effective_number_scenarios_hhi"])

p("The tracking error bounds what rounding does to the portfolio", "For every successful discrete allocation, tracking_error is the sum over the assets of the absolute differences between the normalised target weights and achieved_weights; replacing the target by the achieved weights changes the expected return by at most the largest absolute mean times tracking_error, the volatility by at most the largest asset volatility times it, and the portfolio CVaR by at most the largest absolute scenario return times it.",
  "all weights, prices, totals, lot sizes, methods and fallback modes with a successful call; all means, covariances, scenario sets and confidence levels", "all inputs and all risk models", [f"{D}:discretize_weights", f"{D}:DiscreteAllocationResult", f"{U}functions.py:portfolio_cvar"])

p("CVaR, VaR and volatility agree with each other", "For scenarios with sample mean mu and covariance S, portfolio_var is at most portfolio_cvar, which lies between the expected loss and the expected loss plus the volatility times sqrt(confidence / (1 - confidence)); across methods, for a wrapper holding the moments of its scenarios, the CVaR of the min_cvar_at_return portfolio is at most that of the min_variance_at_return portfolio for the same target, which is at most minus its return plus its risk times sqrt((1 - alpha) / alpha), and the volatility of the latter is at most that of the former.",
  "all scenario sets, probability vectors, portfolios, confidence levels in (0, 1), constraints that bound the weights and attainable targets", "all scenario sets and targets", [f"{U}functions.py:portfolio_cvar", f"{U}functions.py:portfolio_var", f"{A}:PortfolioWrapper.min_cvar_at_return", f"{A}:PortfolioWrapper.min_variance_at_return"])

p("What the Tyler iteration computes", "A successful robust_covariance_tyler call on data with positive total variance returns the end of a run of Tyler steps: it starts from the sample covariance, each step weights the deviations from the column means by N over the squared distance under the previous scatter (distance kept above 1e-6, weight below 1e6), rescales to trace N and mixes in the rescaled target; the run stops at the first step whose relative change is within tol, or after exactly max_iter steps. Every portfolio keeps at least the shrinkage share of its variance under the target, the default target with positive shrinkage gives a positive definite matrix, and shrinkage one returns the scaled target.",
  "all data sets, shrinkages, tolerances, targets, iteration limits and pseudo-inverse routines", "all data and all iteration histories", [f"{M}:robust_covariance_tyler"])

p("Projected log moments compound", "Log-return moments projected over h periods and converted to simple returns compound the one-period ones: expected gross returns and expected products of gross returns are the h-th powers of the one-period values, for a whole number of periods this gives the mean and covariance of the compounded return, projections over successive horizons multiply, and from_moments with return_type='log' on the projected moments stores exactly these.",
  "all means, covariances, horizons and numbers of periods", "all real moments and horizons", [f"{U}projection.py:log2simple", f"{U}projection.py:project_mean_covariance", f"{A}:PortfolioWrapper.from_moments"])

p("Black-Litterman views in instalments", "Giving independent views in two calls, the second starting from the posterior of the first, is the same as giving them all in one call.",
  "all positive definite priors, view lists, diagonal uncertainties and positive tau", "all splits of all view lists", [f"{V}:BlackLittermanProcessor"])

p("Validated allocator inputs can be reused", "Building a DiscreteAllocationInput again from the stored weights, prices and lot sizes of a validated one gives the same input, and allocating from it the same result.",
  "all accepted inputs", "all weight vectors", [f"{D}:DiscreteAllocationInput", f"{D}:discretize_weights"])

p("All frontiers end at the same expected return", "The largest attainable expected return does not depend on how risk is measured: the variance frontier and the CVaR frontier of one wrapper both end at it, and the robust frontier contains a portfolio earning it whenever its penalty grid contains zero.",
  "all wrappers with scenarios, all constraint sets with bounded weights, all grids and confidence levels", "all distributions and constraints", [f"{A}:PortfolioWrapper.variance_frontier", f"{A}:PortfolioWrapper.cvar_frontier", f"{A}:PortfolioWrapper.robust_lambda_frontier"])

p("The PSD guard is idempotent and changes as little as needed", "ensure_psd_matrix never lowers a portfolio's variance, raises every variance by one common multiple of the sum of squared weights, exceeding the least sufficient amount by at most the jitter; only the symmetric part of its input matters and applying it to its own result changes nothing.",
  "all square matrices and non-negative jitters", "all matrices and directions", [U+"validation.py:ensure_psd_matrix"])

p("Indistinguishable assets are treated alike", "If a rearrangement of the assets changes neither the moments nor what the constraints allow, the minimum-variance portfolio for any target is unchanged by it; N interchangeable assets under the default constraints get 1/N each.",
  "all rearrangements, positive definite covariances, constraints and targets", "all symmetries of all inputs", [f"{A}:PortfolioWrapper.min_variance_at_return"])

p("Robust weights follow expected returns", "Of two robust problems (penalised frontier or capped) that differ only in the expected returns, portfolios with the same penalty follow them: raising the expected return of one asset never lowers its weight. (For return targets this is false.)",
  "all pairs of wrappers that differ in expected returns, all constraints, penalties and caps", "all pairs of inputs", [f"{A}:PortfolioWrapper.robust_lambda_frontier", f"{A}:PortfolioWrapper.solve_robust_gamma_portfolio"])

p("A riskier asset is held no more", "Of two min_variance_at_return calls that differ only in the covariance, the variance added to the first portfolio is at least the variance added to the second; in particular if only the variance of one asset rises, the absolute weight of that asset does not.",
  "all pairs of covariances, all constraints, trading costs and targets", "all pairs of inputs", [f"{A}:PortfolioWrapper.min_variance_at_return"])

p("Risk numbers are stable", "If the P&L of two portfolios (or of one portfolio under two sets of scenarios) differ by at most e in every scenario, their VaRs and CVaRs differ by at most e (2e when the mean is taken out). Moving a share d of the probability moves the CVaR by at most the range of the P&L times d / (1 - confidence); no such bound holds for VaR.",
  "all weights, scenarios, probabilities and confidence levels", "all pairs of inputs", [f"{U}functions.py:portfolio_var", f"{U}functions.py:portfolio_cvar"])

p("Small errors in the moments do small damage", "If every covariance used is within e of the true one and gross exposure is at most G, the portfolio min_variance_at_return chooses has a true variance at most 2eG^2 above the best attainable and the variance reported is within eG^2 of the true one; likewise penalised robust portfolios lose at most 2eG when every expected return is within e.",
  "all pairs of moments, constraints, costs, targets and penalties", "all pairs of inputs", [f"{A}:PortfolioWrapper.min_variance_at_return", f"{A}:PortfolioWrapper.robust_lambda_frontier"])

p("Small errors in the scenarios do small damage", "If every scenario return used is within e of the true one and gross exposure is at most G, the minimum-CVaR portfolio has a true CVaR at most 2eG above the best attainable.",
  "all pairs of scenario sets, probabilities, constraints and tail levels", "all pairs of inputs", [f"{A}:PortfolioWrapper.min_cvar_at_return"])

p("CVaR is the worst expected loss over limited reweightings", "The CVaR at a confidence level is the largest expected loss over all reweightings of the scenarios that make none more than 1 / (1 - confidence) times as likely, and one of them attains it; hence no stress test that stays within this limit reports an expected loss above the nominal CVaR.",
  "all weights, scenarios, probabilities, confidence levels and reweightings", "all reweightings", [f"{U}functions.py:portfolio_cvar", f"{S}:stress_test"])

p("The reported KL divergence bounds what a stress can do", "For any nominal and stressed probabilities, the KL divergence reported by stress_test bounds the probability that was moved (Pinsker, up to the clipping at 1e-16), and through it the change of the mean and of the CVaR of every portfolio by a multiple of the range of its P&L.",
  "all portfolios, scenarios, nominal and stressed probabilities", "all pairs of weightings", [f"{S}:stress_test", f"{S}:_kl_divergence"])

p("Least-CVaR portfolios guard against reweighted scenarios", "min_cvar_at_return and every point of the CVaR frontier return the portfolio whose largest expected loss, over every reweighting of the scenarios that multiplies no probability by more than 1 / (1 - confidence), is least among all portfolios meeting the same constraints and target.",
  "all scenarios, probabilities, constraints, targets and tail levels", "all inputs and every competing portfolio", [f"{A}:PortfolioWrapper.min_cvar_at_return", f"{A}:PortfolioWrapper.cvar_frontier"])

p("Robust portfolios have the best worst case", "A penalised robust portfolio is the one with the best expected return in the worst case over the ellipsoid that the uncertainty covariance and the radius lambda describe: mu - y with y' S^-1 y at most lambda^2.",
  "all means, uncertainty covariances, constraints and radii", "all inputs and every point of the ellipsoid", [f"{A}:PortfolioWrapper.robust_lambda_frontier", f"{O}:RobustOptimizer"])

p("Longer horizons draw down more", "On the same draws, a longer horizon never lowers the mean, the median, the level quantile or the worst of the simulated drawdowns, for every portfolio and scenario set; on the same paths a higher confidence never lowers the level and leaves the other statistics unchanged.",
  "all portfolios, scenarios, probabilities, repricing functions, horizons and draws", "all inputs", [f"{U}projection.py:simulate_paths", f"{U}performance.py:drawdown_quantile"])

p("Dominated assets do not lower the least CVaR", "If every asset of a larger universe is matched or beaten, scenario by scenario, by one of the listed assets, min_cvar_at_return reports the same risk with and without the assets not listed, at every target, under long-only, fully invested constraints (and all constraints that stay met when weight moves to the better asset).",
  "all scenarios, probabilities, targets, tail levels and constraints of that kind", "all pairs of universes", [f"{A}:PortfolioWrapper.min_cvar_at_return"])

p("The cash penalty trades cash against tracking", "A heavier cash_penalty in the mixed-integer allocator never leaves more cash and (for non-negative penalties) never tracks the target better; whether an allocation is found does not depend on the penalty.",
  "all weights, prices, amounts, lots and cash limits, and all pairs of penalties", "all pairs of calls", [f"{D}:allocate_mip", f"{D}:discretize_weights"])

p("The effective number of scenarios behaves like a count", "Merging scenarios never raises either effective number and splitting never lowers it; for independent scenario sets the numbers multiply; a blend of two weightings has at least the number of the more concentrated one.",
  "all probability vectors, mergers, pairs and blends", "all inputs", [f"{PR}:compute_effective_number_scenarios", f"{PR}:compute_effective_number_scenarios_hhi"])

p("Estimates can be updated as observations arrive", "The sample moments of two pooled samples follow from the moments of each; under exponential weighting one more observation moves the mean by its weight towards the observation and the covariance by the square of the surprise; covariance_ewma of a longer history is the old matrix blended with the square of the new observation.",
  "all samples, weights, half-lives, spans and new observations", "all histories", [f"{M}:estimate_sample_moments", f"{M}:covariance_ewma", f"{PR}:generate_exp_decay_probabilities"])

p("Without views Black–Litterman gives back the market portfolio", "With no views and no explicit prior mean, market weights w, risk aversion δ and covariance Σ give the posterior mean δΣm and covariance Σ, where m is w divided by its sum; m is the only portfolio with the largest expected return less δ/2 times variance at those moments, and, handed to PortfolioWrapper with any bounded constraints that allow m, min_variance_at_return at the market's expected return is m itself.",
  "all positive definite covariances, market weights with a non-zero sum, risk aversions, and bounded constraints that allow the market portfolio", "all calls without views", [f"{V}:BlackLittermanProcessor", f"{A}:PortfolioWrapper.min_variance_at_return"])

p("Views tilt the market portfolio along the views' own portfolios", "With a market-implied prior and any views, the portfolio with the largest expected return less δ/2 times variance at the posterior moments is 1/(1+τ) times the sum of the market portfolio and one multiple of each view's portfolio (the asset, or the pair long-short): an asset no view refers to keeps its market weight up to that factor, whatever its correlations.",
  "all positive definite covariances, market weights, views, confidences, view covariances and τ", "all calls with views that succeed", [f"{V}:BlackLittermanProcessor"])

p("Rebalancing again from the last answer", "Calling min_variance_at_return again and again with the same target, constraints and impact costs, each time from the last answer's weights, always succeeds, never raises the volatility, and the variance left plus all impact paid after the first call is at most the variance after the first; with min_cvar_at_return and proportional costs the CVaR left plus all costs paid after the first call is exactly the CVaR after the first, and no allowed portfolio reaching the target is worth moving to.",
  "all distributions, bounded constraints, targets, non-negative costs, starting weights and numbers of rebalancings", "all sequences of calls", [f"{A}:PortfolioWrapper.min_variance_at_return", f"{A}:PortfolioWrapper.min_cvar_at_return"])

p("is_updated tells what the posterior object will answer", "NIWPosterior.is_updated is true after a history of calls exactly if some update in it was valid for the freshly constructed object, and then stays true; while it is false every getter raises RuntimeError, once it is true no getter does and further updates do. chi2_quantile(sqrt=True) is the non-negative root of the plain quantile and fails exactly when that does.",
  "all constructions and all histories of updates, getters and writes to returned arrays", "all call histories", [f"{B}:NIWPosterior.is_updated", f"{B}:chi2_quantile"])

p("Scaling the size of the portfolio", "With the target, total weight, every bound, limit and right-hand side and the current holdings multiplied by k > 0, min_variance_at_return (positive definite covariance, with or without impact costs) returns k times the weights, return and volatility, and min_cvar_at_return an optimum CVaR plus proportional cost k times as large; each scaled call raises InfeasibleOptimizationError exactly if the unscaled one does.",
  "all distributions, constraints of every kind, sizes k > 0, targets, costs and holdings", "all problems and sizes", [f"{A}:PortfolioWrapper.min_variance_at_return", f"{A}:PortfolioWrapper.min_cvar_at_return", f"{U}constraints.py:build_G_h_A_b"])

p("Which exception a rejected constraint specification raises", "A specification rejected by build_G_h_A_b raises ValueError only if a number, pair or shape in it is wrong (non-finite, crossed, an asset compared with itself, wrong width, no assets) and IndexError only if a bounds mapping, relative limit or group names an asset that does not exist; no other exception is raised, and with only one of the two kinds of defect the exception is determined.",
  "all constraint specifications and numbers of assets", "an iff over all inputs", [f"{U}constraints.py:build_G_h_A_b", f"{U}constraints.py:_check_number"])

p("Unlimited tail-risk reduction is reported as infeasible", "On scenarios, min_cvar_at_return answers exactly when some portfolio satisfying the constraints in force reaches the target and CVaR plus proportional cost is bounded below over those that do, in particular whenever allowed portfolios cannot earn more than some level; its answer then minimises. When risk can be lowered without limit (the constraints admit ever larger trades that gain in every scenario) it raises InfeasibleOptimizationError although the target is within reach.",
  "all scenario wrappers, constraint specifications, trading costs, targets and tail levels", "an iff over all inputs", [f"{A}:PortfolioWrapper.min_cvar_at_return", f"{O}:MeanCVaR"])

p("Lending and borrowing scale one mix of risky assets", "With simple returns, a riskless asset that the constraints let be held long or short freely, and no riskless combination of the others, every portfolio min_variance_at_return gives above the riskless rate earns exactly its target; the portfolio for any other target from the riskless rate upwards is answered too, with risky weights and reported volatility proportional to the target's excess over the riskless rate. At or below that rate everything is held in the riskless asset. Every target is answered as soon as one allowed portfolio earns more than the riskless rate.",
  "all wrappers with such an asset, all constraint specifications leaving it free, all pairs of targets", "all inputs and targets", [f"{A}:PortfolioWrapper.min_variance_at_return", f"{O}:MeanVariance"])

p("Which exception a rejected input raises", "ValueError is the only exception raised by the discrete-allocation input, weight normalisation and averaging, the probability helpers, scenario probabilities and square matrices of a distribution, the optimiser key of an ensemble, the wrapper's trading costs, the frontier container, portfolio_var, the sample-moment, Ledoit-Wolf and POET-threshold arguments, simple2log and RobustBayesPosterior.sigma1. NIWPosterior and its update raise ValueError exactly for wrong shapes and ranges, RuntimeError for a second update or a matrix that cannot be factorised, and ZeroDivisionError only for a confidence truncated to zero. A view value raises TypeError exactly when it is no number, and a frontier column out of range is an IndexError.",
  "all inputs of these calls", "an iff over all inputs", [f"{D}:DiscreteAllocationInput", f"{PR}:resolve_probabilities", f"{B}:NIWPosterior.update", f"{V}:FlexibleViewsProcessor", f"{M}:shrink_covariance_ledoit_wolf"])

p("variance_frontier needs bounded returns, not bounded weights", "Provided the constraints in force contain an inequality, variance_frontier answers exactly when some portfolio satisfies them and the expected returns of those that do are bounded above, for every covariance matrix; it then delivers the efficient frontier together with the returns and volatilities of its columns. In every other case it raises RuntimeError.",
  "all wrappers with simple returns, constraint specifications with a limit, trading costs and numbers of portfolios", "an iff over all inputs", [f"{A}:PortfolioWrapper.variance_frontier", f"{O}:MeanVariance"])
p("cvar_frontier needs bounded returns, not bounded weights", "On scenarios, cvar_frontier answers exactly when some portfolio satisfies the constraints in force and the scenario mean returns of those that do are bounded above, however large their weights and tail losses; its columns are then an efficient frontier of CVaR plus proportional cost, ordered by reported return.",
  "all scenario wrappers, constraint specifications, trading costs, tail levels and numbers of portfolios", "an iff over all inputs", [f"{A}:PortfolioWrapper.cvar_frontier", f"{O}:MeanCVaR"])

p("Exceptions of the remaining entry points", "Beyond C295: portfolio_var and portfolio_cvar on several portfolios raise ZeroDivisionError exactly for a valid level, no scenarios and no probabilities, and otherwise only ValueError; as_discrete_allocation raises IndexError for every column outside the frontier; compose_repricers raises KeyError or TypeError according to the first bad instrument; a view that is neither number, pair nor interval is a TypeError and every other bad view a ValueError; relaxed risk parity raises ValueError exactly for a negative regulator and RuntimeError for every solver failure; the graphical lasso raises LinAlgError exactly for a singular start; trading costs of a wrong length are a TypeError only with a single asset; a missing frontier in a plot is a TypeError; stress_test, linear_map, average_frontiers' label step, the date column of price tables, square matrix arguments, stored scenarios and maximum drawdown only ever raise ValueError.",
  "all inputs rejected by these calls", "the exception class is part of the contract and depends on which of several tests fails first", [f"{S}:stress_test", f"{S}:linear_map", f"{U}projection.py:compose_repricers", f"{A}:PortfolioFrontier.as_discrete_allocation", f"{O}:RelaxedRiskParity"])

p("Exceptions of entropy pooling, simulated priors and stressed dictionaries", "entropy_pooling raises ValueError exactly when the method is unknown or the prior is not a non-empty list of finite strictly positive numbers, with or without inequality views; on every other input nothing but RuntimeError, never when the optimiser never reports failure and always when it always does. A prior simulated from moments raises only ValueError, and RuntimeError only when the moments are complete, of matching sizes, with a positive number of scenarios. stress_invariants with views raises TypeError on weights given as a dictionary wherever it reports on the same weights given as a vector.",
  "all priors, rows, methods and optimisers; all moments, generators' draws and factorisations; all histories, views, seeds and repricing rules", "the class of the exception depends on which guard fires first, for every optimiser and every input", [f"{V}:entropy_pooling", f"{V}:FlexibleViewsProcessor", f"{S}:stress_invariants"])

out = os.path.join(os.path.dirname(os.path.abspath(__file__)), "..", "properties.jsonl")
with open(out, "w") as f:
    for x in P: f.write(json.dumps(x, ensure_ascii=False) + "\n")
print(len(P))
