# Formal model of Py-vAllocation in Lean 4 — design

## 1. Trusted base

* Lean 4.33.0's kernel, and Mathlib's definitions (real numbers, finite sums, matrices, `Real.exp/log/sqrt`).
* Axioms: at most `propext`, `Classical.choice`, `Quot.sound` (see §6 for the per-theorem listing).
  No axioms of our own; no `native_decide`, no `bv_decide`.
* The reading of the Python source: every model definition cites the file and lines it models.
* Conventions of the reading (these are assumptions, not theorems):
  * **Numbers.** Finite floats are exact: an ordered field `K` (with floor where needed; ℚ and ℝ are instances) where the code only uses field operations, comparisons and
    `floor` (executable, examples are kernel-evaluated), `ℝ` where it uses `sqrt/exp/log` or linear algebra.
    Rounding, overflow and underflow are not modelled. Where NaN/±inf change a decision of the code
    (validation functions) an extended type `PyFloat` with IEEE comparison rules is used instead.
  * **Containers.** pandas/NumPy vectors of length `n` are `Fin n → _` or `List _`; labelled series are
    association lists or label functions; label alignment is modelled explicitly where a property is about it.
  * **Exceptions** are values: `Except PyErr _`.
  * **External numerics** (cvxopt QP/LP/SOCP, `scipy.optimize.milp/minimize`, eigen/Cholesky routines, random
    generators, sort order of ties) are parameters ("oracles"). Each theorem states the oracle behaviour it needs
    as an explicit hypothesis; nothing else is assumed of them.

## 2. Layout

    lean/Verif/Model/*.lean   the model, one file per Python module (definitions + citations only)
    lean/Verif/Spec/*.lean    small independent specifications used in theorem statements
    lean/Verif/Lemmas/*.lean  helper lemmas
    lean/Verif/Props/*.lean   the property theorems, each followed by a non-vacuity `example`

## 3. Plan per property

(✗ = we expect the code to violate the property as a user would state it; then the negation is proved with a
concrete witness and the part that does hold is proved as `…_partial`.)

| id | model | proof |
|----|-------|-------|
| C01–C06 | `allocate_greedy` as floor pass + fuelled loop of `step` over `Fin n → ℤ` shares, cash, iteration, unaffordable set; tie order = arbitrary permutation | loop invariant (cash = total − Σ cost ≥ −tol, lots ≥ 0, value within one lot of target); termination measure (purchases left, assets not yet unaffordable) |
| C07, C100 | `DiscreteAllocationInput.__post_init__` over association lists | case analysis to an iff; sum of normalised list |
| C08–C09 ✗C09 | the MILP (bounds, equality, two inequality blocks, objective) as a predicate; solver = oracle returning an optimal feasible point | exhibit the feasible point of each competitor; witness for leverage |
| C10–C11 | `build_G_h_A_b` with all seven constraint kinds, rows as lists | row-by-row induction to the literal semantics; iff on errors |
| C12–C15 | `portfolio_cvar/var`: sort, cumulate, boundary index, boundary correction | exchange argument against RU objective; convexity from the minimum form |
| C16–C19 | `probabilities.py` | algebra, geometric series, Jensen / Gibbs |
| C20–C22 | `entropy_pooling`, dual objective over ℝ | Gibbs inequality, KKT from one-sided derivatives of the dual |
| C23–C24, C28 | `_build_constraints`, `_parse_view_specs` | iff by induction on views; moment identities |
| C25 ✗, C26, C27 ✗ | `_compute_posterior_probabilities` with EP as oracle; heap cell for the caller's dict | witness with three scenarios |
| C29–C30 | `_solve_cvar_view`, view helpers over `PyFloat` | induction on Newton rounds; iff |
| C31–C34 ✗C34 | `BlackLittermanProcessor` over `Matrix` | push-through / Woodbury identities, Schur complement |
| C35–C45 | `moments.py`, `ensure_psd_matrix` | matrix algebra, PSD by sums of squares, induction over loop iterates |
| C46–C51 ✗C50,C51 | `ensembles.py`, `utils/weights.py` | convexity, partition by index arithmetic, state machine for options and selectors |
| C52–C56 ✗C56 | `portfolioapi.py` selection, percentiles, CVaR envelope, `_resolve_constraints` | argmin/argmax specs, hull induction |
| C57–C62 | `projection.py`, `performance.py`, `stress.py` | real analysis, permutation arguments |
| C63–C65 | `bayesian.py` | PSD sums, state machine, bounded retry |
| C66–C70 ✗C67,C68 | problem assembly in `optimization.py` as predicates over decision vectors | partial minimisation; witnesses |
| C71 ✗, C114 | CVaR frontier assembled by `cvar_frontier` (absolute value, running maximum, envelope, ordering) with an optimal solver | invariants of the envelope loop; witnesses with negative CVaR and with an explicit mean |
| C72 ✗, C73 ✗, C118–C121 | `make_portfolio_spec`, `_build_distribution`, `_apply_projection`, `make_ensemble_spec`, `assemble_portfolio_ensemble` as functions of oracles for the frontier factories | case analysis of the option dictionary; composition with the distribution and frontier theorems |
| C74, C99 ✗, C101–C104 | `AssetsDistribution.__post_init__`, `from_scenarios`, `from_prices`, `from_returns`, `from_moments`, `from_robust_posterior` over grids of `PyFloat` | iff on acceptance; round trips `log2simple`/`simple2log` |
| C75–C83, C115, C116, C124 ✗C77,C81,C83 | `project_scenarios`, `simulate_paths`, `compose_repricers`, `horizon_report`, `stress_*`, `linear_map`, `drawdown_quantile` with the generator as oracle | resampling as pointwise law; permutation and label arguments |
| C84–C87, C88 ✗, C89 ✗, C129 | `NIWPosterior`, `RobustBayesPosterior` as state machine with heap cell for the aliased mean | induction over call histories; conjugacy algebra |
| C90–C98 ✗C94,C95,C97,C98 | the QP/LP/SOCP of every optimiser as predicates, CVXOPT as oracle with `Sound`/`Complete` on convex programmes; ridge fallback and Cholesky as in the source | partial minimisation, compactness (existence of optima), separation by explicit competitors |
| C105–C113, C117 (✗: see MANIFEST) | `PortfolioWrapper` methods: constraint and cost resolution, unit conversions, post-processing, error mapping | composition of the optimiser theorems with C10/C56; witnesses for the log-return gaps |
| C122, C123 ✗, C136–C138 | `_collect_samples`, `pd.concat` outer join with NaN arithmetic, `average_frontiers`, `exposure_stack_frontiers`, `risk_percentile_selections` | induction over entries; linear functionals of convex combinations |
| C125–C128 ✗C125,C126,C128 | `estimate_moments` dispatch, graphical lasso ADMM with `eigh` as oracle, k-fold selection, label wrapping | induction over iterations, KKT; witnesses |
| C130–C132 ✗C130,C132 | Black–Litterman constructor arguments, in-place normalisation as a heap effect | case analysis, matrix algebra; witnesses |
| C133–C135 ✗C134 | `pandas_to_numpy_returns`, `numpy_weights_to_pandas_series` over `PyFloat` tables | list induction, telescoping products; witnesses |
| C139 | `Constraints.from_dict` as a fold over items | one lemma per field, permutation invariance |
| C140–C141 | `to_frame`, `as_discrete_allocation` | list indexing; composition with C02/C05 |
| C142 | `factor_covariance_poet(return_decomp=True)`: loadings and scores, `eigh` and `argsort` oracles | spectral decomposition; residual quadratic form as a sum over dropped eigenvectors |
| C143–C147 ✗C144 | constructor of `FlexibleViewsProcessor` with moments (draws, custom generator and Cholesky as oracles), vector views, accessors, composition with `from_scenarios`/`from_moments` and the frontiers | affine images of sample moments; composition of C25, C74, C103, C105, C106, C114; witness |
| C148–C149 ✗ | storage type of `simulate_paths` (`np.empty_like`), weights of `drawdown_quantile` | integer cumulative sums; witnesses over ℝ and ℚ |
| C150–C151 | `_normalise_ensemble_argument` over character lists, `EnsembleResult`, `spec_metadata` | strip/lower characterised by a spelling relation; dictionary lemmas |
| C152–C155 ✗C155 | the whole `estimate_moments` dispatch, compared on a permuted, shuffled, shifted or rescaled table | equivariance lemma for every estimator (uniqueness of the spectral functional calculus for the eigen-solvers), composition; witness for constant-correlation Ledoit–Wolf |
| C156–C157 | whole views constructor: label and range checks of every view kind, given scenarios and probabilities | characterise success of each row builder; compose through both solving modes |
| C158–C161 ✗C158 ✗C159 | overlays, metadata and diagnostics of all frontiers (`Model/WrapperReports`), missing moments, simulated scenarios | overlay values characterised by IsCvar and outcome variance; the stable reordering commutes with map; equality with the wrapper of simulated scenarios |
| C162–C164 ✗C163 | `posterior_moments_black_litterman`, hand-over of the posterior to `from_moments` | processor reads confidences only by key; composition of C130/C32 with C103 and C105/C106; witness |
| C165 | composition of `from_prices`, constructor, `variance_frontier`, `as_discrete_allocation` over ℝ (the discrete model is generic in an ordered field with floor) | historical moments as sample moments; C101, C105, C141, C05; cut-off of small weights bounded |
| C166 | `_asset_index`, `_build_views` | case analysis against a relation between labels and positions |
| C167 | constructor of `DiscreteAllocationInput` over floats with NaN and infinities (`Model/DiscreteFloat`) | exact acceptance condition by case analysis; counterexample |
| C168–C169 | `variance_frontier`, `min_variance_at_return` | the strengthened frontier specification (least risk at each grid return) determines the portfolios when minimisers are unique; strict convexity; transport along a permutation |
| C170 | `allocate_greedy` | reason for leaving the loop by induction; the deficit test of the fallback rule is shown to be dead code |
| C171 | `plot_frontiers` | the data handed to matplotlib as a value (curves, overlays, highlight records); extensional characterisation of each part; agreement with the selectors through C52 |
| C172 | `plot_frontiers_grid` | grouping dictionary: induction from the right over the supplied frontiers; counterexample for repeated names |
| C173 | `plot_frontier_report` | case analysis over the selection keys with C52–C54; counterexamples |
| C174 | `plot_weights` | sorting routine as an oracle (sorted permutation); prefix/suffix of a sorted list |
| C175 | `plot_param_impact`, `plot_robust_surface`, `plot_robust_path` | `argsort` as an oracle; permutation built from the list of positions |
| C176 | `plot_assumptions_3d`, `_project_to_3d` | spectral theorem for the `eigh` oracle, Rayleigh quotients; sorted sequences are unique, so the shares use the same eigenvalues; counterexample with two assets |
| C177 | `_ellipsoid_mesh` | coordinates in the eigenbasis; Cauchy–Schwarz for the extent |
| C178 | scenario thinning | integer arithmetic of `linspace(...).astype(int)` (exact; float rounding of the grid not modelled) |
| C179 | `min_cvar_at_return`, `cvar_frontier` under two solvers | optimal values are unique; the frontier grid is determined once the returns of the least-CVaR portfolios agree; a tie-breaking solver is built as the counterexample |
| C180 | frontiers without costs | midpoint of neighbours is feasible and has the middle return (equally spaced grid), plus midpoint convexity of volatility and CVaR |
| C181 | two calls over nested universes | zero-padding embeds the first feasible set in the second, preserving return and risk |
| C182 | two calls in different units | scaling of objective and constraint rows; uniqueness of the minimiser |
| C183, C185 | `discretize_weights` in lots / in another currency | a lock-step simulation of the two greedy loops (Lemmas/DiscreteSim), the tolerance tests agreeing because nothing changes (lots) or because cash is a whole number of units |
| C184 | rescaled weights | validation gives the same record |
| C186 | permuted assets | both runs see the same descending list of assets (uniqueness of sorted permutations) |
| C187 | attainable targets | within-one-lot bound plus integrality; for the MILP optimality against the exact lots |
| C188 | `FlexibleViewsProcessor` on views the prior meets | the prior meets every row built from the views, so it is its own closest distribution (klPosterior_self), stage by stage; the CVaR counterexample is a three-scenario universe |
| C189, C190, C191 | reordered views, scenarios, assets | one simulation (Lemmas/ViewsMaps): every stage maps rows to permuted rows, and exact entropy pooling depends only on the set of rows up to a permutation of scenarios |
| C192, C193 | the risk functions on weight matrices (Model/RiskMany) | entries along `axis=0` written out; every column reduces to the single-portfolio functions of C12-C15 |
| C194–C197 | the Black–Litterman processor on sized arguments (Model/BlackLitterman; C130 bridges from the raw call) | the posterior as a function of the targets is affine; reindexing views or assets commutes with inverse and products; scaling by `k` and `k^2` cancels in the gain matrix. The units theorem assumes an exactly symmetric covariance, since the `allclose` test has an absolute tolerance |
| C198 | the frontiers of Model/Wrapper | from `IsFrontier` and convexity of the risk: were the return of a column strictly above its grid point, the mixture with the least-risk portfolio on the grid point would be allowed and strictly less risky |
| C199 | the risk functions, sample moments and CVaR methods already modelled, on two scenario lists of different lengths | every expectation is a sum over outcomes weighted by their probabilities; VaR and CVaR are determined by probabilities and expectations of functions of the outcome (uniqueness lemmas of C12/C13) |
| C200–C202 | `PortfolioFrontier.__post_init__` on raw shapes, `wrap_exposure_vector`, `_to_pandas`, the closures of `_build_selector` and `_coerce_weights_series` with labels (Model/Labels.lean) | case analysis on shapes; every cell of the Series is located by its row; the average composes with C123; the lookup of a label in the dictionary of alternate risks |
| C203, C204 | `_init_constraints`, `_extract_user_constraints` and the shape tests of `cvxopt.solvers.qp` on raw matrices (Model/LowLevel.lean) | case analysis on shapes; rows located by index; witnesses for the two failures |
| C205 ✗ | the views processor on two scenario lists of different lengths | both lists refine the list of distinct outcomes; rows and moments factor through it; grouping copies loses relative entropy unless they keep their shares (termwise Gibbs), so the KL posterior of a refinement is the refined KL posterior; induction over the passes |
| C206–C208 | the views processor with mean and quantile views | Pythagorean inequality for the KL posterior (quadratic upper bound of the relative entropy along segments), equality for equality rows; calls reduced to one or two KL projections |
| C209, C210 | `min_variance_at_return`, `min_cvar_at_return` with trading costs | optimality (C107, C109) compared with the current holdings, and with the other call (exchange argument) |
| C211 ✗, C212 ✗ | the caller's arrays and dictionaries by identity, their contents when an object is built and when it is read or run (Model/Aliasing.lean) | a field is an own value or a reference; histories of assignments by induction; equality of the contents the closure reads |
| C213, C214, C218 | the frontier and single-portfolio calls on the same inputs | the frontier's columns are optima of the query at their own return; CVaR is monotone in the tail through the Rockafellar–Uryasev formula; both grids are arithmetic from the same first return to the same last |
| C215–C217 | pairs of calls whose allowed portfolios correspond (same set; scaled by k; copies added up) | one transfer lemma each for variance and CVaR: maps between the allowed sets that scale return and risk carry optima to optima |
| C219 ✗, C220 | both allocators on the same input | the greedy allocation is a feasible point of the integer programme unless it overspends; C05's bound divided by the amount |
| C221, C222 ✗, C223 ✗ | `stress_invariants` end to end: repricing, both projections with their seeds, the views processor, labels (Model/StressInvariants.lean) | composition of C58, C59, C25/C206 and the metric theorems; uniform posterior when the views hold (Gibbs) |
| C224, C225 ✗ | `assemble_portfolio_ensemble` (existing model) against any constraints, covariance and scenarios | convexity of constraints, volatility and CVaR over C119; leave-one-out loss is symmetric |
| C226 ✗, C227 ✗, C228 | robust optimiser, `NIWPosterior`, `BlackLittermanProcessor` (existing models) | strict convexity of the norm on a hyperplane; congruence of the NIW update; the formula only touches view rows |
| C229, C230 ✗, C231 | `FlexibleViewsProcessor`, `estimate_moments` (existing models) | view rows only read the named columns; rows scale with the units, the feasible set of entropy pooling does not; bilinearity of the estimators |
| C232, C233 | `discretize_weights` (milp), wrapper optimisers (existing models) | a coarse allocation is feasible in the finer programme; the two feasible sets correspond, uniqueness for positive definite covariance |
| C234, C235 | `from_prices`, `pandas_to_numpy_returns` (existing models) | returns are ratios, so factors cancel, column by column; returns and forward fills of a prefix are prefixes |
| C236, C237 | probability generators; robust frontier and capped robust problem (existing models) | exponential families: Gibbs' inequality and convexity of the log-normaliser in the rate; optimality of both programs compared at each other's solutions |
| C238 | Bayesian posterior (existing model) | limits of the closed-form updates |
| C239 | constraint builder and single-portfolio problems (existing models) | the permutation is a bijection of feasible portfolios preserving return and risk; transfer lemmas |
| C240, C241 | keyword options of `discretize_weights` (new model `DiscreteApi`) | comparison of every feasible whole-lot allocation with the optimum; case analysis of option routing |
| C242 ✗ | relaxed risk parity (existing model) | strict convexity of the norm on the total-weight hyperplane, linearised contribution floors; two-asset counterexample |
| C243, C244 | relaxed risk parity and robust methods under two correct solvers (existing models) | uniqueness: strict convexity of the norm on a hyperplane, midpoint of two optima, literal equality of results or errors |
| C245 ✗ | relaxed risk parity in another unit (existing model) | candidates and objective scale; uniqueness; counterexample from the absolute clip tolerance |
| C246 | objective of relaxed risk parity as a function of target and penalty (existing model) | candidates of the harder problem are candidates of the easier one; mixing of candidates |
| C247 | frontier selectors under two arguments (existing model) | comparison of two optimal indices; percentile positions in the sorted risks |
| C248 ✗, C249 | Black–Litterman posterior as a function of the view uncertainties (existing model) | variational bound on the posterior covariance (infimum over gains); cancellation at zero uncertainty; limit of inverses; counterexample for the first view |
| C250 ✗ | optimisers under a constant added to the expected returns (existing models) | on portfolios of fixed total the objective changes by a constant, so the optimal sets coincide; uniqueness gives equal portfolios; counterexample from the relative tolerance of `np.isclose` |
| C251 | `min_risk` of two variance frontiers with different means (existing model) | both are the unique allowed portfolio of least variance |
| C252 ✗ | risk budgets of the relaxed risk parity methods (existing model) | the normalised budgets of `b` and `c * b` coincide unless one total is within `np.isclose` of one; counterexample with such a total |
| C253 ✗ | pandas containers of `utils/projection.py` and `RobustBayesPosterior` (`Model/LabelledMoments`) | case analysis on containers; counterexample with two label orders |
| C254 | `discretize_weights` on inputs that agree on the kept weights (existing model) | the validated input is a function of the kept rows |
| C255 | `generate_gaussian_kernel_probabilities`, `silverman_bandwidth`, `kernel_focus_stress` under affine maps (existing models) | the kernel depends on distances in bandwidths; the default bandwidth is equivariant |
| C256 | credibility radii of `NIWPosterior` and `RobustBayesPosterior` (existing model; quantiles non-negative and monotone) | monotonicity of the radius formulas in the quantile and in the counts |
| C257 | selectors on two frontiers of which one contains the other's portfolios (C218) | extremum over a larger set; first extremal index exists |
| C258 | `robust_mean_huber` (existing model); Huber loss, median and threshold in a separate specification | reweighted least squares is a majorise-minimise step; convexity bounds the gap; 1/k rate by induction on the loop |
| C259 | the Huber and median-of-means models (existing); `inside` counts observations in an interval | weighted mean with every weight of an inlier at least the bound of an outlier; blocks without outliers outnumber the others |
| C260 | `min_variance_at_return` (existing); strict optimality in the specification | a positive definite form is coercive, so it attains its minimum on every non-empty closed set |
| C261 | as C260; `OnlyEquations` says the feasible set is affine | first-order condition of each fund, averaged; uniqueness from C260 |
| C262 | as C260; `marginal` is the marginal cost of an asset | variational inequality: first-order expansion along admissible segments, convexity for the converse |
| C263 | `portfolio_cvar`, `estimate_sample_moments`, effective numbers (existing); `mixture` | CVaR is a minimum of functions linear in the probabilities; law of total covariance; concavity of entropy |
| C264 | `discretize_weights` (existing), `portfolio_cvar` | C03 accounting; L1-Lipschitz bounds of mean, volatility (Cauchy-Schwarz) and CVaR |
| C265 | `portfolio_var`, `portfolio_cvar`, both single-portfolio optimisers | Cantelli-type bound at an explicit Rockafellar-Uryasev threshold; optimality C107, C109 |
| C266 | `robust_covariance_tyler` (existing, pseudo-inverse an oracle); one step and the stopping rule restated entry by entry | induction over the loop; a step is bounded below by its target part |
| C267 | `log2simple`, `project_mean_covariance`, `from_moments` (existing) | algebra of exponentials |
| C268 | `BlackLittermanProcessor` (existing); `laterCall` and `oneCall` are the two ways of asking | information form (Woodbury), information adds over views; counterexample for feeding the posterior straight back |
| C269 | `DiscreteAllocationInput` (existing); the stored fields read back as arguments | the normalised weights sum to one; exact condition (every stored weight above 1e-8) and counterexample |
| C270 | variance, CVaR and robust frontiers of one wrapper (existing) | last column of each is a largest-return portfolio; zero penalty is return maximisation |
| C271 | `ensure_psd_matrix` (existing) | quadratic forms; smallest eigenvalue against any sufficient shift |
| C272 | `min_variance_at_return` (existing) | the rearranged optimum is also optimal; uniqueness |
| C273 | robust frontier and capped robust problem (existing) | the two optimality inequalities added; counterexample for return targets |
| C274 | `min_variance_at_return` for two covariances | the two optimality inequalities added |
| C275 | `portfolio_var`, `portfolio_cvar` (existing) | the Rockafellar-Uryasev objective and the quantile are monotone and shift with the P&L; counterexample for VaR in the probabilities |
| C276 | `min_variance_at_return` and the robust frontier for two sets of moments | both optimality inequalities; Hölder |
| C277 | `min_cvar_at_return` for two scenario sets | both optimality inequalities with C275 |
| C278 | `portfolio_cvar`, `stress_test` (existing) | weak duality from the Rockafellar-Uryasev objective; the worst reweighting is built from the quantile |
| C279 | `_kl_divergence`, `stress_test` (existing) | Pinsker from a convex one-variable inequality and Cauchy-Schwarz, on the clipped vectors; C275 for the CVaR |
| C280 | `min_cvar_at_return`, `cvar_frontier` (existing) | optimality of the returned weights with C278 (CVaR is the largest expected loss over limited reweightings) on both sides |
| C281 | `robust_lambda_frontier` (existing) | worst case over the ellipsoid by Cauchy-Schwarz in the cone actually built; counterexample because the cone uses L'L where S = LL' |
| C282 | drawdown simulation (existing) | the shorter path is a prefix of the longer, so the running maximum agrees on it; quantiles are monotone in the sample |
| C283 | `min_cvar_at_return` on two universes (existing) | gathering each weight on its stand-in raises every scenario's P&L and CVaR is monotone (C275) |
| C284 | `allocate_mip`, `discretize_weights` (existing) | both optimality inequalities at the tightened points; the feasible set does not contain the penalty |
| C285 | effective numbers (existing) | data processing inequality, additivity and concavity of the entropy, and the same for the sum of squares |
| C286 | sample moments, exponential weights, EWMA (existing) | law of total covariance; the weights of a longer history are the old ones scaled; one fold step |
| C287 | `BlackLittermanProcessor`, `from_moments`, `min_variance_at_return` (existing) | with mean δΣm, matching the market's return with no more variance makes the variance of the difference non-positive |
| C288 | `BlackLittermanProcessor` (existing) | first-order conditions of the utility; Σ is cancelled after writing mean and covariance through the pick matrix |
| C289 | sequences of `min_variance_at_return` / `min_cvar_at_return` calls (existing) | staying put is allowed at each step; triangle inequality for proportional costs; induction on the number of calls |
| C290 | `is_updated`, `chi2_quantile(sqrt=True)` (`Model/BayesFlags`) | induction on the history: failed calls leave the object unchanged, a posterior is never dropped |
| C291 | `min_variance_at_return`, `min_cvar_at_return`, `Constraints` (existing) at two sizes | dividing an admissible portfolio of the scaled problem by k gives one of the original; variance scales by k squared, CVaR by k; strict convexity gives the unique minimiser |
| C292 | `build_G_h_A_b` (existing) | the first failing entry of the first failing block decides; case analysis per block |
| C293 | `minCvarAtReturn` (existing) | Frank–Wolfe: a convex quadratic programme bounded below attains its minimum; CVaR is at least the expected loss; a direction gaining in every scenario lowers CVaR linearly |
| C294 | `minVarianceAtReturn` (existing) | scaling the risky positions scales excess return and volatility; optimality both ways makes the scaled portfolio optimal, strict convexity in the risky weights makes it the answer |
| C295 | entry functions of all modules (existing) | case analysis of every branch that raises |
| C296 | `varianceFrontier` (existing) | Frank–Wolfe for the first portfolio, the largest return and every grid point; the converse from the largest return having been found |
| C297 | `cvarFrontier` (existing) | bounded returns bound CVaR from below (expected loss), hence every programme attains its minimum; the converse from the largest return having been found |
| C298 | the functions named in the statement (all existing) | case analysis of each call in the order of its tests; induction over instruments, frontiers and iterations where the failing element decides |
| C299 | `entropyPooling`, `FV.fromMoments`, `stressInvariants` (existing) | iff characterisation of acceptable calls; total case split on the optimiser's report; stage-by-stage comparison of the two calls |

## 4. What is modelled and what is not

Every definition of `lean/Verif/Model` cites the Python lines it models; `python3 tools/coverage.py` lists, for each function of
`/repo/pyvallocation`, how many of its lines are cited. All public functions are modelled; of `plotting.py` the data handed to matplotlib.

Not modelled:

* the drawing itself in `plotting.py` (colours, styles, tick formats, legends), logging and warnings, `examples/`, `docs/`, the names of returned Series, one-line accessors
  (`DiscreteAllocationResult.as_series`, `FlexibleViewsProcessor.get_*`, `available_risk_measures`).
* Floating-point rounding, overflow, signed zeros; NaN propagation outside the functions that test for it or whose property is about it
  (`PyFloat` models: probabilities, constraints, views, returns from prices, ensembles by label, distributions).
* Python type errors (an argument of another type than documented) and duplicate labels, except where stated.
* Performance, memory layout, aliasing except where a property is about it (C27, C64, C132, C211, C212).

Oracles (arbitrary parameters of the model; each theorem states what it needs):

| oracle | used for | hypothesis in the theorems |
|---|---|---|
| `Opt` solvers (QP, LP, SOCP) | CVXOPT | `Sound`: a reported point is feasible and optimal; `Complete`: on a convex programme with an optimum, one is reported. Infeasible/unbounded/unsolved outcomes are arbitrary otherwise. `solvers.lp` called with `G=None` raises TypeError, as CVXOPT does (`lpInequalities`); `solvers.qp` accepts it |
| QP of `exposure_stacking` | CVXOPT | `SolverSound` / `SolverComplete` |
| MILP solver | `scipy.optimize.milp` | optimal feasible point of the stated programme, integral |
| entropy-pooling dual minimiser | `scipy.optimize.minimize` | a stationary/KKT point of the stated dual where a theorem says so, arbitrary otherwise |
| `Factor` | `numpy.linalg.cholesky` | `CholOk`: lower triangular factor, success exactly on positive definite matrices |
| `Eigh` | `numpy.linalg.eigh` | `IsEigh`: orthogonal diagonalisation |
| `Argsort`, `sortBy` | order of ties in NumPy/pandas sorts | a sorting permutation |
| `chi2.ppf`, random generator, repricing callables, `nonlinshrink`, frontier factories, selectors passed as callables | user code and libraries | arbitrary |

## 5. Disagreements between code and documentation found while modelling

A theorem named here proves the behaviour of the model; "(reading)" marks facts seen in the source and not stated as a theorem.

**Discrete allocation.** MILP caps each long leg at 100% of value, so leveraged targets are infeasible (C09_leverage_infeasible).

**Views.** The dual with clipped exponent is unbounded below (C22_clipped_unbounded_below). Quantile, CVaR and sequential steps drop
earlier rows, so earlier views need not hold (C25_counterexample); correlation views are distorted by simultaneous volatility views
(C25_corr_distortion); `rank_mean` inserts into the caller's dictionary (C27_counterexample); a raw `("between", nan, …)` tuple is
accepted (C30_raw_between_nan_accepted); a single column always fails (C26_single_column_fails) and the CVaR search never recovers when
its first cut is unsolvable (C29_solver); a labelled mean and a differently ordered labelled covariance are combined by position
(C144_counterexample); prior probabilities given together with moments are silently ignored, and weights whose sum is within 1e-5 of one
are not normalised (reading).

**Black–Litterman.** A relative view (A, A) yields −e_A (C34_counterexample); "exactly one of pi / market_weights / prior_mean" is not
enforced and an array covariance without views accepts a prior mean of any length (C130_counterexample); float market weights are
normalised in the caller's array (C132_counterexample); without views Σ, not (1+τ)Σ, is returned; τ is not validated; confidences keyed
like the documentation example `"EM,DM"` match no view and fall back to 1; `posterior_moments_black_litterman` defaults to `idzorek`,
which needs confidences (reading).

**Moments.** James–Stein overshoots for N = 1 (C37_counterexample); Ledoit–Wolf can return intensity 0 and fails for N = 1
(C38_*); Tyler's trace is tr(S)/N (C41_counterexample), Tyler/POET fail for N = 1 and `max_iter=0` is a NameError (reading); EWMA
`span=0` is accepted and can give a negative variance (C40_small_span); the graphical lasso returns the unthresholded iterate (C125_counterexample); `estimate_moments` ignores
`p` for every estimator except the sample ones (C126_counterexample) and mishandles N = 1 (C126_counterexample_single); a probability
Series is rejected when T = N or relabels the assets (C128_*); OAS and graphical lasso default to second moments about 0
(C154_oas_default); the constant-correlation Ledoit–Wolf intensity depends on the units of the returns (C155_counterexample): its ρ̂ multiplies
variances of covariances by target entries without the standard-deviation ratios of the published formula.

**Frontiers.** NaN percentile selects column 0 (C54_nan_accepted); tied top returns raise the envelope above the running maximum
(C55_counterexample_tie); constraints without rows are replaced by the default (C56_counterexample); CVaR is reported in absolute value
(C71_counterexample_raw); the frontier is ordered by an explicit mean (C71_counterexample_mean).

**Ensembles.** `normalize_weights` accepts negative weights (C46_negative_accepted); `L = 1` is rejected although documented
(C47_rejects); a single specification with the default ensemble fails (C50_counterexample); the `min_risk` selector pops its label
(C51_counterexample); `make_ensemble_spec` drops constraints, costs, return type and uncertainty (C72_counterexample); duplicate names
share a frontier (C73_counterexample); two conversion keys raise (C120_counterexample); different asset universes give NaN weights
(C123_counterexample); `exposure_stack_frontiers` uses one portfolio per frontier, not the full matrices, so the module's own example
raises (C137_counterexample, C137_folds_bounded); a stacked ensemble depends on the order of the strategies, since folds are
consecutive blocks (C225_counterexample); Series weights of `average_frontiers` are taken by position (reading of C136).

**Projection, performance, stress.** The `compose_repricers` doc example raises (C59_doc_example); the initial wealth is not a drawdown
peak (C60_counterexample); `scenario_pnl` yields NaN and `performance_report` drops extra labels (C61_*); the clipped KL can be negative
(C62_counterexample); probability tolerances of `project_scenarios` and `simulate_paths` differ (C77_*); `stress_invariants` reads
weights by position (C81_counterexample); repricing to another number of instruments fails in `simulate_paths` (C83_*); `simulate_paths` stores repriced
values in the type of the drivers, truncating them for integer drivers (C148_*); `drawdown_quantile` ignores labels (C149_*); `log` input with
one asset or length-one mean is broadcast (C103_*); an infinite first price is accepted (C101_counterexample); return gaps are
forward-filled as *returns* (C134_counterexample), non-positive prices give ±inf (C134_counterexample_nonpositive).

**Bayesian.** 0 < t0 < 1 is accepted and divides by zero (C63_fractional_t0); `get_mu_ce` aliases the state (C64_counterexample); the posterior variance of an asset shrinks as unrelated assets are added (C227_counterexample);
`exact=True` mixes horizons (C88_counterexample); sample labels are ignored (C89_counterexample).

**Black–Litterman confidences.** The module documentation of `moments.py` writes `view_confidences={"A,B": c}` for the view `("A", "B")`; the key is
not found and the view is used with confidence 1, whatever `c` is (C163_counterexample).

**Optimisation and wrapper.** The robust cone uses L instead of its transpose (C67_counterexample, C67_right_iff_diagonal), so two indistinguishable assets get different weights by position (C226_counterexample); relaxed risk parity has the same defect (C97_counterexample), so it depends on the order of the assets (C242_counterexample); `max_sharpe`
drops right-hand sides (C68_bounds_always_fail) and can return the worst ratio (C68_negative_excess_is_worst); robust + proportional costs
always fails (C94_costs_always_fail); robust risk at λ = 0 is undetermined (C95_zero_lambda_risk_undetermined); default risk budgets are
not ERC for correlated assets (C97_counterexample); `_max_linear_return` ignores the budget under user equalities (C98_counterexample);
`AssetsDistribution` accepts mu alone (C99_counterexample); log wrappers minimise log moments and report simple ones
(C108_counterexample), reported robust returns can decrease (C110_counterexample), γ-portfolios mix units (C117_counterexample);
`min_cvar_at_return` targets the scenario mean but reports the explicit mean (C109_counterexample); an RRP target is silently raised
(C111_counterexample); per-call costs are not shape checked (C113_counterexample); the robust frontier of a log-return wrapper overlays
log-space volatilities on simple returns (C158_counterexample); RRP contribution percentages of a log-return wrapper do not sum to 100
(C159_counterexample) and `target_clipped` is False when the target is abandoned altogether (C159_counterexample_clipped); RRP ignores costs, negative proportional costs make
the LP unbounded (reading).

**Unbounded risk (C293).** When the constraints let tail risk be lowered without limit, `min_cvar_at_return` raises `InfeasibleOptimizationError`
although the target is within reach (C293_money_machine).

**Non-finite inputs of the discrete allocator (C167).** NaN weights, NaN or +inf prices and a NaN or +inf amount pass validation
(C167_counterexample).  By reading: `{A: .5, B: NaN}` at prices `{A: 10, B: 1000}` and 100 to invest gives `{A: 10}` with tracking error 0.

**Fallback rule of the greedy allocator (C170).** Its second test (cash for a lot left and a deficit above 1e-6) can never hold unless the
iteration cap was hit: the top-up loop stops with cash only when every deficit is below 1e-12.

**Frontier grids (C179, C182).** The grid of a frontier starts at the return of the least-risk portfolio the solver happens to return; with several
least-CVaR portfolios two correct solvers give frontiers of different lengths (C179_counterexample). The collapse of a frontier to one portfolio is
decided by `np.isclose` with an absolute tolerance of 1e-8, so it depends on the units of the returns (C182_counterexample).

**Currency (C185).** The top-up loop compares cash with costs up to an absolute 1e-12, so in a unit of account where prices are of that size it
overspends (C185_counterexample).

**CVaR views (C188, C189).** A CVaR view equal to what the prior already implies still changes the posterior (the tail is forced to be a whole
number of scenarios with probability exactly gamma), and of two CVaR views the one written last wins (C189_counterexample: both orders succeed, with
different posteriors, and neither posterior meets both views).

**Shapes in the risk functions (C192, C193).** An `N x 1` array passes as a covariance and a one-element probability vector passes for any number of
scenarios, both silently broadcast; `portfolio_var` returns `(1, M)` arrays where `portfolio_cvar` returns `(M,)` (both are documented as 1xM).

**Raw constraint arguments (C203, C204).** `RelaxedRiskParity` turns a missing `h` into `[nan]`, so `G` with one row and no `h` passes
the dimension test with a NaN bound. Nested lists go straight into `cvxopt.matrix`, whose inner lists are columns: a square nested list
is silently transposed (arrays, which `PortfolioWrapper` always passes, are not).

**CVaR views and the division into scenarios (C205).** For an asset returning 0 or 1 with equal probability the view "the 50% CVaR is 0"
holds under the prior. With two scenarios the call raises (the cut is clipped to index 1, so the tail holds all probability); with each
scenario listed twice it returns the prior.

**Objects that share the caller's data (C211, C212).** `AssetsDistribution` is documented as immutable but keeps float arrays by
reference (`np.asarray` does not copy): `scenarios[0, 0] = nan` after construction puts NaN into the validated object.
`make_portfolio_spec` copies its keyword dictionaries but not `projection`, nor the dictionary under `optimiser_kwargs["constraints"]`;
editing either changes what an already made specification computes.

**Allocators compared (C219).** The greedy allocator buys while the price is within 1e-12 of the remaining cash, the integer programme
enforces the budget exactly, so on a contrived input greedy tracks better than "optimal" (`C219_counterexample`). Harmless in practice:
`C219_units` shows it cannot happen with prices and amounts in whole cents.

**Frontiers without an inequality (C105, C215).** `MeanVariance.efficient_frontier` finds the largest attainable return with CVXOPT's `lp`, which
rejects `G=None`. With nothing but a total weight and equality rows in force `variance_frontier` therefore fails, also where the allowed set is a
single portfolio, and adding a redundant inequality makes it succeed. `min_variance_at_return` works in both cases.

**Stress tests on drivers (C81, C222, C223).** `stress_invariants` draws the stressed simulation with `seed + 1`, so views that already hold over the
history still change the report (C222_counterexample); with stress views a single driver (`np.diag` of a scalar in the views processor) and dict weights
(`np.asarray(dict, float)`) always raise although `stress_test` accepts the latter (C223_counterexample), and labelled weights are read by position
(C81_counterexample).

**Units of returns (C230).** A skewness view raises when the asset's prior variance is below 1e-12 in absolute terms, so the same data and view
are accepted in per cent and rejected in units of ten millions (`C230_counterexample`). All other views are independent of the unit.

**Fallback options (C241).** `allocate_greedy` in mode `auto` never checks `fallback_kwargs` unless the target has short positions
or the greedy loop stalls, and then swallows the failure: a misspelt `fallback_kwargs={"cash_penality": …}` goes unnoticed.

**Units of relaxed risk parity (C245).** `RelaxedRiskParity.solve` clips the target at `max_return - max(1e-8, 1e-3 |max_return|)`; the absolute
floor makes a target disappear in units in which returns are of the order 1e-8 (`C245_counterexample`).

**The first Black–Litterman view adds variance (C248).** Without views `BlackLittermanProcessor` returns the prior covariance; with at least one view it
returns prior plus uncertainty about the mean. A first view, however sharp, therefore raises the posterior variance of portfolios it does not concern
(`C248_counterexample`).

**The level of returns (C250).** `variance_frontier` decides with `np.isclose` whether the returns span anything; relative to a level of a million a span
of one is nothing and the frontier collapses to a single portfolio (`C250_counterexample`).

**Risk budgets nearly summing to one (C252).** `RelaxedRiskParity` divides risk budgets by their total only when `np.isclose` says the total is not one;
a total of 1.000005 is used as it is, and the reported contribution level differs from that of the same budgets doubled (`C252_counterexample`).

**Labels of moments (C253).** `log2simple` and `simple2log` accept a mean Series and a covariance DataFrame listing the assets in different orders without
an error, pair them by position and return them with the original labels (`C253_counterexample`).

**Black-Litterman in instalments (C268).** The returned covariance is prior covariance plus uncertainty about the mean. Feeding the posterior back as the
next prior therefore counts that uncertainty as part of the prior covariance: for two unrelated assets the second view gets weight 2/3 instead of 1/2
(`C268_counterexample`). Subtracting the prior covariance first and using `tau = 1` gives exactly the joint answer (`C268_instalments_partial`).

**Reusing a validated input (C269).** The `1e-8` filter runs before the weights are normalised. With unnormalised weights such as `{A: 100, B: 1e-7}` asset
`B` passes it, is stored with weight `1e-9`, and is lost when the input is built again from its own fields, e.g. by `dataclasses.replace`
(`C269_counterexample`). `C269_rebuild_iff` gives the exact condition.

**Plots (C172, C173).** The grid keys frontiers by label or risk measure, so unlabelled frontiers of one measure overwrite each other;
`legend_policy="all"` (documented) is rejected, `"each"` (undocumented) is the accepted spelling. `plot_frontier_report(selection="tangency")`
always raises: the risk-free rate is popped before the panel that needs it is drawn. Metadata shorter than the frontier makes
`plot_param_impact` drop the last portfolios silently (reading; `PortfolioFrontier` does not check the length). With one or two assets
`plot_assumptions_3d` labels the assets as principal components (C176_counterexample); its legend says 1σ whatever `n_std` is (reading).

## 6. Axioms

`AXIOMS.txt` (generated by `tools/gen_axioms.py` with Lean's `#print axioms`) lists the axioms of every theorem named in
`MANIFEST.json`: each depends on a subset of `propext`, `Classical.choice`, `Quot.sound`, and nothing else.

## 7. Tests of the theorems

`seeded/LOG.jsonl` records edits of the model that imitate realistic bugs and the theorems that stopped proving. Edits are scripted in
`tools/mutants*.py`, run by `tools/mutate.py` on a scratch copy, logged by `tools/log_mutants.py`. Where an edit survived, the theorem
tightened afterwards is named in its line.
