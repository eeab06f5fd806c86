{"id": "C01", "title": "Every sampling method stays inside the declared bounds", "statement": "For any design space given as a list of [lower, upper] rows with lower <= upper, and any requested number of samples, every component j of every sample returned by LHS (all kinds), full factorial or random sampling satisfies lower_j <= x_j <= upper_j, sampling being computed exactly (see C131 for the effects of rounding).", "quantifier": "all design spaces, all sample counts, all random draws", "why_tests_cant": "The property ranges over all bounds, sizes and random streams; a test fixes a seed and one space.", "anchors": ["crates/doe/src/traits.rs: SamplingMethod::sample", "crates/doe/src/lhs.rs: Lhs", "crates/doe/src/full_factorial.rs: FullFactorial", "crates/doe/src/random.rs: Random"]}
{"id": "C02", "title": "A Latin hypercube has exactly one sample per stratum in every dimension", "statement": "For every LHS kind (classic, centered, maximin, centered maximin, optimized) and every ns >= 1, cutting any dimension of the normalized space into ns equal strata, each stratum holds exactly one of the ns returned points, whatever the random draws, shuffles and the swaps performed by the space-filling optimizer.", "quantifier": "all LHS kinds, numbers of samples, dimensions, random draws, shuffles and swap sequences", "why_tests_cant": "The stratification must survive every random stream and every accepted/rejected exchange of the optimizer; tests only look at one seeded output.", "anchors": ["crates/doe/src/lhs.rs: normalized_sample, _classic_lhs, _centered_lhs, _maximin_lhs, _maximin_ese, _phip_swap"]}
{"id": "C03", "title": "The LHS optimizer never returns a worse design than the one it started from", "statement": "The optimized LHS returns the best design (smallest phi_p criterion) among all the designs it visited, in particular never one with a larger criterion than the initial random LHS.", "quantifier": "all initial designs, all proposal sequences, all acceptance decisions", "why_tests_cant": "Holds for every sequence of accepted uphill moves; a test runs one sequence.", "anchors": ["crates/doe/src/lhs.rs: _maximin_ese"]}
{"id": "C04", "title": "Incremental phi_p update equals recomputation from scratch", "statement": "Exchanging two values of one column and updating the criterion incrementally gives the same value as recomputing the criterion of the exchanged design from scratch.", "quantifier": "all designs, dimensions, pairs of rows, columns", "why_tests_cant": "The identity involves all pairwise distances for every size; tests compare a few matrices within a tolerance.", "anchors": ["crates/doe/src/lhs.rs: _phip_swap, _phip"]}
{"id": "C05", "title": "Maximin LHS keeps the best of its candidate draws", "statement": "The (centered) maximin LHS returns, among its candidate designs, one whose minimal pairwise distance is at least that of every other candidate (and the first such one).", "quantifier": "all candidate sequences", "why_tests_cant": "Ranges over all random draws.", "anchors": ["crates/doe/src/lhs.rs: _maximin_lhs"]}
{"id": "C06", "title": "Full factorial design: exactly ns distinct grid points, balanced levels", "statement": "For every dimension count nx >= 1 and every ns >= 1 the full factorial design has exactly ns rows, all rows are distinct, numbers of levels of two factors differ by at most one, the number of levels is minimal in the sense that the loop stops as soon as the grid is large enough, and when ns equals the grid size every combination of levels appears exactly once.", "quantifier": "all nx, ns", "why_tests_cant": "Unbounded in both sizes; tests check two or three sizes.", "anchors": ["crates/doe/src/full_factorial.rs: FullFactorial::normalized_sample"]}
{"id": "C07", "title": "Casting to discrete values lands in the domain and is idempotent", "statement": "Projecting any relaxed point on the declared variable types gives a point whose integer components are integers, whose ordered components belong to the declared list and whose categorical components are one-hot masks; projecting a second time changes nothing; other components are unchanged.", "quantifier": "all variable type lists, all points", "why_tests_cant": "Quantifies over every type list and every real point, including ties.", "anchors": ["crates/ego/src/gpmix/mixint.rs: cast_to_discrete_values, cast_to_discrete_values_mut, take_closest"]}
{"id": "C08", "title": "Casting picks a nearest admissible value", "statement": "For each integer component in bounds the cast value is a nearest integer and remains inside the integer bounds; for each ordered component it is a nearest value of the declared list; for each categorical block the selected level carries the largest mask value.", "quantifier": "all values, all lists, all bounds", "why_tests_cant": "Tie and boundary behaviour over a continuum.", "anchors": ["crates/ego/src/gpmix/mixint.rs: cast_to_discrete_values_mut, take_closest"]}
{"id": "C09", "title": "Continuous relaxation and discrete decoding are inverse of each other", "statement": "For any list of variable types and any point given with category indices, relaxing the point and decoding it gives the point back (the documentation states the two functions are opposite of each other).", "quantifier": "all variable type lists (any order of float/int/ord/enum), all valid points", "why_tests_cant": "The offset bookkeeping only fails for particular orders of variables; tests cover one order.", "anchors": ["crates/ego/src/gpmix/mixint.rs: unfold_with_enum_mask, fold_with_enum_index, to_continuous_space, to_discrete_space"]}
{"id": "C10", "title": "Relaxed bounds have the relaxed dimension and contain every admissible point", "statement": "The relaxed bounds have one row per relaxed dimension (one per float/int/ord variable, one per category level), each row has lower <= upper for valid types, and the relaxation of any admissible point lies inside them; casting a point inside the bounds stays inside them.", "quantifier": "all variable type lists, all points", "why_tests_cant": "Quantifies over all type lists and points.", "anchors": ["crates/ego/src/gpmix/mixint.rs: as_continuous_limits, compute_continuous_dim"]}
{"id": "C11", "title": "The reported optimum is the feasible-first lexicographic optimum", "statement": "Given evaluated outputs (objective, constraints, function constraints) and one tolerance per constraint, the index reported as best is: if some evaluation satisfies all constraints within tolerance, the first one with the smallest objective among those; otherwise the first one with the smallest sum of violations; without constraints the first one with the smallest objective.", "quantifier": "all numbers of samples and constraints, all values", "why_tests_cant": "All orders of feasible/infeasible rows and ties.", "anchors": ["crates/ego/src/utils/find_result.rs: find_best_result_index, is_feasible"]}
{"id": "C12", "title": "Tracking the best point incrementally equals recomputing it from all the data", "statement": "Starting from the best index of the initial data and updating it batch after batch gives, after any number of batches, exactly the index obtained by searching the whole data at once.", "quantifier": "all histories of batches, all values", "why_tests_cant": "Needs induction over arbitrary histories; tests compare a couple of arrays.", "anchors": ["crates/ego/src/utils/find_result.rs: find_best_result_index_from, find_best_result_index, cstr_min"]}
{"id": "C13", "title": "The best result never gets worse along a run", "statement": "During a run the current best (feasibility first, then objective, or violation when infeasible) is never replaced by a worse one, whatever the surrogate proposes, and once a feasible point has been found the reported best remains feasible; the feasibility flag is true exactly when the current best satisfies all constraints within tolerance.", "quantifier": "all executions: all proposals, all objective functions, all numbers of iterations", "why_tests_cant": "Invariant over unbounded executions.", "anchors": ["crates/ego/src/solver/solver_impl.rs: ego_step", "crates/ego/src/solver/trego.rs: trego_step", "crates/ego/src/solver/egor_state.rs: EgorState::update", "crates/ego/src/utils/find_result.rs"]}
{"id": "C14", "title": "A failed evaluation (NaN) is never reported as the best feasible result", "statement": "If the objective or a constraint of an evaluation is NaN, this evaluation is never selected as the best result when a valid feasible evaluation exists.", "quantifier": "all data with NaN at any position", "why_tests_cant": "Position-dependent behaviour of IEEE comparisons.", "anchors": ["crates/ego/src/utils/find_result.rs: cstr_sum, cstr_min, find_best_result_index, find_best_result_index_from"]}
{"id": "C15", "title": "Run data stay aligned and append-only", "statement": "During a run the numbers of rows of the stored inputs, outputs and function-constraint values are equal, and rows already stored are never removed, reordered or modified.", "quantifier": "all executions, all proposals (including rejected ones), all batch sizes", "why_tests_cant": "Invariant over arbitrary executions.", "anchors": ["crates/ego/src/utils/misc.rs: update_data", "crates/ego/src/solver/solver_impl.rs: ego_step", "crates/ego/src/solver/trego.rs: trego_step"]}
{"id": "C16", "title": "No near-duplicate point is ever added", "statement": "Every point added by the optimizer is at L1 distance at least 100 epsilon from every point stored before it, including the points of the same batch.", "quantifier": "all executions", "why_tests_cant": "Quantifies over all pairs of points of all executions.", "anchors": ["crates/ego/src/utils/misc.rs: is_update_ok, update_data"]}
{"id": "C17", "title": "Stored outputs are true function values", "statement": "At the end of any iteration every stored output row is the value returned by the user's function at the (discrete) stored input row: the predicted values used internally to build a batch never remain in the data.", "quantifier": "all executions, all batch sizes, all virtual-point strategies", "why_tests_cant": "Depends on index arithmetic for all batch sizes and partially rejected batches.", "anchors": ["crates/ego/src/solver/solver_impl.rs: ego_step, select_next_points", "crates/ego/src/utils/misc.rs: update_data"]}
{"id": "C18", "title": "Evaluation budget", "statement": "An EGO iteration with q points evaluates the user's function on at most q points, exactly on the points it adds and at least on one unless it stops the run; after k iterations the number of stored points is at most n_doe + k*q and equals n_doe plus the number of evaluated points.", "quantifier": "all executions", "why_tests_cant": "Counting over unbounded executions.", "anchors": ["crates/ego/src/solver/solver_impl.rs: ego_step", "crates/ego/src/solver/egor_solver.rs: next_iter"]}
{"id": "C19", "title": "The run stops after the allowed number of unsuccessful proposals without corrupting the state", "statement": "When every proposal is rejected as too close to stored points, the iteration ends after the allowed number of retries with the 'no more point to add' outcome, and stored data and best index are those from before the iteration; it never loops forever.", "quantifier": "all proposal sequences", "why_tests_cant": "Termination and state preservation for all proposal sequences.", "anchors": ["crates/ego/src/solver/solver_impl.rs: ego_step", "crates/ego/src/solver/egor_solver.rs: ego_iteration/next_iter"]}
{"id": "C20", "title": "The iteration of the last improvement is recorded", "statement": "Whenever an iteration finds a new best point, the state reports this iteration as the iteration of the last best result.", "quantifier": "all doe sizes, all indices", "why_tests_cant": "Boundary index equal to the initial design size.", "anchors": ["crates/ego/src/solver/egor_state.rs: EgorState::update, is_best"]}
{"id": "C21", "title": "Stored function-constraint values are the user's constraint values", "statement": "Every stored function-constraint row equals the user's constraint functions valued at the stored input, whichever step (initial design, EGO step, TREGO step) added the point.", "quantifier": "all executions, all scaling factors", "why_tests_cant": "Depends on a scaling factor which is 1 in simple tests.", "anchors": ["crates/ego/src/solver/solver_impl.rs: select_next_points", "crates/ego/src/solver/solver_computations.rs: eval_fcstrs", "crates/ego/src/solver/trego.rs"]}
{"id": "C22", "title": "User functions receive inputs in the declared discrete space", "statement": "With integer/ordered/categorical variables, the objective and the constraint functions are always called with admissible discrete values.", "quantifier": "all variable types, all relaxed proposals", "why_tests_cant": "Needs a non-trivially discrete space on a path which discards the converted value.", "anchors": ["crates/ego/src/solver/solver_computations.rs: eval_obj, eval_fcstrs", "crates/ego/src/solver/solver_impl.rs: select_next_points", "crates/ego/src/gpmix/mixint.rs"]}
{"id": "C23", "title": "Warm start restores the saved design", "statement": "Restarting in the same output directory with warm start restores the inputs and outputs saved by the previous run: the same rows, with the same columns interpreted as inputs and outputs.", "quantifier": "all problem dimensions, numbers of constraints, histories", "why_tests_cant": "Depends on column counts for all combinations of constraints; repeated restarts.", "anchors": ["crates/ego/src/solver/egor_solver.rs: init", "crates/ego/src/egor.rs: OptimizationObserver"]}
{"id": "C24", "title": "Hot start: checkpoints survive a crash", "statement": "If the process dies at any point while a checkpoint is written, the next start finds either the previous or the new checkpoint.", "quantifier": "all crash points, all checkpoint contents", "why_tests_cant": "Crash points are not exercised by tests.", "anchors": ["crates/ego/src/utils/hot_start.rs: HotStartCheckpoint::save, load"]}
{"id": "C25", "title": "Hot start: loading returns the saved state and extends the iteration budget as asked", "statement": "Loading after a completed save gives the saved state back; with an extension of n iterations the maximum number of iterations grows by exactly n, otherwise it is unchanged; without checkpoint file nothing is loaded; disabled mode neither saves nor loads.", "quantifier": "all states, modes, sequences of saves and loads", "why_tests_cant": "Round trip over all states and histories.", "anchors": ["crates/ego/src/utils/hot_start.rs: HotStartMode, HotStartCheckpoint"]}
{"id": "C26", "title": "Run history records every added point exactly once", "statement": "The recorded history contains the initial design then each point added by the iterations, each exactly once and in order.", "quantifier": "all executions including early termination", "why_tests_cant": "Depends on termination path.", "anchors": ["crates/ego/src/utils/run_recorder.rs", "crates/ego/src/solver/egor_solver.rs: next_iter"]}
{"id": "C27", "title": "Cooperative activity groups partition the variables", "statement": "For every dimension and every requested number of groups >= 1, the random activity groups are pairwise disjoint, cover every variable exactly once, are balanced (sizes differ by at most one) and there are min(n_coop, dim) of them, whatever the shuffle.", "quantifier": "all dimensions, numbers of groups, permutations", "why_tests_cant": "All shuffles and all remainders.", "anchors": ["crates/ego/src/solver/coego.rs: get_random_activity, get_active_x, set_active_x"]}
{"id": "C28", "title": "Optimizing a group leaves the other variables untouched", "statement": "Setting the active components of a point and reading them back gives the values set; components outside the active group keep their values.", "quantifier": "all points, groups, values", "why_tests_cant": "All index subsets.", "anchors": ["crates/ego/src/solver/coego.rs: set_active_x, get_active_x"]}
{"id": "C29", "title": "The gradient given to the infill optimizer is ordered like the active variables", "statement": "When only a group of variables is active, the i-th gradient component passed to the optimizer is the derivative with respect to the i-th active variable, whatever the order of the group.", "quantifier": "all orders of the active group", "why_tests_cant": "Depends on the shuffle.", "anchors": ["crates/ego/src/solver/solver_infill_optim.rs", "crates/ego/src/solver/coego.rs"]}
{"id": "C30", "title": "Parallel multistart selection does not depend on scheduling", "statement": "The best candidate value selected by the parallel multistart reductions is the minimum over all starts whatever the way the work is split among threads; with the leftmost start winning ties the selected point is deterministic.", "quantifier": "all start results, all binary reduction trees", "why_tests_cant": "Schedules cannot be enumerated by tests.", "anchors": ["crates/ego/src/solver/solver_infill_optim.rs", "crates/gp/src/algorithm.rs: fit", "crates/gp/src/sparse_algorithm.rs: fit"]}
{"id": "C31", "title": "Infill start points are midpoints of data points and stay in bounds", "statement": "Every start point selected for infill optimization is the midpoint of two stored points, hence inside the bounds when the data are; no more points than requested (at least one) are returned; each start is at least as far (in the scaled metric) from every other stored point as from the two points defining it.", "quantifier": "all data sets, bounds, requested numbers", "why_tests_cant": "All data sets.", "anchors": ["crates/ego/src/utils/start_points.rs"]}
{"id": "C32", "title": "Trust region: local search box inside bounds and around the best point; phase schedule", "statement": "The TREGO local box is contained in the design space and contains the current best point when it is in the design space; the trust size only grows after a sufficient decrease and only shrinks after a failed local step; a global step is attempted at least once every 1 + n_local_steps iterations.", "quantifier": "all states, all executions", "why_tests_cant": "Unbounded schedules.", "anchors": ["crates/ego/src/solver/trego.rs", "crates/ego/src/solver/egor_solver.rs: trego_iteration"]}
{"id": "C33", "title": "Automatic reclustering and hyperparameter optimization schedules", "statement": "With automatic clustering, reclustering happens exactly when the number of added points is a positive multiple of 10 and grew since the previous check; hyperparameters are optimized exactly every q_optmod-th point.", "quantifier": "all counters", "why_tests_cant": "All counter values.", "anchors": ["crates/ego/src/solver/solver_impl.rs: have_to_recluster, select_next_points"]}
{"id": "C34", "title": "Portfolio selection returns members of the portfolio", "statement": "The points selected from the infill portfolio are points of the portfolio, at least one is selected from a non-empty portfolio, and at most one per cluster.", "quantifier": "all portfolios, all clusterings", "why_tests_cant": "All clusterings and hash orders.", "anchors": ["crates/ego/src/utils/portfolio.rs: cluster_as_indices, select_from_portfolio"]}
{"id": "C35", "title": "Virtual outputs used to build batches follow the documented strategy", "statement": "The virtual objective is the prediction (KB), prediction minus/plus three standard deviations (KBLB/KBUB) or the current minimum (CLMIN), so KBLB <= KB <= KBUB, and CLMIN is the smallest stored objective; virtual constraint values are predictions.", "quantifier": "all predictions and data", "why_tests_cant": "All values.", "anchors": ["crates/ego/src/solver/solver_computations.rs: compute_virtual_point"]}
{"id": "C36", "title": "Expected improvement is non-negative and its gradient is its derivative", "statement": "The expected improvement criterion is non-negative wherever it is valued, is zero where the predicted variance is negligible, and the returned gradient is the derivative of the returned value wherever the variance is not negligible.", "quantifier": "all surrogates, points, current minima", "why_tests_cant": "Calculus over a continuum.", "anchors": ["crates/ego/src/criteria/ei.rs: ExpectedImprovement"]}
{"id": "C37", "title": "WB2/WB2S criteria gradient is their derivative and scaling is positive", "statement": "The WB2 value is scale times expected improvement minus the prediction and its gradient is the derivative of the value; the WB2S scale is 1 when the largest expected improvement is negligible.", "quantifier": "all surrogates, points, scales", "why_tests_cant": "Calculus over a continuum.", "anchors": ["crates/ego/src/criteria/wb2.rs"]}
{"id": "C38", "title": "Probability of feasibility is a probability and its gradient is its derivative", "statement": "The probability of feasibility lies in [0, 1], equals the normal probability that the constraint is below its tolerance, and the returned gradient is its derivative for every tolerance.", "quantifier": "all surrogates, points, tolerances", "why_tests_cant": "Calculus; tests use a zero tolerance.", "anchors": ["crates/ego/src/utils/cstr_pof.rs: pof, pof_grad"]}
{"id": "C39", "title": "Upper trust bound constraint gradient is the derivative of its value", "statement": "With the upper-trust-bound strategy the gradient handed to the optimizer is, in every component, the derivative of the handed constraint value (prediction plus three standard deviations).", "quantifier": "all dimensions, surrogates, points", "why_tests_cant": "Only wrong from the second component on.", "anchors": ["crates/ego/src/solver/solver_computations.rs: upper_trust_bound_cstr"]}
{"id": "C40", "title": "Correlation models are correlations", "statement": "For non-negative hyperparameters every correlation value lies in (0, 1], equals 1 at zero distance, and does not change when the sign of the differences changes, for the four kernels and any PLS weights.", "quantifier": "all kernels, dimensions, hyperparameters, weights, differences", "why_tests_cant": "Over a continuum and all dimensions.", "anchors": ["crates/gp/src/correlation_models.rs"]}
{"id": "C41", "title": "Correlation model Jacobians are derivatives", "statement": "The Jacobian returned for a kernel is the derivative of the kernel value with respect to each component of the difference (everywhere for squared exponential and Matern kernels, away from zero differences for absolute exponential) and value-and-Jacobian agrees with the separate functions.", "quantifier": "all kernels, dimensions, hyperparameters, weights, differences", "why_tests_cant": "Calculus in any dimension.", "anchors": ["crates/gp/src/correlation_models.rs: CorrelationModel::jacobian, valjac"]}
{"id": "C42", "title": "Regression models Jacobians are derivatives", "statement": "For constant, linear and quadratic means the number of basis functions is 1, 1+nx and 1+nx+nx(nx+1)/2 and the returned Jacobian is the derivative of each basis function with respect to each input component.", "quantifier": "all dimensions and points", "why_tests_cant": "Any dimension.", "anchors": ["crates/gp/src/mean_models.rs"]}
{"id": "C43", "title": "Normalization is invertible and standardizes", "statement": "Normalizing training data then denormalizing gives the data back, for any data set including constant columns; normalized columns have zero mean.", "quantifier": "all data sets", "why_tests_cant": "All data including degenerate ones.", "anchors": ["crates/gp/src/utils.rs: normalize, NormalizedData"]}
{"id": "C44", "title": "Distance table enumerates every pair exactly once", "statement": "The table of training differences of at least one observation has n(n-1)/2 rows, its index table lists each pair i<j exactly once and row r is the componentwise absolute difference of the pair of index r; pairwise differences to new points are at row i*ny+j.", "quantifier": "all sizes", "why_tests_cant": "All sizes.", "anchors": ["crates/gp/src/utils.rs: DiffMatrix, pairwise_differences, differences"]}
{"id": "C45", "title": "The GP interpolates its training data", "statement": "In exact arithmetic, for any correlation and regression model, if fitting succeeds, the prediction at a training input is the training output minus nugget times the corresponding weight: exactly the training output without nugget; the predicted variance there is zero without nugget.", "quantifier": "all data sets, kernels, hyperparameters", "why_tests_cant": "Linear algebra for all sizes.", "anchors": ["crates/gp/src/algorithm.rs: reduced_likelihood, predict, predict_var"]}
{"id": "C46", "title": "Predicted variances are non-negative and joint predictions agree with separate ones", "statement": "Predicted variances are never negative, and predicting value and variance together gives the same results as separately.", "quantifier": "all models and points", "why_tests_cant": "All models.", "anchors": ["crates/gp/src/algorithm.rs: predict, predict_var, predict_valvar"]}
{"id": "C47", "title": "GP prediction gradients are derivatives of the prediction", "statement": "The gradient returned for the prediction is the derivative of the prediction function, for every smooth kernel and every mean; the per-component derivative agrees with it.", "quantifier": "all models, dimensions and points", "why_tests_cant": "Calculus in any dimension.", "anchors": ["crates/gp/src/algorithm.rs: predict_gradients, predict_jacobian, predict_kth_derivatives"]}
{"id": "C48", "title": "Hyperparameter tuning only touches the active components", "statement": "With partial tuning only the active components of theta change, others keep the initial value; with fixed tuning theta is the given value; a scalar initial value or bound is broadcast to all components; optimization starts from and stays within the bounds declared for each component.", "quantifier": "all dimensions, active lists, bounds", "why_tests_cant": "All orders of active lists.", "anchors": ["crates/gp/src/algorithm.rs: fit", "crates/gp/src/parameters.rs", "crates/gp/src/optimization.rs: prepare_multistart"]}
{"id": "C49", "title": "Multistart points for hyperparameter optimization", "statement": "There are n_start + 1 starting points, the first being the initial guess, all the others inside the (log10) bounds.", "quantifier": "all bounds, n_start, random draws", "why_tests_cant": "All draws.", "anchors": ["crates/gp/src/optimization.rs: prepare_multistart"]}
{"id": "C50", "title": "Sparse GP variance equals the textbook formula and is bounded below by the noise", "statement": "For both sparse methods (FITC, VFE) the predicted variance is the posterior variance k** - k*m (Kmm^-1 - Sigma) km* + noise with Sigma = (Kmm + Kmn Lambda^-1 Knm)^-1, hence between the noise and the prior variance plus noise.", "quantifier": "all data, inducing points, kernels", "why_tests_cant": "Linear algebra for all sizes.", "anchors": ["crates/gp/src/sparse_algorithm.rs: fitc, vfe, predict_var"]}
{"id": "C51", "title": "Sparse GP reports its dimensions", "statement": "dims() returns the number of inputs and the number of outputs (1).", "quantifier": "all models", "why_tests_cant": "Model dependent.", "anchors": ["crates/gp/src/sparse_algorithm.rs: dims"]}
{"id": "C52", "title": "Sparse GP accepts per-component hyperparameter bounds", "statement": "Fitting a sparse GP with valid bounds (either one for all or one per component) never panics on the assembly of optimization bounds.", "quantifier": "all dimensions, all bounds lists, noise settings", "why_tests_cant": "Depends on lengths.", "anchors": ["crates/gp/src/sparse_algorithm.rs: fit"]}
{"id": "C53", "title": "Clusters partition the training data", "statement": "Splitting data by cluster labels assigns every sample to exactly one cluster, preserves the original order inside clusters and loses none when labels are in range.", "quantifier": "all data and labels", "why_tests_cant": "All label assignments.", "anchors": ["crates/moe/src/clustering.rs: sort_by_cluster"]}
{"id": "C54", "title": "Test/train extraction partitions the data", "statement": "Extracting every q-th sample for testing leaves train and test sets that are disjoint and cover all samples, and the test set has ceil(n/q) samples.", "quantifier": "all sizes and quantiles", "why_tests_cant": "All sizes.", "anchors": ["crates/moe/src/algorithm.rs: extract_part"]}
{"id": "C55", "title": "Cluster responsibilities are a probability distribution", "statement": "For every input point the responsibilities are non-negative and sum to one, so that the smooth prediction is a convex combination of expert predictions.", "quantifier": "all mixtures and points, however far from the training data", "why_tests_cant": "Fails only in an underflow branch far from data.", "anchors": ["crates/moe/src/gaussian_mixture.rs: predict_probas, compute_log_prob_resp", "crates/moe/src/algorithm.rs: predict_smooth"]}
{"id": "C56", "title": "Hard recombination uses the most responsible expert; one cluster is the same as a single expert", "statement": "With hard recombination the prediction (value, variance, gradients) at a point is that of the expert with the largest responsibility; with a single cluster smooth and hard recombination give the single expert's prediction.", "quantifier": "all mixtures and points", "why_tests_cant": "All mixtures.", "anchors": ["crates/moe/src/algorithm.rs: predict_hard, predict_smooth, predict_var_hard, predict_var_smooth"]}
{"id": "C57", "title": "Smooth mixture gradients are derivatives of the smooth prediction and variance", "statement": "With smooth recombination, the gradients of prediction and variance are the derivatives of the predicted value and variance for any number of clusters and any dimension.", "quantifier": "all numbers of clusters and dimensions", "why_tests_cant": "Tests use as many clusters as dimensions, the only case in which array shapes fit.", "anchors": ["crates/moe/src/algorithm.rs: predict_gradients_smooth, predict_var_gradients_smooth, predict_valvar_gradients_smooth"]}
{"id": "C58", "title": "Clusters too small for the mean model are rejected", "statement": "Training fails with the dedicated error when some cluster has fewer points than required by the regression model, and does not otherwise.", "quantifier": "all clusterings, dimensions, regression specs", "why_tests_cant": "The count compared depends on the number of columns.", "anchors": ["crates/moe/src/algorithm.rs: check_number_of_points"]}
{"id": "C59", "title": "Expert selection picks the smallest cross-validation error", "statement": "Among the allowed mean/correlation combinations the trained expert is the first one with the smallest error; combinations not allowed are never selected.", "quantifier": "all error tables and specifications", "why_tests_cant": "All orders of errors.", "anchors": ["crates/moe/src/algorithm.rs: find_best_expert"]}
{"id": "C60", "title": "Cluster-number specification predicates", "statement": "A specification of the number of clusters is exactly one of 'mono' (fixed to one) and 'multi' (fixed to more than one or automatic), as documented.", "quantifier": "all specifications", "why_tests_cant": "Covers every constructor.", "anchors": ["crates/moe/src/parameters.rs: NbClusters"]}
{"id": "C61", "title": "Quality metrics ranges", "statement": "The predictive coefficient Q2 is at most 1 and equals 1 exactly for perfect cross-validation predictions; empirical coverages lie in [0, 1] and are monotone in the requested confidence level.", "quantifier": "all data and predictions", "why_tests_cant": "All predictions.", "anchors": ["crates/moe/src/metrics.rs", "crates/gp/src/metrics.rs"]}
{"id": "C62", "title": "Constraint tolerances are accepted and used for all constraints", "statement": "When a user gives one tolerance per constraint (output constraints and function constraints), the configuration is accepted and the run uses one tolerance for each constraint without panic.", "quantifier": "all numbers of output constraints and function constraints", "why_tests_cant": "Only fails when both kinds are present.", "anchors": ["crates/ego/src/solver/egor_config.rs: check", "crates/ego/src/solver/egor_solver.rs: init", "crates/ego/src/utils/find_result.rs", "python/src/egor.rs: cstr_tol"]}
{"id": "C63", "title": "Python: get_result_index returns the best evaluation", "statement": "For any array of outputs with one objective and n_cstr constraints, get_result_index returns the index of the best evaluation.", "quantifier": "all numbers of samples and constraints", "why_tests_cant": "Depends on the relation between numbers of rows and columns.", "anchors": ["python/src/egor.rs: get_result_index, get_result"]}
{"id": "C64", "title": "Specification strings round trip", "statement": "Converting mean and correlation models to their string form and parsing it back gives the same model; other strings are rejected.", "quantifier": "all models, all strings", "why_tests_cant": "All strings.", "anchors": ["crates/gp/src/mean_models.rs", "crates/gp/src/correlation_models.rs"]}
{"id": "C65", "title": "Infill optimization reports the criterion at the point it returns", "statement": "For any groups of active variables and any sequence of successes and failures of the internal optimizers, the infill optimization returns either the current best point with its objective (all attempts failed) or a point together with the value of the criterion at this point; the point returned has the dimension of the best point, is within the limits if the best point is, and differs from it only at variables of the groups.", "quantifier": "all group lists, optimizers, criteria, best points", "why_tests_cant": "Ranges over all interleavings of failed and successful attempts and all groups.", "anchors": ["crates/ego/src/solver/solver_infill_optim.rs: optimize_infill_criterion", "crates/ego/src/solver/coego.rs"]}
{"id": "C66", "title": "Constraints are evaluated at full points during infill optimization", "statement": "When the internal optimizer works on a group of variables, surrogate and function constraints are evaluated at the full point made of the values of the group and of the best point for the other variables.", "quantifier": "all groups, points, constraints", "why_tests_cant": "All groups and constraint functions.", "anchors": ["crates/ego/src/solver/solver_infill_optim.rs: optimize_infill_criterion", "crates/ego/src/solver/solver_impl.rs: select_next_points"]}
{"id": "C67", "title": "Gradient of a scaled constraint is the gradient of its scaled value", "statement": "Value and gradient of a constraint given to the internal optimizer are scaled by the same factor.", "quantifier": "all constraints, scales, points", "why_tests_cant": "All constraint functions and scales.", "anchors": ["crates/ego/src/solver/solver_impl.rs: select_next_points", "crates/ego/src/solver/solver_computations.rs: mean_cstr"]}
{"id": "C68", "title": "Multistart gives exactly the requested starts, within bounds", "statement": "For a request of n >= 1 starts, the multistart of the global infill optimization returns exactly n points, all within the bounds when the data are, beginning with the selected midpoints and completed by a Latin hypercube.", "quantifier": "all data sets, bounds, requests, random draws", "why_tests_cant": "Depends on random draws and on how many midpoints survive.", "anchors": ["crates/ego/src/solver/solver_computations.rs: MiddlePickerMultiStarter::multistart"]}
{"id": "C69", "title": "A local TREGO step proposes a point of the local area", "statement": "The point proposed by a local step of TREGO is in the intersection of the trust region and of the design space.", "quantifier": "all optimizers honouring the bounds they are given", "why_tests_cant": "Depends on the optimizer path.", "anchors": ["crates/ego/src/solver/trego.rs: trego_step", "crates/ego/src/solver/solver_infill_optim.rs"]}
{"id": "C70", "title": "Automatic reclustering every ten added points", "statement": "With automatic clustering, ten added points never go without a new determination of the clusters (documented in the configuration).", "quantifier": "all numbers of points per iteration, all runs", "why_tests_cant": "All schedules of additions.", "anchors": ["crates/ego/src/solver/solver_impl.rs: have_to_recluster", "crates/ego/src/solver/egor_config.rs:24-30"]}
{"id": "C71", "title": "LogEI is the logarithm of the expected improvement", "statement": "Wherever the variance is not negligible, the LogEI criterion is the natural logarithm of the expected improvement (up to 4e-12 in the far tail), and the returned gradient is its derivative, except at the value where the two formulas of the far tail meet (normalized improvement of -10^6).", "quantifier": "all surrogates, points, current minima (exact arithmetic)", "why_tests_cant": "Three branches with asymptotic expansions valid on unbounded ranges; tests sample a few arguments.", "anchors": ["crates/ego/src/criteria/ei.rs: LogExpectedImprovement", "crates/ego/src/utils/logei_helper.rs"]}
{"id": "C72", "title": "Probability of feasibility of several constraints", "statement": "The probability of feasibility of all the constraints is the product of the probabilities of each of them, lies in [0, 1], its logarithm is the sum of logarithms, and the returned gradients are the derivatives.", "quantifier": "all numbers of constraints, surrogates, points, tolerances", "why_tests_cant": "Product rule over an arbitrary number of constraints, arbitrary tolerances.", "anchors": ["crates/ego/src/utils/cstr_pof.rs: pofs, logpofs, pofs_grad, logpofs_grad"]}
{"id": "C73", "title": "The gradient of the infill objective is the derivative of the infill objective", "statement": "The objective given to the internal optimizer (criterion, with or without surrogate constraints, scaled, with any weight of the standard deviation) has for derivative the gradient given with it.", "quantifier": "all criteria, scales, weights, constraints, points", "why_tests_cant": "The weight differs from 1 only with the portfolio option; tests check criteria, not the objective with its weight.", "anchors": ["crates/ego/src/solver/solver_computations.rs: eval_infill_obj, eval_grad_infill_obj, eval_infill_obj_with_cstrs, eval_grad_infill_obj_with_cstrs"]}
{"id": "C74", "title": "Scaling factors are positive", "statement": "The scaling factors of the infill objective and of the surrogate constraints are positive, and the scaled infill objective lies in [-1, 1] on the scaling sample.", "quantifier": "all samples and surrogates", "why_tests_cant": "Degenerate samples (all predictions zero) do not occur in tests.", "anchors": ["crates/ego/src/solver/solver_computations.rs: compute_infill_obj_scale", "crates/ego/src/utils/misc.rs: compute_cstr_scales"]}
{"id": "C75", "title": "LogEI is a number for every finite argument", "statement": "For every finite normalized improvement u, the LogEI helper returns a number (never NaN).", "quantifier": "all finite floating point values of u", "why_tests_cant": "The range where it fails is bounded away from the values used in the tests.", "anchors": ["crates/ego/src/utils/logei_helper.rs: log_ei_helper, erfcx"]}
{"id": "C76", "title": "GP variance gradients are derivatives of the predicted variance", "statement": "After a successful fit the gradient of the predicted variance is defined at every point, and where the variance is positive it is the derivative of the predicted variance along each component (default build).", "quantifier": "all data sets, kernels, means, hyperparameters, points", "why_tests_cant": "Matrix calculus for all sizes; tests compare with finite differences at a few points.", "anchors": ["crates/gp/src/algorithm.rs: predict_var_gradients_single (non blas)"]}
{"id": "C78", "title": "The covariance used for sampling trajectories", "statement": "The covariance used to sample trajectories is the universal kriging covariance, symmetric, with the predicted variances on its diagonal; trajectories are the predictions plus a factor of this covariance applied to standard normal draws (exactly for Cholesky, up to 1e-9 for eigenvalues).", "quantifier": "all fitted models and sets of points", "why_tests_cant": "Statistical outputs; tests only look at shapes and plots.", "anchors": ["crates/gp/src/algorithm.rs: _compute_covariance, sample"]}
{"id": "C79", "title": "The reduced likelihood is the concentrated Gaussian likelihood", "statement": "The likelihood maximized for hyperparameters is, up to a positive scale and a constant, the maximum over trend coefficients and process variance of the Gaussian log-likelihood of the normalized outputs, attained at the coefficients and variance kept by the model.", "quantifier": "all data sets, kernels, means, hyperparameters", "why_tests_cant": "A maximum over a continuum.", "anchors": ["crates/gp/src/algorithm.rs: reduced_likelihood"]}
{"id": "C80", "title": "Automatic number of clusters is the possible one with the smallest error", "statement": "The automatic search returns a number of clusters between one and the maximum; it is a number for which training and prediction were possible on every fold, with the smallest median cross validation error over the tried numbers and both recombinations; a number of clusters which cannot be trained is skipped; the result does not depend on the unit of the outputs.", "quantifier": "all cross validation results (predictions, failures), all maxima", "why_tests_cant": "Tests run the search on a few smooth functions where one cluster always works; the failing paths (training failure, NaN predictions, null outputs) need particular data.", "anchors": ["crates/moe/src/clustering.rs: find_best_number_of_clusters, median"]}
{"id": "C81", "title": "Heaviside factor has the smallest validation error", "statement": "For smooth recombination of several clusters the heaviside factor is the candidate from 0.1 to 2.1 by steps of 0.1 giving the smallest validation error (1 for hard recombination or a single cluster, or when all the errors are negligible).", "quantifier": "all error functions", "why_tests_cant": "Tests check the prediction quality of a few mixtures, not the optimality among candidates nor the candidates themselves.", "anchors": ["crates/moe/src/algorithm.rs: optimize_heaviside_factor"]}
{"id": "C82", "title": "Cluster densities are normal densities", "statement": "A Gaussian mixture given weights, means and symmetric positive definite covariances can be built, and pdfs returns at every point the densities of the normal laws of the clusters, with covariances multiplied by the heaviside factor.", "quantifier": "all dimensions, numbers of clusters, covariances, points", "why_tests_cant": "Linear algebra for all sizes and all positive definite matrices.", "anchors": ["crates/moe/src/gaussian_mixture.rs: new, heaviside_factor, pdfs, compute_log_gaussian_prob, compute_log_det"]}
{"id": "C83", "title": "The heaviside factor reported by the recombination is the one in use", "statement": "When recombination() of a mixture of experts is Smooth(Some(f)), its responsibilities are computed with covariances multiplied by f, after training, set_recombination and set_gmx.", "quantifier": "all mixtures, factors, ways to set them", "why_tests_cant": "Predictions do not fail; tests do not compare two factors set on the same mixture.", "anchors": ["crates/moe/src/algorithm.rs: train, set_recombination, set_gmx", "crates/moe/src/gaussian_mixture.rs: heaviside_factor"]}
{"id": "C84", "title": "The integrated absolute error measures the coverage", "statement": "The IAE score is the mean over the confidence levels of the distance between the empirical coverage (as given in the plot data) and the requested one; it is close to zero when they agree.", "quantifier": "all data, models, numbers of folds", "why_tests_cant": "Tests only compare with a previously observed value.", "anchors": ["crates/moe/src/metrics.rs: iae_alpha_k_score, iae_alpha, empirical_coverage"]}
{"id": "C85", "title": "Python domain specifications mean what is documented", "statement": "A list of variable specifications (FLOAT, INT, ORD, ENUM) or of limits is translated to variables whose values are exactly the documented ones: reals between the limits, integers between the limits, listed values, as many categories as declared.", "quantifier": "all specifications, all limits", "why_tests_cant": "All limits, including fractional or negative ones.", "anchors": ["python/src/domain.rs: parse, xtypes_from_xspecs, xtypes_from_floats, xtypes_from_ndarray", "python/src/egor.rs: documentation of xspecs"]}
{"id": "C86", "title": "Python GP options have their documented effect", "statement": "The options of GpConfig (models, number of clusters, recombination, initial theta, bounds, number of starts, maximum number of evaluations) given in Python are those used by Egor and by GpMix, with the documented defaults and the documented meaning of negative values.", "quantifier": "all option values", "why_tests_cant": "Combinations of options and classes.", "anchors": ["python/src/gp_config.rs", "python/src/egor.rs: apply_config", "python/src/gp_mix.rs: fit"]}
{"id": "C87", "title": "Maximum number of likelihood evaluations", "statement": "One hyperparameter optimization uses at most max_eval evaluations of the likelihood; a max_eval below the minimum is replaced by the default maximum, and no value makes the fit panic.", "quantifier": "all values of max_eval, all dimensions", "why_tests_cant": "All values.", "anchors": ["crates/gp/src/parameters.rs: max_eval", "crates/gp/src/algorithm.rs: fit"]}
{"id": "C88", "title": "Egor uses the hyperparameter tuning of its configuration", "statement": "The optimizer tunes the hyperparameters of its surrogates as its configuration says (fixed, initial value, bounds); when no bounds are given it computes bounds from the dimension and the kernels, which are a non empty range of positive numbers.", "quantifier": "all dimensions, kernels, tunings", "why_tests_cant": "All dimensions and tunings.", "anchors": ["crates/ego/src/utils/bounds.rs", "crates/ego/src/solver/solver_impl.rs: make_clustered_surrogate", "crates/ego/src/solver/coego.rs: set_partial_theta_tuning"]}
{"id": "C89", "title": "Tuned hyperparameters are at least as likely as the initial guess", "statement": "If the initial hyperparameters are within their bounds, the likelihood of the fitted hyperparameters is at least the likelihood of the initial ones.", "quantifier": "all likelihood functions, optimizers that never return a point worse than their start, random draws, distributions of the starts among threads", "why_tests_cant": "All functions and schedules.", "anchors": ["crates/gp/src/algorithm.rs: fit", "crates/gp/src/optimization.rs"]}
{"id": "C90", "title": "Correlation models are covariance functions", "statement": "Each of the four correlation models, with non negative hyperparameters and any weights, gives symmetric positive semidefinite correlation matrices for any set of points; hence, with a positive nugget, the Cholesky factorization in the fit of a GP always succeeds.", "quantifier": "all kernels, dimensions, weights, non negative hyperparameters, finite sets of points (repeated or not)", "why_tests_cant": "Positive semidefiniteness quantifies over all sets of points of all sizes.", "anchors": ["crates/gp/src/correlation_models.rs", "crates/gp/src/algorithm.rs: reduced_likelihood"]}
{"id": "C91", "title": "GP variances and covariances are valid", "statement": "For a fitted GP the covariance matrix returned at any points is positive semidefinite, its diagonal is what predict_var returns, which is exactly the universal kriging variance (the clamping to zero is never active), and sampled trajectories have that covariance up to 1e-9.", "quantifier": "all data, kernels, trends, non negative hyperparameters, sets of points", "why_tests_cant": "All data and all sets of points.", "anchors": ["crates/gp/src/algorithm.rs: predict_var, _compute_covariance, sample"]}
{"id": "C92", "title": "Likelihood of sparse GPs", "statement": "The likelihood maximized by the fit of a sparse GP is the log-density (without constant) of the outputs under the covariance Qnn + Lambda for FITC, and the variational lower bound (log-density under Qnn + noise minus half the trace of Knn - Qnn over the noise) for VFE.", "quantifier": "all data, inducing points, kernels, positive parameters", "why_tests_cant": "Matrix identities for all sizes.", "anchors": ["crates/gp/src/sparse_algorithm.rs: fitc, vfe"]}
{"id": "C93", "title": "Trajectories of sparse GPs", "statement": "Trajectories sampled from a sparse GP follow its posterior distribution: at every point their variance is the predicted variance (without noise).", "quantifier": "all fitted models, points", "why_tests_cant": "Equality of distributions for all models.", "anchors": ["crates/gp/src/sparse_algorithm.rs: _sample"]}
{"id": "C94", "title": "Inducing points", "statement": "Located inducing points are used unchanged; randomized inducing points are distinct rows of the training inputs, as many as asked or all of them if there are fewer.", "quantifier": "all inputs, numbers of inducing points, shuffles", "why_tests_cant": "All random outcomes.", "anchors": ["crates/gp/src/sparse_algorithm.rs: make_inducings"]}
{"id": "C95", "title": "Parameters of sparse GPs within their bounds", "statement": "After the fit of a sparse GP theta is within its bounds (equal to its value if fixed), the process variance between 1e-12 and nine times the variance of the outputs, the noise equal to its value if fixed and within its bounds otherwise; the parameters are at least as likely as the initial ones.", "quantifier": "all likelihood functions, minimizers meeting their contract, random draws, schedules", "why_tests_cant": "All functions and schedules.", "anchors": ["crates/gp/src/sparse_algorithm.rs: fit"]}
{"id": "C96", "title": "Hyperparameters are reused between iterations", "statement": "When hyperparameters are not optimized at an iteration, the surrogate uses the hyperparameters of the surrogate of the previous iteration.", "quantifier": "all sequences of iterations, configurations, trainings", "why_tests_cant": "Unbounded sequences of iterations and all configurations.", "anchors": ["crates/ego/src/solver/solver_impl.rs: make_clustered_surrogate"]}
{"id": "C97", "title": "Cooperative tuning improves the likelihood", "statement": "Tuning the hyperparameters group after group gives hyperparameters at least as likely as the initial ones, for the surrogate returned and the values kept; components in no group are unchanged.", "quantifier": "all likelihood functions, groups, minimizers meeting their contract", "why_tests_cant": "All functions and groups.", "anchors": ["crates/ego/src/solver/solver_impl.rs: make_clustered_surrogate", "crates/ego/src/solver/coego.rs: set_partial_theta_tuning"]}
{"id": "C98", "title": "A run stops when it should", "statement": "A run ends exactly when max_iters iterations were done, when no point can be added, or when a feasible point with an objective at most the target was found; it never exceeds the budget and does not end before.", "quantifier": "all problems, configurations, executions", "why_tests_cant": "Unbounded executions, all functions.", "anchors": ["crates/ego/src/egor.rs: run", "crates/ego/src/solver/egor_solver.rs: next_iter", "crates/ego/src/solver/egor_state.rs"]}
{"id": "C99", "title": "The result reports an evaluated optimum", "statement": "The reported outputs are the values of the objective function at the reported inputs, the reported optimum is one of the reported rows and the best one, and all reported inputs are admissible points of the declared space.", "quantifier": "all problems, configurations, executions", "why_tests_cant": "Unbounded executions, all functions and spaces.", "anchors": ["crates/ego/src/egor.rs: run"]}
{"id": "C100", "title": "Suggestions are new admissible points", "statement": "suggest returns q_points admissible points, distinct from each other and from the data, without panic.", "quantifier": "all data, spaces, proposals of the infill optimizer", "why_tests_cant": "All data and spaces.", "anchors": ["crates/ego/src/egor_service.rs: suggest", "crates/ego/src/solver/solver_impl.rs: suggest"]}
{"id": "C101", "title": "Mixed-integer samples are admissible", "statement": "A mixed-integer sampling gives as many points as the continuous sampling, all admissible and within the limits, the nearest ones of the continuous sample; in folded space categories are given by their index.", "quantifier": "all lists of variables, samples", "why_tests_cant": "All spaces and samples.", "anchors": ["crates/ego/src/gpmix/mixint.rs: MixintSampling::sample"]}
{"id": "C102", "title": "Mixed-integer surrogates predict at admissible points", "statement": "A mixed-integer surrogate predicts at the nearest admissible point, whatever the prediction method, goes through the training data when the continuous surrogate does, and works in folded space as in relaxed space.", "quantifier": "all lists of variables, data, continuous surrogates", "why_tests_cant": "All spaces, data and surrogates.", "anchors": ["crates/ego/src/gpmix/mixint.rs: MixintGpMixture"]}
{"id": "C103", "title": "An iteration adds exactly the new proposals", "statement": "An iteration adds, in order, the proposals of its first attempt with new points that are neither too close to stored points nor to points kept before, evaluates the objective there and nowhere else, and ends the run only when three attempts have no new point. A TREGO local iteration adds the local point if it is new.", "quantifier": "all executions, all proposals", "why_tests_cant": "All proposals and executions.", "anchors": ["crates/ego/src/solver/solver_impl.rs: ego_step, select_next_points", "crates/ego/src/utils/misc.rs: update_data", "crates/ego/src/solver/trego.rs: trego_step"]}
{"id": "C77", "title": "Both builds predict the same variance", "statement": "The blas build of Gaussian processes predicts the same variances, variance gradients and covariances as the default build.", "quantifier": "all fitted Gaussian processes, all points", "why_tests_cant": "All training data, kernels and points; a test suite runs one build at a time and compares to recorded values with tolerances.", "anchors": ["crates/gp/src/algorithm.rs: _compute_rt_u (blas), _compute_covariance (blas), predict_var_gradients_single (blas)"]}
{"id": "C104", "title": "Predictions follow the unit and origin of the outputs", "statement": "Training on outputs a*y+c gives the predictions a*p+c, the variances a^2*v and the same likelihood, hence the same hyperparameters; predictions are linear in the outputs, and whether training succeeds does not depend on the outputs.", "quantifier": "all training sets, kernels, means, hyperparameters, factors and points", "why_tests_cant": "A relation between two trainings for every data set and every factor; tests compare one training to recorded values.", "anchors": ["crates/gp/src/algorithm.rs: fit, reduced_likelihood, predict, predict_var", "crates/gp/src/utils.rs: NormalizedData::new"]}
{"id": "C105", "title": "Predictions do not depend on the unit of the inputs", "statement": "Training on inputs s_j*x_j+t_j and predicting at the changed points gives the same values, variances, covariances and likelihood, and gradients divided by s_j; training succeeds in the same cases.", "quantifier": "all training sets, kernels, means, hyperparameters, positive factors (one for constant components), origins and points", "why_tests_cant": "A relation between two trainings for every data set and every change of units.", "anchors": ["crates/gp/src/algorithm.rs: fit, predict, predict_var, predict_gradients, predict_var_gradients", "crates/gp/src/utils.rs: NormalizedData::new"]}
{"id": "C106", "title": "Predictions do not depend on the order of the training points", "statement": "Training on the same points in another order gives the same likelihood, the same predictions and the same variances.", "quantifier": "all training sets, kernels, means, hyperparameters, orders and points", "why_tests_cant": "All orders of all data sets; floating-point differences hide in tolerances of tests.", "anchors": ["crates/gp/src/algorithm.rs: fit, reduced_likelihood, predict, predict_var", "crates/gp/src/utils.rs: DistanceMatrix::new"]}
{"id": "C107", "title": "Prediction is the best linear unbiased prediction", "statement": "The prediction is a combination of the outputs whose weights depend only on the inputs and which reproduces every trend of the mean model; the predicted variance is the variance of the error of that combination, and no other combination with this property has a smaller one. Outputs that are a trend are predicted exactly everywhere with variance zero.", "quantifier": "all training sets, kernels, means, hyperparameters, points and competing weights", "why_tests_cant": "Optimality over all weights, for all data sets.", "anchors": ["crates/gp/src/algorithm.rs: reduced_likelihood, predict, predict_var", "crates/gp/src/mean_models.rs: value"]}
{"id": "C108", "title": "A wrong number of hyperparameters is reported as an error", "statement": "Training with a reduced dimension (kpls_dim) of zero or larger than the number of inputs, or with a number of initial hyperparameters that is neither one nor the number of (reduced) inputs, returns an error and does not panic; every other choice is accepted by the checks.", "quantifier": "all parameters, numbers of inputs and initial hyperparameters", "why_tests_cant": "All combinations of three sizes and tunings; tests try a few.", "anchors": ["crates/gp/src/parameters.rs: check_ref", "crates/gp/src/algorithm.rs: fit"]}
{"id": "C109", "title": "All optimizers of the infill criterion see the same constraints, those of the user", "statement": "Whatever the library and algorithm used to optimize the infill criterion (cobyla, slsqp, nlopt), the points it takes as feasible are the points where all the predicted constraints and all the function constraints are within the tolerances of the user; the scaling of constraints does not change this set, and an optimization which fails is not taken for a success.", "quantifier": "all constraints, scales, tolerances, groups of active variables, points and libraries", "why_tests_cant": "The set of feasible points is infinite, and tests check only the points found for a few problems, with one library per build.", "anchors": ["crates/ego/src/optimizers/optimizer.rs: Optimizer", "crates/ego/src/solver/solver_infill_optim.rs: optimize_infill_criterion", "crates/ego/src/solver/solver_computations.rs: compute_scaling", "crates/ego/src/utils/misc.rs: compute_cstr_scales"]}
{"id": "C110", "title": "Gradients of sparse Gaussian processes are derivatives of their predictions", "statement": "For a trained sparse Gaussian process, predict_gradients and predict_var_gradients return the derivatives of predict and predict_var with respect to each component of the point, up to an error bounded by the square of the finite difference step times an explicit constant of the model.", "quantifier": "all trained sparse models, kernels, hyperparameters, inducing points, points, components and steps", "why_tests_cant": "Tests compare gradients at a few points of a few models; the bound on the error is about all points and models.", "anchors": ["crates/gp/src/sparse_algorithm.rs: SparseGaussianProcess::predict_gradients", "crates/gp/src/sparse_algorithm.rs: SparseGaussianProcess::predict_var_gradients"]}
{"id": "C111", "title": "A seed makes results reproducible", "statement": "When a seed is given, two trainings of a mixture (GpMix, SparseGpMix) on the same data, and two runs of the optimizer (Egor) on the same problem, give the same results: same clustering, hyperparameters and inducing points, same evaluated points after any number of iterations, whatever the entropy of the system and the scheduling of the restarts.", "quantifier": "all seeds, data, options, generators, entropies, splits of the restarts among threads, numbers of iterations", "why_tests_cant": "A test compares two executions for one seed and one configuration; a dependence on the entropy of the system may show only for some seeds and options, and only sometimes.", "anchors": ["crates/gp/src/optimization.rs: prepare_multistart", "crates/moe/src/algorithm.rs: GpMixtureValidParams::train, find_best_expert", "crates/gp/src/sparse_algorithm.rs: fit, make_inducings", "crates/ego/src/gpmix/mod.rs: new_with_xtypes", "crates/ego/src/solver/egor_solver.rs: init", "python/src/sparse_gp_mix.rs", "python/src/gp_mix.rs"]}
{"id": "C112", "title": "Predictions at several points are the predictions at each point", "statement": "For fitted GPs, sparse GPs and mixtures (hard or smooth recombination), predict, predict_var, predict_gradients and predict_var_gradients called with several points give at each row what they give for this point alone, whatever the other points, their number and their order, and fail only if one of the points alone fails; predict_valvar and predict_valvar_gradients give the results of the two separate functions.", "quantifier": "all fitted models and mixtures of any number of experts, all sets of points (including the empty set)", "why_tests_cant": "Tests compare a few batches; an index or broadcasting mistake in the matrix code may show only when the numbers of points, training points, clusters and dimensions differ or coincide, and rows computed together must not influence one another for every batch.", "anchors": ["crates/gp/src/algorithm.rs: predict, predict_var, predict_valvar, _compute_rt_u, _compute_correlation, predict_gradients, predict_var_gradients, predict_valvar_gradients", "crates/gp/src/sparse_algorithm.rs: compute_k, predict, predict_var, predict_gradients, predict_var_gradients", "crates/moe/src/surrogates.rs: GpSurrogate, GpSurrogateExt", "crates/moe/src/algorithm.rs: predict_smooth, predict_var_smooth, predict_valvar_smooth, predict_valvar_gradients_smooth, predict_hard, predict_valvar_hard, predict_valvar_gradients_hard", "crates/moe/src/gaussian_mixture.rs: predict_probas, predict"]}
{"id": "C113", "title": "Predictions of GPs do not depend on the order, direction and units of the input variables", "statement": "Training a GP on inputs whose variables are given in another order, in other units (positive or negative factors) and from another origin, with the hyperparameters in that order, gives the same likelihood, and at each point given in the new variables the same prediction, variance and covariances; gradients are those of the change of variables. Training succeeds in one case if and only if it does in the other.", "quantifier": "all kernels, means, hyperparameters, weights, training sets, permutations, non zero factors, origins", "why_tests_cant": "Tests use a few data sets in fixed units; the claim is about all changes of variables.", "anchors": ["crates/gp/src/algorithm.rs: fit, predict, predict_var, predict_gradients", "crates/gp/src/utils.rs: NormalizedData", "crates/gp/src/correlation_models.rs", "crates/gp/src/mean_models.rs"]}
{"id": "C114", "title": "Predictions of sparse GPs do not depend on orders, units and origins", "statement": "Predictions, variances and likelihood of a sparse GP (FITC or VFE) for given hyperparameters do not depend on the order of the training points and of the inducing points; they are the same when variables are reordered, reversed, shifted or rescaled with the hyperparameters adapted; they follow a change of unit or of origin of the outputs.", "quantifier": "all kernels, methods, hyperparameters, training sets, inducing points, permutations, factors, origins", "why_tests_cant": "The claim is about all orders and all changes of units.", "anchors": ["crates/gp/src/sparse_algorithm.rs: fitc, vfe, compute_k, predict, predict_var", "crates/gp/src/sparse_parameters.rs: nugget"]}
{"id": "C115", "title": "A sparse GP with the training points as inducing points is the GP with noise", "statement": "When the inducing points are the training points and the nugget is zero, predictions, variances and likelihood of sparse GPs are those of the Gaussian process with zero mean and noise: k^T (K + noise I)^-1 y, s - k^T (K + noise I)^-1 k (at least the threshold) plus the noise, and the log-density of the outputs.", "quantifier": "all kernels, both methods, hyperparameters, training sets for which training succeeds, points", "why_tests_cant": "An identity between two algorithms for all data; tests compare a few numbers with tolerances.", "anchors": ["crates/gp/src/sparse_algorithm.rs: fitc, vfe, predict, predict_var"]}
{"id": "C116", "title": "Predictions far from the data and at the data", "statement": "Far from the training points predictions of a GP approach a trend of its mean model; with a constant mean, variances approach a limit between the process variance and (2 + nugget) times it, and are at most process variance times (2 + nugget - 2 correlation with any training point); with a linear or quadratic mean they exceed every bound unless the outputs are those of a trend; at training points the variance is at most process variance times nugget. For sparse GPs predictions approach zero and variances the prior variance plus noise.", "quantifier": "all kernels, means, hyperparameters, weights, training sets, points beyond any distance along variables on which correlations depend", "why_tests_cant": "Statements about limits and about all points.", "anchors": ["crates/gp/src/algorithm.rs: predict, predict_var", "crates/gp/src/sparse_algorithm.rs: predict, predict_var", "crates/gp/src/correlation_models.rs"]}
{"id": "C117", "title": "A GP can be trained if and only if its inputs determine the trend", "statement": "With a positive nugget and non negative hyperparameters, training on two or more points succeeds if and only if no trend of the mean model other than zero vanishes at all training inputs, whatever the kernel, the hyperparameters and the outputs. Hence at least 1, d + 1 or (d + 1)(d + 2) / 2 points are needed, a constant mean never fails, and a linear mean fails exactly when the inputs lie in a hyperplane.", "quantifier": "all kernels, means, dimensions, hyperparameters, inputs (repeated or not) and outputs", "why_tests_cant": "Success for all inputs in general position, failure for all the others.", "anchors": ["crates/gp/src/algorithm.rs: fit, reduced_likelihood", "crates/gp/src/mean_models.rs"]}
{"id": "C118", "title": "Without nugget a GP can be trained if and only if inputs differ and determine the trend", "statement": "With a zero nugget and non negative hyperparameters, training on two or more points succeeds if and only if no trend other than zero vanishes at all training inputs and any two training inputs differ in some variable on which correlations depend (non null hyperparameter and weight). Hence a repeated input is refused, and distinct inputs with a constant mean are accepted when each variable counts: the model then goes through the outputs with zero variance at the training inputs.", "quantifier": "all kernels, means, dimensions, hyperparameters, weights, inputs and outputs", "why_tests_cant": "Tests use a few data sets with a nugget; that the four kernels give definite matrices for all sets of distinct points is a theorem on functions.", "anchors": ["crates/gp/src/algorithm.rs: fit, reduced_likelihood", "crates/gp/src/correlation_models.rs", "crates/gp/src/parameters.rs: nugget"]}
{"id": "C119", "title": "Where the predicted variance of a GP is zero", "statement": "When each variable counts, the variance predicted at a point is zero if and only if the training outputs are exactly those of a trend of the mean model, or the nugget is zero and the point is a training input. Everywhere else the variance is positive: with the default nugget and outputs that are not those of a trend it is positive at all points, training inputs included.", "quantifier": "all kernels, means, hyperparameters, weights, training sets for which training succeeds, points", "why_tests_cant": "Strict positivity at all points cannot be sampled; infill criteria divide by this variance.", "anchors": ["crates/gp/src/algorithm.rs: predict_var", "crates/gp/src/correlation_models.rs", "crates/ego/src/criteria/ei.rs"]}
{"id": "C120", "title": "A trained mixture has one expert per cluster, trained on the points of the cluster", "statement": "Training a mixture of experts ends, after two trainings at most. The mixture returned keeps the training data and has exactly one expert per cluster of its own Gaussian mixture, trained on the training points which that mixture assigns to the cluster, with models allowed by the specifications and the hyperparameter tuning of the cluster; each training point is used by one expert, clusters have three points or more when there are several, and with hard recombination the mixture goes through the training data if its experts go through theirs.", "quantifier": "all data, numbers of clusters (given or automatic), recombinations, specifications, results of the fits", "why_tests_cant": "Tests train a few mixtures and look at predictions; the claim is about which data reach which expert for all clusterings, including the second training.", "anchors": ["crates/moe/src/algorithm.rs: train, train_on_clusters, find_best_expert, predict_hard", "crates/moe/src/clustering.rs: sort_by_cluster"]}
{"id": "C121", "title": "The recombination of a trained mixture is the one asked, with an optimized factor", "statement": "A trained mixture has the recombination asked. When a smooth recombination is asked without factor, the factor is the one giving the best predictions at validation points which the experts have not been trained on, and the mixture returned uses that factor and all the data; this holds for given and for automatic numbers of clusters.", "quantifier": "all data, numbers of clusters, recombinations, results of the fits", "why_tests_cant": "Predictions of a mixture with another factor are plausible; tests do not know which points an expert has seen.", "anchors": ["crates/moe/src/algorithm.rs: train, train_on_clusters, optimize_heaviside_factor, extract_part", "python/src/gp_mix.rs: documentation of recombination"]}
{"id": "C122", "title": "Each proposal uses surrogates trained on all that is known", "statement": "Each point proposed at an iteration, or by suggest, is chosen with one surrogate per output, output k being trained on column k of the outputs of all the evaluated points followed by the points already proposed in the same batch with their virtual outputs. The best point which the criterion refers to is an evaluated point. Trainings start from the clusterings and hyperparameters left by the previous training; clusters are made at the first point of the first iteration and when reclustering is due, hyperparameters are optimized when the index of the point is a multiple of q_optmod. A batch has the number of points asked unless a prediction fails. Members of a portfolio are made from the evaluated points only. Local steps of TREGO use surrogates trained on all evaluated points.", "quantifier": "all data, numbers of points per batch, numbers of outputs, iterations, results of training, optimizers and predictions", "why_tests_cant": "Tests look at the best point found; a surrogate trained without the last points, or on another column, still gives plausible proposals.", "anchors": ["crates/ego/src/solver/solver_impl.rs: select_next_points, refresh_surrogates, suggest"]}
{"id": "C123", "title": "A failed prediction does not stop a run", "statement": "When the surrogates cannot predict outputs at a proposed point, that point is ignored and the iteration goes on with the other proposals, or ends without new point.", "quantifier": "all runs and failures of predictions", "why_tests_cant": "Predictions do not fail in tests; the comment in the code says the failure is ignored.", "anchors": ["crates/ego/src/solver/solver_impl.rs: select_next_points, ego_step", "crates/ego/src/utils/portfolio.rs: select_from_portfolio"]}
{"id": "C124", "title": "The files of the output directory follow the run", "statement": "When an output directory is given the run gives the same result as without. After a run of n > 0 iterations egor_history.npy has n rows, the row of an iteration being the best point at the end of that iteration; rows never get worse, and the last one is the result of the run. egor_doe.npy has one row per point of the final data, in the same order, with inputs, outputs and function constraints. A run without iteration leaves the files as they were.", "quantifier": "all configurations, problems, initial designs, proposals, interruptions and previous files", "why_tests_cant": "Tests check that files exist and their shape for one run; a row late by one iteration, or a design which lacks the last batch, goes unnoticed.", "anchors": ["crates/ego/src/egor.rs: OptimizationObserver::observe_iter, Egor::run", "crates/ego/src/solver/egor_state.rs: update"]}
{"id": "C125", "title": "The history file is as documented", "statement": "egor_history.npy lists the best (x, y) with respect to the iteration number, as an array with one row per iteration and nx + ny columns: inputs of the best point then its outputs.", "quantifier": "all runs, restarted or not, with or without discrete variables", "why_tests_cant": "No test reads the columns of this file; a run of one iteration cannot show what is lost at a restart.", "anchors": ["crates/ego/src/lib.rs: documentation of outdir", "crates/ego/src/egor.rs: OptimizationObserver::observe_iter"]}
{"id": "C126", "title": "An initial design given by the user is used as given", "statement": "A design given with nx columns is evaluated at its rows, in order, before anything else. A design with nx + ny columns is used without evaluation, its first nx columns being the inputs and the others the outputs. The data and the result of the run start with these rows. Without design n_doe points are sampled, or a number depending on the dimension when n_doe is 0.", "quantifier": "all spaces of continuous, integer, ordered and categorical variables, designs, problems and runs", "why_tests_cant": "Tests give designs for continuous or integer variables only; the split of the columns depends on the relaxed dimension of all variables.", "anchors": ["crates/ego/src/solver/egor_solver.rs: init", "crates/ego/src/solver/egor_config.rs: doe, n_doe", "python/src/egor.rs: doe"]}
{"id": "C127", "title": "The Python sampling functions return points of the domain", "statement": "sampling(method, xspecs, n_samples, seed) returns n_samples rows with one component per variable, each of them an admissible point of the domain: within its limits, integer, one of the ordered values or the index of a category. The Latin hypercube methods give, for continuous variables, exactly one point in each of the n_samples strata of each variable. The same seed gives the same rows. lhs is sampling with the default method.", "quantifier": "all methods, domains of continuous, integer, ordered and categorical variables in any of the accepted formats, numbers of samples, generators and seeds", "why_tests_cant": "Tests check the shape of one sample for one domain and one seed; that rounding, folding of categories and scaling of the relaxed sample never leave the domain is a statement on all draws.", "anchors": ["python/src/sampling.rs: sampling, lhs", "crates/ego/src/gpmix/mixint.rs: MixintContext::create_lhs_sampling, create_ffact_sampling, create_rand_sampling", "python/src/domain.rs: parse"]}
{"id": "C128", "title": "The options of SparseGpMix are honoured", "statement": "With options within their documented ranges SparseGpMix(...).fit(xt, yt) gives a model with the sparse method and kernels asked for. Its inducing points are z, or nz distinct rows of xt (all of them when there are fewer). Its theta has one component per input, or kpls_dim components, within theta_bounds or the default bounds, and is at least as likely as theta_init. Options which are not given have their default values and the fit does not panic.", "quantifier": "all options within their documented ranges, training sets, optimizers and generators", "why_tests_cant": "Tests use one or two combinations of options and check predictions, not that options reach the fit.", "anchors": ["python/src/sparse_gp_mix.rs: SparseGpMix::new, SparseGpMix::fit", "crates/gp/src/sparse_parameters.rs: SgpParams::new, check_ref", "crates/gp/src/sparse_algorithm.rs: fit"]}
{"id": "C129", "title": "A saved model is loaded back", "statement": "save(name) of a trained model writes the file name, keeps the other files and returns True, or returns False when the file cannot be written. The format is JSON when the name ends with .json, and binary otherwise. After a successful save, load(name) gives the same model back (numbers of JSON files being read up to rounding). The same holds of save and load of mixtures and of single surrogates, dense or sparse, with the format given.", "quantifier": "all trained models, names, disks and contents of other files", "why_tests_cant": "Tests save and load one model trained on a smooth function, with fixed names; failures depend on the training outputs, the name and the kind of surrogate.", "anchors": ["python/src/gp_mix.rs: save, load", "python/src/sparse_gp_mix.rs: save, load", "crates/moe/src/algorithm.rs: GpMixture::save, GpMixture::load", "crates/moe/src/surrogates.rs: save, load"]}
{"id": "C130", "title": "Sampled trajectories follow the predicted law", "statement": "The trajectories returned by sample, sample_eig and sample_chol of a trained Gaussian process at given points are independent Gaussian vectors: their mean is the vector of predictions and their covariance is the predicted covariance, in any units of the outputs. In particular at each point a trajectory is a normal variable with the predicted value as mean and the predicted variance as variance, the mean improvement of trajectories is the expected improvement, and without nugget trajectories go through the training data. sample_chol succeeds at distinct points that are not training inputs.", "quantifier": "all trained models, points, numbers of trajectories, probability spaces carrying independent standard normal draws", "why_tests_cant": "A law of random vectors for all models cannot be tested; existing tests only look at shapes or plots of a few trajectories.", "anchors": ["crates/gp/src/algorithm.rs: sample, _sample, sample_chol, sample_eig", "crates/gp/src/algorithm.rs: _compute_covariance"]}
{"id": "C131", "title": "Samples lie within the bounds in floating point arithmetic", "statement": "With the rounding of f64 operations, the samples returned by Lhs (all kinds), Random and FullFactorial lie within the given bounds; normalized samples lie in [0, 1], Latin hypercubes keep one point per stratum and full factorial designs keep their levels, up to rounding.", "quantifier": "all bounds, numbers of points, draws of the generator", "why_tests_cant": "Depends on the rounding of each operation for all bounds and draws; tests compare a few samples with a tolerance.", "anchors": ["crates/doe/src/traits.rs: sample", "crates/doe/src/lhs.rs: _classic_lhs, _centered_lhs", "crates/doe/src/full_factorial.rs: normalized_sample", "crates/doe/src/random.rs: normalized_sample"]}
{"id": "C132", "title": "Mixed-integer points keep to the declared space in floating point arithmetic", "statement": "With the rounding of f64 operations, casting a relaxed point gives admissible values, the nearest ones, and casting again changes nothing; samples of all the methods for declared variables are points of the declared space: floats within their bounds, integers of the declared range, values of the declared lists, declared categories.", "quantifier": "all lists of variables, relaxed points, numbers of points, draws of the generator", "why_tests_cant": "Depends on the rounding of each operation for all types and draws.", "anchors": ["crates/ego/src/gpmix/mixint.rs: take_closest, cast_to_discrete_values_mut, as_continuous_limits, MixintSampling::sample", "crates/doe/src/traits.rs: sample"]}
{"id": "C133", "title": "Starts of the infill optimization lie in the design space in floating point arithmetic", "statement": "With the rounding of f64 operations, the starts of the optimization of the infill criterion lie within the bounds: midpoints of data points, Latin hypercubes which complete them, and Latin hypercubes of the local area of TREGO, which is within the design space, contains the best point and has a positive width.", "quantifier": "all data, bounds, best points, distances, numbers of starts, draws of the generator", "why_tests_cant": "Depends on the rounding of each operation for all data and bounds.", "anchors": ["crates/ego/src/utils/start_points.rs: start_points", "crates/ego/src/solver/solver_computations.rs: MiddlePickerMultiStarter", "crates/ego/src/solver/trego.rs: LocalLhsMultiStarter"]}
{"id": "C134", "title": "Ask and tell proposes what the optimizer evaluates", "statement": "Given the evaluated points of a run, its configuration and seed, `suggest` returns the points at which the optimizer would evaluate the function at its next iteration.", "quantifier": "all data, configurations, seeds, surrogates, optimizers of the infill criterion", "why_tests_cant": "Compares two executions for all data and all behaviours of the surrogates and optimizers.", "anchors": ["crates/ego/src/solver/solver_impl.rs: suggest, ego_step, select_next_points", "crates/ego/src/solver/egor_solver.rs: init", "crates/ego/src/solver/egor_service.rs: suggest", "python/src/egor.rs: suggest"]}
{"id": "C135", "title": "The options of the Python optimizer reach the run", "statement": "Each option of the Python class `Egor` and each argument of `minimize` has, in the configuration of the run, the documented value; no option is ignored or changes another one; `suggest` uses the same options as `minimize`.", "quantifier": "all options and arguments", "why_tests_cant": "There are about thirty options with a product of possible values; that two different sets of options never lead to the same run is a statement about all pairs.", "anchors": ["python/src/egor.rs: Egor::new, minimize, suggest, apply_config", "crates/ego/src/solver/egor_config.rs: setters, check, defaults", "crates/ego/src/egor.rs: EgorFactory", "crates/ego/src/solver/egor_service.rs: EgorServiceFactory"]}
{"id": "C136", "title": "Predictions vary continuously with the point", "statement": "Predicted values and variances are continuous functions of the point (differentiable as many times as the kernel promises), for a Gaussian process and for a mixture with smooth recombination; so are the infill criteria computed from them.", "quantifier": "all kernels, means, training data, hyperparameters and points; all mixtures", "why_tests_cant": "Jumps happen on sets of measure zero or far from the data; sampling points cannot show their absence, and continuity is a statement about all neighbourhoods of all points.", "anchors": ["crates/gp/src/correlation_models.rs: value", "crates/gp/src/mean_models.rs: value", "crates/gp/src/algorithm.rs: predict, predict_var", "crates/moe/src/gaussian_mixture.rs: compute_log_prob_resp", "crates/moe/src/algorithm.rs: predict_smooth, predict_hard", "crates/ego/src/criteria/ei.rs", "crates/ego/src/utils/cstr_pof.rs"]}
{"id": "C137", "title": "Sorting rows keeps every row exactly once", "statement": "Sorting an array along an axis and permuting it accordingly gives the rows in order, ties in their original order, no element lost or duplicated, and touches no memory outside of the array (the permutation is unsafe code).", "quantifier": "all arrays, memory layouts, orders and permutations", "why_tests_cant": "Memory errors of unsafe code depend on the layout and may go unnoticed in a test; no loss and no duplication is a statement about all permutations.", "anchors": ["crates/ego/src/utils/sort_axis.rs: Permutation::correct, sort_axis_by, permute_axis", "crates/ego/src/utils/find_result.rs: find_best_result_index"]}
{"id": "C138", "title": "Gaussian processes can be trained in single and double precision", "statement": "Models are generic in the float type: training and gradients use the numbers of the model, starts and bounds whether it is f32 or f64.", "quantifier": "all data, starts, bounds and points; both float types", "why_tests_cant": "A read through a cast pointer beyond the end of an allocation usually returns something; whether behaviour is defined cannot be observed by running the code.", "anchors": ["crates/gp/src/optimization.rs: optimize_params, into_f64", "crates/gp/src/algorithm.rs: fit", "crates/gp/src/sparse_algorithm.rs: fit, predict_gradients, predict_var_gradients"]}
{"id": "C139", "title": "The optimized LHS follows the enhanced stochastic evolutionary algorithm", "statement": "The optimizer of Latin hypercubes moves to the best of the exchanges tried exactly when it is not worse than the current design by more than the temperature times a random number, exchanges values of each column in turn, and raises or lowers the temperature after each inner loop according to the rates of accepted and improving designs, the temperature staying positive.", "quantifier": "all initial designs, random choices and numbers of iterations", "why_tests_cant": "The optimizer returns a design that is not worse than the initial one whatever its acceptance rule and temperatures are: tests on the result cannot see a wrong schedule.", "anchors": ["crates/doe/src/lhs.rs: _maximin_ese, _phip_swap"]}
{"id": "C140", "title": "A trained mixture reports the hyperparameters it uses", "statement": "The hyperparameters, variances and likelihoods reported in Python are those of the experts, one per cluster in the order of the clusters, hyperparameters having one component per input or PLS component; a model fitted again with the reported hyperparameters, kept fixed, is the same model.", "quantifier": "all data, tunings, optimizers and numbers of clusters", "why_tests_cant": "Tests compare reports of a few models with themselves; that a refit gives the same model holds or not for all tunings and optimizers.", "anchors": ["python/src/gp_mix.rs: thetas, variances, likelihoods, sample", "python/src/sparse_gp_mix.rs: thetas, variances, likelihoods, sample", "crates/gp/src/algorithm.rs: fit, theta, variance, likelihood"]}
{"id": "C141", "title": "Expected improvement is non-negative in double precision", "statement": "The expected improvement computed with the operations of f64 is non-negative for every prediction and every variance; the difference of its two terms, which cancel far above the current minimum, does not come out negative.", "quantifier": "all current minima, weights of sigma, predictions and variances, all accurate library functions", "why_tests_cant": "Cancellation and underflow appear for particular bit patterns; tests evaluate a few points close to the minimum.", "anchors": ["crates/ego/src/criteria/ei.rs: value", "crates/ego/src/utils/misc.rs: norm_cdf, norm_pdf"]}
{"id": "C142", "title": "Proposals do not depend on the unit and the origin of the objective", "statement": "Expressing the objective in another unit or from another origin (y replaced by a*y+b with a > 0 in all evaluations) changes neither the best result nor the objective function which the internal optimizer receives, hence not the proposed points; steps of the trust region succeed alike.", "quantifier": "all units, origins, training data, kernels, trends, criteria, constraints, tolerances and starting points", "why_tests_cant": "Tests run one scaling of one function; absolute thresholds and un-scaled terms show up only for particular units and origins.", "anchors": ["crates/ego/src/criteria/ei.rs, wb2.rs", "crates/ego/src/solver/solver_infill_optim.rs", "crates/ego/src/solver/solver_computations.rs: compute_scaling", "crates/ego/src/solver/egor_solver.rs: trego_iteration", "crates/ego/src/utils/find_result.rs"]}
{"id": "C143", "title": "Settings of models and of the optimizer do what they say, in any order", "statement": "In a chain of settings of a Gaussian process, a sparse Gaussian process, a mixture or the optimizer, each parameter has the last value given for it, or its default when none is given, and settings about different parameters can be exchanged.", "quantifier": "all chains of settings of any length, all values, all starting parameters", "why_tests_cant": "Tests use a few chains; an interaction of two settings appears only when both are used in a particular order.", "anchors": ["crates/gp/src/parameters.rs: GpParams", "crates/gp/src/sparse_parameters.rs: SgpParams", "crates/moe/src/parameters.rs: GpMixtureParams", "crates/ego/src/solver/egor_config.rs: GpConfig, EgorConfig"]}
{"id": "C144", "title": "A clustering kept between iterations stays usable", "statement": "A mixture trained again with the clusters of an earlier training, on data to which points were added (or whose outputs changed), is never refused because of its clusters: training succeeds exactly when each expert can be trained, with the same clusters and recombination, and no point moves to another cluster.", "quantifier": "all data, added points, tunings, numbers of iterations; all clusterings and expert trainings", "why_tests_cant": "Tests run a few iterations between two clusterings; a refusal would show only for particular points and after some number of iterations.", "anchors": ["crates/ego/src/solver/solver_impl.rs: make_clustered_surrogate", "crates/moe/src/algorithm.rs: train_on_clusters", "crates/moe/src/clustering.rs: sort_by_cluster"]}
{"id": "C145", "title": "The quality report rates each saved surrogate with its own metrics", "statement": "gpqa prints one line per surrogate of the file, in order, with its Q2, PVA and IAE for the number of folds asked (leave-one-out by default), for a file with several surrogates as for one with a single mixture, independently of the scheduling of parallel tasks; it fails only if some cross validation is impossible.", "quantifier": "all files, surrogates, training data, numbers of folds, schedules of the parallel tasks", "why_tests_cant": "The program has no test; the order of parallel results varies between executions, and a wrong association of scores and surrogates shows only with particular schedules.", "anchors": ["crates/gpqa/src/main.rs: main, compute_metrics", "crates/moe/src/types.rs: GpQualityAssurance::score"]}
{"id": "C146", "title": "A run does not depend on the units and origins of its variables", "statement": "Expressing the variables (bounds, points and function) in other units and with other origins gives the same run in the new units: the same design, the same starts and criteria for the internal optimizer, the same local areas, the same points added.", "quantifier": "all units, origins, bounds, data, models, criteria, constraints, proposals", "why_tests_cant": "Tests use one unit per problem, usually with bounds between 0 and 25; absolute thresholds inside the program only show when the same problem is posed in very different units.", "anchors": ["crates/ego/src/utils/start_points.rs: start_points", "crates/ego/src/solver/solver_infill_optim.rs", "crates/ego/src/solver/trego.rs: trego_step", "crates/ego/src/utils/misc.rs: is_update_ok", "crates/ego/src/utils/portfolio.rs: select_from_portfolio", "crates/ego/src/criteria", "crates/gp/src/algorithm.rs"]}
{"id": "C147", "title": "Averages over a sampled design estimate averages over the space", "statement": "The average of a function over the points of a sampled design is an unbiased estimate of its mean over the design space, and for Latin hypercubes the average of a function of one variable is close to its mean for every design.", "quantifier": "all numbers of points and dimensions, bounds, integrable functions, kinds of Latin hypercube, random choices", "why_tests_cant": "Tests compare one design drawn from one seed with recorded numbers; expectations over all draws and all functions cannot be observed on one design.", "anchors": ["crates/doe/src/random.rs: normalized_sample", "crates/doe/src/lhs.rs: _classic_lhs, _centered_lhs, _maximin_lhs, _maximin_ese", "crates/doe/src/traits.rs: sample"]}
{"id": "C148", "title": "A run continued from a checkpoint is the uninterrupted run", "statement": "An optimization interrupted after any iteration and started again with hot start, or extended by k iterations once finished, ends with the data and the result of the run without interruption, respectively of the run with k more iterations.", "quantifier": "all problems, initial designs, configurations, choices of the surrogates, interruption points, extensions, numbers in the state", "why_tests_cant": "A test stops one seeded run at one point and compares with a tolerance; agreement for all runs and interruption points, and exactness of all the numbers of the file, are beyond tests.", "anchors": ["crates/ego/src/utils/hot_start.rs: save, load", "crates/ego/src/egor.rs: run", "crates/ego/src/solver/egor_state.rs: EgorState, extend_max_iters", "crates/ego/src/solver/egor_solver.rs: init, next_iter, terminate"]}
{"id": "C149", "title": "Additional observations refine a Gaussian process", "statement": "Adding observations to the data of a Gaussian process, its correlations being kept, never increases the predicted variance relative to the process variance; adding predicted values as observations (kriging believer) leaves all the predictions unchanged and decreases the variances; in general predictions change linearly with the prediction errors at the added points.", "quantifier": "all kernels, mean functions, nuggets, hyperparameters, training sets, sets of additional points and outputs, prediction points", "why_tests_cant": "A test adds one point to one data set and looks at a few predictions; monotony and invariance at all points for all data sets are beyond tests.", "anchors": ["crates/gp/src/algorithm.rs: fit, predict, predict_var", "crates/ego/src/solver/solver_impl.rs: make_clustered_surrogate (lines 215-250)", "crates/ego/src/solver/solver_computations.rs: compute_virtual_point"]}
{"id": "C150", "title": "Evaluated points have no expected improvement", "statement": "The expected improvement is zero at the points already evaluated and positive at the others, so that maximizing it (or its logarithm) always proposes a new point.", "quantifier": "all kernels, mean functions, hyperparameters, nuggets, training sets, current minima, sigma weights, sets of candidate points", "why_tests_cant": "A test looks at the criterion at a few points of one trained model; the exact zero set of the criterion for all models, data and units is beyond tests.", "anchors": ["crates/ego/src/criteria/ei.rs: value, grad", "crates/ego/src/criteria/wb2.rs: value", "crates/gp/src/algorithm.rs: predict_valvar", "crates/gp/src/parameters.rs: nugget (line 118)"]}
{"id": "C151", "title": "The file of the run recorder describes the run", "statement": "With the run recorder enabled, the file written at the end has the dimension, bounds, criterion, kernel, seed and batch size of the configuration, the numbers of initial samples, iterations and evaluated points of the run, and the iterations numbered from 1; this also holds for runs continued from a checkpoint.", "quantifier": "all problems, configurations, seeds, initial designs, numbers of iterations, ways to end, restarts", "why_tests_cant": "Tests check that a file is written for one run; the counts depend on how the run ends, and the seed is truncated for large values only.", "anchors": ["crates/ego/src/utils/run_recorder.rs: init_run_info, update_run_info", "crates/ego/src/solver/egor_solver.rs: init (332-339), next_iter (399-415)", "crates/ego/src/egor.rs: run (299-318)"]}
{"id": "C152", "title": "Criteria prefer better predictions and more uncertainty", "statement": "A point whose predicted objective is lower and whose predicted variance is larger than those of another point has a larger infill criterion (EI, LogEI, WB2, WB2S), so that the proposed point is never dominated; a lower predicted constraint gives a larger probability of feasibility, and the expected improvement is at least the predicted one.", "quantifier": "all surrogates, predictions, variances, current minima, weights, scales, tolerances, sets of candidate points", "why_tests_cant": "Tests compare values at a few points; monotonicity is a claim on all pairs of predictions and variances, and fails only at thresholds which tests do not meet.", "anchors": ["crates/ego/src/criteria/ei.rs: value", "crates/ego/src/criteria/wb2.rs: value", "crates/ego/src/utils/logei_helper.rs: log_ei_helper", "crates/ego/src/utils/cstr_pof.rs: pof"]}
{"id": "C153", "title": "The constrained criterion favours feasible points", "statement": "When constraints are part of the criterion (cstr_infill), the proposed point maximizes the expected improvement by a point which has to meet all the constraints, with EI as with LogEI; of two points of equal criterion the more probably feasible one is preferred; while no feasible point is known the most probably feasible point is proposed.", "quantifier": "all surrogates of objective and constraints, numbers of constraints, tolerances, current minima, scales, pairs of points", "why_tests_cant": "Tests run the optimizer on a few constrained problems with non negative objectives or a given scale; the claim is on all pairs of points, all origins of the objective and all scales.", "anchors": ["crates/ego/src/solver/solver_computations.rs: eval_infill_obj_with_cstrs", "crates/ego/src/utils/cstr_pof.rs: pofs, logpofs", "crates/ego/src/criteria/wb2.rs: value"]}
{"id": "C154", "title": "Probability of feasibility in double precision", "statement": "The probability of feasibility computed in double precision is between 0 and 1, close to the exact one for any number of constraints, never lower for a better predicted constraint, and tells points apart wherever the exact probabilities differ.", "quantifier": "all numbers of constraints, tolerances, predictions and variances, all library functions erfc, sqrt and ln meeting the contract", "why_tests_cant": "Rounding and underflow depend on all values of the operands; tests evaluate the probability at a few points near the feasible region.", "anchors": ["crates/ego/src/utils/cstr_pof.rs: pof, pofs, logpofs", "crates/ego/src/utils/misc.rs: norm_cdf", "crates/ego/src/solver/solver_computations.rs: eval_infill_obj_with_cstrs"]}
{"id": "C155", "title": "Samplers which share a generator", "statement": "A sampler and its clones, used in any number of threads, draw from one generator without using a number twice; with a given seed the designs are those of the calls made in some order; a call which fails leaves the sampler and its clones usable.", "quantifier": "all kinds of designs, dimensions, numbers of points, numbers of threads, schedules and generators", "why_tests_cant": "The schedules of threads are not under the control of a test, and a test of two clones looks at two samples of one kind.", "anchors": ["crates/doe/src/lhs.rs: Lhs, normalized_sample, kind, with_rng, _classic_lhs, _centered_lhs, _maximin_lhs, _maximin_ese, _phip_swap", "crates/doe/src/random.rs: Random, normalized_sample, with_rng"]}
{"id": "C156", "title": "Normalization in double precision", "statement": "In double precision, normalizing training data never fails, restoring normalized data gives the data back up to rounding errors, distinct values keep distinct normalized values, a column is left as it is exactly when it is constant, and normalized columns have zero mean up to rounding errors relative to their deviation.", "quantifier": "all columns of numbers of type f64, any number of rows from two", "why_tests_cant": "Rounding, cancellation and underflow depend on all values; the tests normalize a few small matrices.", "anchors": ["crates/gp/src/utils.rs: normalize", "crates/gp/src/algorithm.rs: predict"]}
{"id": "C157", "title": "Points which pass the check of duplicates are distinct for the model", "statement": "In double precision, points which pass the check of duplicates and are stored are distinct training points for the model once normalized, and a point of the search space distinct from the stored ones, up to the precision of the search space, is accepted.", "quantifier": "all stored points, batches and dimensions", "why_tests_cant": "Depends on rounding in sums of any length and on the scale of the variables; tests check one pair of points.", "anchors": ["crates/ego/src/utils/misc.rs: is_update_ok, update_data", "crates/gp/src/utils.rs: normalize"]}
{"id": "C158", "title": "Feasibility and ranking of evaluations in double precision", "statement": "In double precision, an evaluation is taken as feasible exactly when no constraint exceeds its tolerance; the best evaluation of a run is the feasible one of lowest objective, or if there is none the one whose violations have the lowest sum.", "quantifier": "all evaluations, tolerances and numbers of constraints", "why_tests_cant": "Depends on cancellation, underflow and the order of sums of any length; tests rank a few evaluations with moderate values.", "anchors": ["crates/ego/src/utils/find_result.rs: cstr_sum, cstr_min, find_best_result_index_from, is_feasible"]}
