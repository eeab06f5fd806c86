{
 "claims": [
  {
   "property": "C01",
   "status": "proved",
   "theorems": [
    "Verif.Props.C01_lhs_in_bounds",
    "Verif.Props.C01_random_in_bounds",
    "Verif.Props.C01_full_factorial_in_bounds",
    "Verif.Props.C01_random_positions"
   ],
   "note": "Exact arithmetic: in floating point `x * (upper - lower) + lower` can exceed `upper` by rounding."
  },
  {
   "property": "C02",
   "status": "partial",
   "theorems": [
    "Verif.Props.C02_latin_partial",
    "Verif.Props.C02_returns_partial",
    "Verif.Props.C02_refuted_single_point",
    "Verif.Props.C02_latin_in_space_partial"
   ],
   "note": "Proved for every call that returns, and every call with at least two points returns; refuted for one point: maximin kinds panic, the optimized kind loops forever."
  },
  {
   "property": "C03",
   "status": "proved",
   "theorems": [
    "Verif.Props.C03_optimizer_keeps_best",
    "Verif.Props.C03_seen_has_candidates"
   ],
   "note": "The ghost field `seen` records every candidate (C03_seen_has_candidates)."
  },
  {
   "property": "C04",
   "status": "proved",
   "theorems": [
    "Verif.Props.C04_incremental_criterion",
    "Verif.Props.C04_criterion_from_scratch"
   ],
   "note": "Real arithmetic."
  },
  {
   "property": "C05",
   "status": "proved",
   "theorems": [
    "Verif.Props.C05_maximin_keeps_best"
   ],
   "note": ""
  },
  {
   "property": "C06",
   "status": "proved",
   "theorems": [
    "Verif.Props.C06_full_factorial",
    "Verif.Props.C06_levels_balanced",
    "Verif.Props.C06_full_factorial_in_space"
   ],
   "note": "nx >= 1; with nx = 0 and ns > 1 the code panics."
  },
  {
   "property": "C07",
   "status": "proved",
   "theorems": [
    "Verif.Props.C07_cast_admissible_idempotent",
    "Verif.Props.C07_admissible_unchanged"
   ],
   "note": ""
  },
  {
   "property": "C08",
   "status": "proved",
   "theorems": [
    "Verif.Props.C08_cast_is_nearest",
    "Verif.Props.C08_round_stays_in_bounds"
   ],
   "note": ""
  },
  {
   "property": "C09",
   "status": "partial",
   "theorems": [
    "Verif.Props.C09_encode_partial",
    "Verif.Props.C09_decode_partial",
    "Verif.Props.C09_round_trip_partial",
    "Verif.Props.C09_decode_admissible_partial",
    "Verif.Props.C09_decode_in_space",
    "Verif.Props.C09_refuted_enum_then_float_panics",
    "Verif.Props.C09_refuted_silent_unfold",
    "Verif.Props.C09_refuted_fold_two_enums",
    "Verif.Props.C09_encode_iff",
    "Verif.Props.C09_decode_iff",
    "Verif.Props.C09_round_trip_iff"
   ],
   "note": "Encoding proved when no Enum with at least two levels precedes a non-Enum variable, decoding when none precedes another Enum; decoded points are always admissible. Refuted otherwise: encoding panics, encoding or decoding returns wrong values (C09_refuted_*). The lists of variables for which encoding, decoding and the round trip are right are known exactly (C09_*_iff)."
  },
  {
   "property": "C10",
   "status": "proved",
   "theorems": [
    "Verif.Props.C10_limits"
   ],
   "note": ""
  },
  {
   "property": "C11",
   "status": "proved",
   "theorems": [
    "Verif.Props.C11_best_is_lexicographic_optimum",
    "Verif.Props.C11_is_feasible_iff",
    "Verif.Props.C11_no_panic_iff"
   ],
   "note": "Finite tolerances; no NaN and no +inf objective (the code returns index 0 when the only feasible objectives are +inf, see C14_refuted_infinite_objective)."
  },
  {
   "property": "C12",
   "status": "proved",
   "theorems": [
    "Verif.Props.C12_incremental_eq_batch",
    "Verif.Props.C12_run_best_is_optimum"
   ],
   "note": "Exact index equality for any history of batches."
  },
  {
   "property": "C13",
   "status": "partial",
   "theorems": [
    "Verif.Props.C13_best_never_worse",
    "Verif.Props.C13_feasibility_flag_partial",
    "Verif.Props.C13_refuted_flag_by_default",
    "Verif.Props.C13_refuted_flag_always"
   ],
   "note": "Monotonicity and feasibility persistence proved for all runs with comparable evaluations; flag exactness proved when EGOR_USE_MAX_PROBA_OF_FEASIBILITY is set and refuted in the default setting, where the flag is true in all states of all runs (C13_refuted_flag_always)."
  },
  {
   "property": "C14",
   "status": "partial",
   "theorems": [
    "Verif.Props.C14_nan_objective_never_best_partial",
    "Verif.Props.C14_incremental_never_selects_nan_partial",
    "Verif.Props.C14_refuted_nan_constraint",
    "Verif.Props.C14_refuted_infinite_objective",
    "Verif.Props.C14_unconstrained_nan_panics",
    "Verif.Props.C14_nan_constraint_is_met",
    "Verif.Props.C14_refuted_nan_selected"
   ],
   "note": "NaN objectives are proved never selected; refuted for NaN constraints: the code treats a NaN constraint exactly as a satisfied one (C14_nan_constraint_is_met), so that a row with NaN constraints and the lowest objective is always selected (C14_refuted_nan_selected)."
  },
  {
   "property": "C15",
   "status": "proved",
   "theorems": [
    "Verif.Props.C15_run_data_aligned",
    "Verif.Props.C15_run_data_append_only"
   ],
   "note": ""
  },
  {
   "property": "C16",
   "status": "proved",
   "theorems": [
    "Verif.Props.C16_no_near_duplicate"
   ],
   "note": ""
  },
  {
   "property": "C17",
   "status": "proved",
   "theorems": [
    "Verif.Props.C17_outputs_are_true_values",
    "Verif.Props.C17_added_outputs_are_true_values",
    "Verif.Props.C17_continuous_outputs"
   ],
   "note": "User functions returning the declared number of outputs."
  },
  {
   "property": "C18",
   "status": "proved",
   "theorems": [
    "Verif.Props.C18_ego_iteration_calls",
    "Verif.Props.C18_ego_run_budget",
    "Verif.Props.C18_run_budget"
   ],
   "note": "EGO iterations; TREGO local steps evaluate the point before testing whether it is kept, so stored <= evaluated (C18_run_budget)."
  },
  {
   "property": "C19",
   "status": "proved",
   "theorems": [
    "Verif.Props.C19_all_rejected_stops",
    "Verif.Props.C19_no_more_point_preserves_state",
    "Verif.Props.C19_at_most_three_attempts",
    "Verif.Props.C19_retries_reset"
   ],
   "note": ""
  },
  {
   "property": "C20",
   "status": "partial",
   "theorems": [
    "Verif.Props.C20_new_best_iteration_partial",
    "Verif.Props.C20_unchanged_best_partial",
    "Verif.Props.C20_refuted_first_added_point",
    "Verif.Props.C20_refuted_no_more_point",
    "Verif.Props.C20_refuted_first_point_never_recorded",
    "Verif.Props.C20_refuted_last_iteration"
   ],
   "note": "Proved when the new best is not at index doe_size; refuted at index doe_size (strict comparison) for all runs, and when the run ends with no more point to add, characterised exactly (C20_refuted_last_iteration)."
  },
  {
   "property": "C21",
   "status": "partial",
   "theorems": [
    "Verif.Props.C21_initial_design_partial",
    "Verif.Props.C21_added_points_partial",
    "Verif.Props.C21_refuted_scaled_value",
    "Verif.Props.C21_refuted_infeasible_best",
    "Verif.Props.C21_refuted_zero_constraint"
   ],
   "note": "Exact for the initial design and TREGO local steps; refuted for EGO steps: stored values are divided by the scaling factors."
  },
  {
   "property": "C22",
   "status": "partial",
   "theorems": [
    "Verif.Props.C22_objective_inputs_admissible_partial",
    "Verif.Props.C22_refuted_constraint_input"
   ],
   "note": "Objective inputs proved admissible; refuted for function constraints, which get the relaxed point."
  },
  {
   "property": "C23",
   "status": "partial",
   "theorems": [
    "Verif.Props.C23_no_function_constraint_partial",
    "Verif.Props.C23_initial_design_partial",
    "Verif.Props.C23_refuted_function_constraints",
    "Verif.Props.C23_refuted_older_run"
   ],
   "note": "Exact restoration without function constraints, and of the initial design. With function constraints the restored outputs have extra columns and the next addition panics (C23_refuted_function_constraints, all data); a directory used before can give back an older run (C23_refuted_older_run)."
  },
  {
   "property": "C24",
   "status": "partial",
   "theorems": [
    "Verif.Props.C24_never_wrong_state_partial",
    "Verif.Props.C24_refuted_truncated_file"
   ],
   "note": "A wrong state is never loaded. A crash during the writing leaves an unreadable file and loses the previous checkpoint (C24_refuted_truncated_file, all states)."
  },
  {
   "property": "C25",
   "status": "partial",
   "theorems": [
    "Verif.Props.C25_round_trip_partial",
    "Verif.Props.C25_exact_iff",
    "Verif.Props.C25_disabled_partial",
    "Verif.Props.C25_repeated_extension_partial",
    "Verif.Props.C25_refuted_not_finite"
   ],
   "note": "A state is loaded as it was saved if and only if all its numbers are finite and read back exactly (C25_exact_iff); extension, disabled mode, repeated restarts proved. A state with NaN or infinite numbers is saved as null and cannot be loaded (C25_refuted_not_finite). Which decimals are read back exactly is the subject of C148."
  },
  {
   "property": "C26",
   "status": "partial",
   "theorems": [
    "Verif.Props.C26_history_partial",
    "Verif.Props.C26_refuted_last_batch_twice",
    "Verif.Props.C26_refuted_doe_recorded_again",
    "Verif.Props.C26_refuted_ended_run"
   ],
   "note": "Proved for runs not ended by no-more-point; refuted otherwise: in all such runs the last batch (or the initial design) is recorded twice, the rest being exact (C26_refuted_ended_run)."
  },
  {
   "property": "C27",
   "status": "proved",
   "theorems": [
    "Verif.Props.C27_groups_partition",
    "Verif.Props.C27_groups_shape"
   ],
   "note": ""
  },
  {
   "property": "C28",
   "status": "proved",
   "theorems": [
    "Verif.Props.C28_set_get_active"
   ],
   "note": ""
  },
  {
   "property": "C29",
   "status": "partial",
   "theorems": [
    "Verif.Props.C29_sorted_group_partial",
    "Verif.Props.C29_same_components_partial",
    "Verif.Props.C29_full_activity_partial",
    "Verif.Props.C29_refuted_shuffled_group"
   ],
   "note": "Proved for groups in increasing order (in particular without cooperation); refuted for shuffled groups: the gradient is in increasing order of variables while the optimizer works in the order of the group."
  },
  {
   "property": "C30",
   "status": "proved",
   "theorems": [
    "Verif.Props.C30_reduction_selects_first_minimum",
    "Verif.Props.C30_split_independent"
   ],
   "note": "NaN results included: the accumulator of a task starts from the identity."
  },
  {
   "property": "C31",
   "status": "proved",
   "theorems": [
    "Verif.Props.C31_limit_keeps_first",
    "Verif.Props.C31_count",
    "Verif.Props.C31_midpoints",
    "Verif.Props.C31_in_bounds",
    "Verif.Props.C31_starts_apart",
    "Verif.Props.C31_exhaustive",
    "Verif.Props.C31_first_start"
   ],
   "note": "Real arithmetic. Starts are midpoints of distinct data points which are the nearest data points to them, in bounds, pairwise apart, exhaustive without limit, limited to the first m with a limit, first one from a closest pair. A request of 0 can return one start, as stated (at least one)."
  },
  {
   "property": "C32",
   "status": "proved",
   "theorems": [
    "Verif.Props.C32_run_phases",
    "Verif.Props.C32_run_start",
    "Verif.Props.C32_local_box",
    "Verif.Props.C32_sigma",
    "Verif.Props.C32_sigma_run",
    "Verif.Props.C32_global_step",
    "Verif.Props.C32_phase"
   ],
   "note": "Local box, exact conditions of growth and shrinkage of the trust size, positivity along runs, global step in every window of 1 + n_local_steps; same conditions along whole runs of the optimizer (C32_run_phases)."
  },
  {
   "property": "C33",
   "status": "proved",
   "theorems": [
    "Verif.Props.C33_recluster",
    "Verif.Props.C33_recluster_decrease",
    "Verif.Props.C33_theta_schedule"
   ],
   "note": "Exact conditions of reclustering; schedule of the hyperparameter optimization flattened over all iterations and batch points."
  },
  {
   "property": "C34",
   "status": "proved",
   "theorems": [
    "Verif.Props.C34_portfolio"
   ],
   "note": "For all labellings and all enumeration orders of the hash map. DBSCAN itself is an arbitrary labelling; members are assumed to hold a row (the code panics otherwise)."
  },
  {
   "property": "C35",
   "status": "partial",
   "theorems": [
    "Verif.Props.C35_believers_partial",
    "Verif.Props.C35_constant_liar_partial",
    "Verif.Props.C35_refuted_constant_liar"
   ],
   "note": "Believer strategies proved; the constant liar uses stored constraint values, not predictions (C35_refuted_constant_liar)."
  },
  {
   "property": "C36",
   "status": "proved",
   "theorems": [
    "Verif.Props.C36_is_expectation",
    "Verif.Props.C36_nonneg",
    "Verif.Props.C36_negligible",
    "Verif.Props.C36_pos",
    "Verif.Props.C36_gradient"
   ],
   "note": "Exact arithmetic. The value is shown to be the expectation of max(fmin-Y,0) under the predicted normal law (weight of the standard deviation positive), positive where the variance is not negligible; gradient is the derivative for any surrogate whose own gradients are derivatives."
  },
  {
   "property": "C37",
   "status": "partial",
   "theorems": [
    "Verif.Props.C37_value_partial",
    "Verif.Props.C37_gradient_partial",
    "Verif.Props.C37_scale_one_partial",
    "Verif.Props.C37_scale_partial",
    "Verif.Props.C37_refuted_positive_scale"
   ],
   "note": "Value, derivative and definition of the scale proved; the scale is not always positive: it is 0 when the prediction at the point of largest expected improvement is 0 (C37_refuted_positive_scale)."
  },
  {
   "property": "C38",
   "status": "partial",
   "theorems": [
    "Verif.Props.C38_range_partial",
    "Verif.Props.C38_unpredictable",
    "Verif.Props.C38_is_probability_partial",
    "Verif.Props.C38_gradient_iff_partial",
    "Verif.Props.C38_refuted_tolerance",
    "Verif.Props.C38_refuted_data_point"
   ],
   "note": "Range and probability proved where the variance is not negligible. The gradient is the derivative if and only if the tolerance is 0 or the variance is stationary (term pred instead of pred - tol): refuted for other tolerances. At points of negligible variance the value is 0 even when the constraint is surely satisfied."
  },
  {
   "property": "C39",
   "status": "partial",
   "theorems": [
    "Verif.Props.C39_gradient_iff_partial",
    "Verif.Props.C39_one_variable_partial",
    "Verif.Props.C39_refuted_two_variables",
    "Verif.Props.C39_mean_strategy_partial"
   ],
   "note": "Right if and only if all components of the variance gradient are equal (dimension one in general): the code uses var_grad[[0,0]] for all components; refuted in dimension two. The mean strategy is right."
  },
  {
   "property": "C40",
   "status": "proved",
   "theorems": [
    "Verif.Props.C40_documented",
    "Verif.Props.C40_range",
    "Verif.Props.C40_at_zero",
    "Verif.Props.C40_symmetric"
   ],
   "note": "Exact arithmetic, all dimensions, weights and hyperparameters (positive for the range)."
  },
  {
   "property": "C41",
   "status": "proved",
   "theorems": [
    "Verif.Props.C41_jacobian",
    "Verif.Props.C41_valjac",
    "Verif.Props.C41_absolute_exponential_corner"
   ],
   "note": "All four kernels; the absolute exponential away from corners, where it is shown to have no derivative."
  },
  {
   "property": "C42",
   "status": "proved",
   "theorems": [
    "Verif.Props.C42_basis_size",
    "Verif.Props.C42_jacobian",
    "Verif.Props.C42_basis"
   ],
   "note": "All three means, all dimensions."
  },
  {
   "property": "C43",
   "status": "partial",
   "theorems": [
    "Verif.Props.C43_two_rows_partial",
    "Verif.Props.C43_refuted_single_row",
    "Verif.Props.C43_iff"
   ],
   "note": "Proved with two rows or more. A single row gives a deviation NaN (refuted) and no row panics; C43_iff characterizes."
  },
  {
   "property": "C44",
   "status": "proved",
   "theorems": [
    "Verif.Props.C44_table",
    "Verif.Props.C44_refuted_no_row",
    "Verif.Props.C44_pairwise"
   ],
   "note": "For at least one observation; with none the table computation underflows (C44_refuted_no_row)."
  },
  {
   "property": "C45",
   "status": "proved",
   "theorems": [
    "Verif.Props.C45_universal_kriging",
    "Verif.Props.C45_training_inputs",
    "Verif.Props.C45_interpolation",
    "Verif.Props.C45_variance_at_data"
   ],
   "note": "Exact arithmetic, default build, linear algebra routines given by their contracts (LinAlg, shown consistent by an instance). Predictions are also shown to be universal kriging."
  },
  {
   "property": "C46",
   "status": "proved",
   "theorems": [
    "Verif.Props.C46_variance_nonneg",
    "Verif.Props.C46_joint",
    "Verif.Props.C46_variance_defined"
   ],
   "note": "All models and points."
  },
  {
   "property": "C47",
   "status": "partial",
   "theorems": [
    "Verif.Props.C47_gradient_partial",
    "Verif.Props.C47_kth_iff",
    "Verif.Props.C47_refuted_kth"
   ],
   "note": "Gradient proved for all kernels and means (absolute exponential away from training components). The per-component derivative (squared exponential) uses -2 theta instead of -theta^2: right only for theta in {0,2} or a vanishing sum (iff), refuted."
  },
  {
   "property": "C48",
   "status": "partial",
   "theorems": [
    "Verif.Props.C48_nan_components",
    "Verif.Props.C48_inactive_unchanged",
    "Verif.Props.C48_fixed",
    "Verif.Props.C48_full_broadcast",
    "Verif.Props.C48_active_within_bounds_partial",
    "Verif.Props.C48_full_within_bounds_partial",
    "Verif.Props.C48_full_returns",
    "Verif.Props.C48_partial_tuning_returns_partial",
    "Verif.Props.C48_refuted_unsorted_active",
    "Verif.Props.C48_refuted_all_failures",
    "Verif.Props.C48_refuted_scalar_not_broadcast",
    "Verif.Props.C48_refuted_partial_scalar_panics",
    "Verif.Props.C48_refuted_setters_lose_active",
    "Verif.Props.C48_setters_partial"
   ],
   "note": "Inactive components unchanged, fixed value, broadcast for full tuning, no panic, active components within their bounds for a minimizer that does not fail and active lists that are increasing or, if the bounds are the same for all components, in any order. Refuted: unsorted active lists swap the bounds, 10 is returned when all optimizations fail, scalar initial values with Fixed/Partial are not broadcast (panic), the setters lose the active list."
  },
  {
   "property": "C49",
   "status": "partial",
   "theorems": [
    "Verif.Props.C49_starts_partial",
    "Verif.Props.C49_refuted_equal_bounds",
    "Verif.Props.C49_refuted_guess_in_bounds"
   ],
   "note": "n_start + 1 starts, first the guess, others within the bounds. Refuted: n_start = 1 with equal bounds panics, the guess is not moved between the bounds."
  },
  {
   "property": "C50",
   "status": "partial",
   "theorems": [
    "Verif.Props.C50_fitc_predictions",
    "Verif.Props.C50_fitc_fits",
    "Verif.Props.C50_vfe_predictions_partial",
    "Verif.Props.C50_vfe_fits",
    "Verif.Props.C50_refuted_vfe_variance",
    "Verif.Props.C50_variance_bounds",
    "Verif.Props.C50_refuted_vfe_instance"
   ],
   "note": "FITC: mean and variance proved equal to the textbook ones (variance floored at 1e-15), fit proved to succeed, bounds proved. VFE: mean and bounds proved; the variance has the wrong sign for one term and is strictly below the textbook one at every point (refuted in general and on a computed instance)."
  },
  {
   "property": "C51",
   "status": "partial",
   "theorems": [
    "Verif.Props.C51_dims_partial",
    "Verif.Props.C51_refuted"
   ],
   "note": "Right number of inputs; the number of outputs is the number of observations, right if and only if there is one (refuted)."
  },
  {
   "property": "C52",
   "status": "partial",
   "theorems": [
    "Verif.Props.C52_refuted_per_component",
    "Verif.Props.C52_refuted_fixed",
    "Verif.Props.C52_single_bound_partial",
    "Verif.Props.C52_single_value_partial",
    "Verif.Props.C52_refuted_fixed_one_start"
   ],
   "note": "Proved with one interval for all components. Refuted with one interval per component, with several fixed values, and with a fixed value and one start: always a panic."
  },
  {
   "property": "C53",
   "status": "proved",
   "theorems": [
    "Verif.Props.C53_clusters",
    "Verif.Props.C53_partition_iff",
    "Verif.Props.C53_panics_on_extra_label"
   ],
   "note": "Exact iff for the partition: labels which are not numbers of clusters lose rows."
  },
  {
   "property": "C54",
   "status": "proved",
   "theorems": [
    "Verif.Props.C54_partition",
    "Verif.Props.C54_zero_panics"
   ],
   "note": "f32 range taken as exact (below 2^24 samples)."
  },
  {
   "property": "C55",
   "status": "partial",
   "theorems": [
    "Verif.Props.C55_positive",
    "Verif.Props.C55_single",
    "Verif.Props.C55_responsibilities_partial",
    "Verif.Props.C55_sum_one_iff",
    "Verif.Props.C55_nearly_one",
    "Verif.Props.C55_refuted_far",
    "Verif.Props.C55_refuted_prediction",
    "Verif.Props.C55_convex_partial",
    "Verif.Props.C55_variance_partial"
   ],
   "note": "Exact iff for several clusters: sum one if and only if every weighted density is above e^-307 and their sum at least the machine precision. Refuted far from the data for every mixture (the sum tends to 0, the smooth prediction too)."
  },
  {
   "property": "C56",
   "status": "proved",
   "theorems": [
    "Verif.Props.C56_cluster",
    "Verif.Props.C56_hard",
    "Verif.Props.C56_single"
   ],
   "note": "Exact arithmetic; first cluster among those with the largest responsibility."
  },
  {
   "property": "C57",
   "status": "partial",
   "theorems": [
    "Verif.Props.C57_probas_partial",
    "Verif.Props.C57_value_partial",
    "Verif.Props.C57_refuted_variance_panics",
    "Verif.Props.C57_single",
    "Verif.Props.C57_variance_square_iff",
    "Verif.Props.C57_refuted_variance_square",
    "Verif.Props.C57_refuted_underflow"
   ],
   "note": "Value: right at every point where responsibilities are normalized (and everywhere with one cluster). Variance: right with one cluster; panics with two clusters or more when the dimension differs from their number; otherwise exact iff and refutation. Derivatives underflow far away (refuted)."
  },
  {
   "property": "C58",
   "status": "partial",
   "theorems": [
    "Verif.Props.C58_accepted_iff",
    "Verif.Props.C58_enough_points_accepted_partial",
    "Verif.Props.C58_refuted_linear",
    "Verif.Props.C58_refuted_quadratic"
   ],
   "note": "The check compares the number of elements (rows x columns) with the required number of points: exact iff proved, enough points are accepted, too small clusters are accepted too (refuted for linear and quadratic means)."
  },
  {
   "property": "C59",
   "status": "partial",
   "theorems": [
    "Verif.Props.C59_only_allowed",
    "Verif.Props.C59_first_smallest_error_partial",
    "Verif.Props.C59_refuted_dimension",
    "Verif.Props.C59_refuted_mean",
    "Verif.Props.C59_refuted_nan",
    "Verif.Props.C59_refuted_sparse",
    "Verif.Props.C59_empty_spec_panics",
    "Verif.Props.C59_selected"
   ],
   "note": "Only allowed combinations; first smallest error in dimension one (linear, quadratic) or constant means. Refuted in dimension >= 2 (linear and quadratic means never evaluated since at most 5 folds are compared with 3d and 4d), with NaN and for sparse GP. What is selected is known in all cases (C59_selected)."
  },
  {
   "property": "C60",
   "status": "partial",
   "theorems": [
    "Verif.Props.C60_mono_multi_partial",
    "Verif.Props.C60_refuted_auto",
    "Verif.Props.C60_check_iff",
    "Verif.Props.C60_rejected_iff",
    "Verif.Props.C60_tunings_available"
   ],
   "note": "is_multi is false for automatic specifications, contrary to its documentation; the rest is proved exactly, and accepted parameters give a tuning to each expert."
  },
  {
   "property": "C61",
   "status": "partial",
   "theorems": [
    "Verif.Props.C61_fold_ok_iff",
    "Verif.Props.C61_folds",
    "Verif.Props.C61_leave_one_out",
    "Verif.Props.C61_q2_value",
    "Verif.Props.C61_q2_leave_one_out",
    "Verif.Props.C61_q2_range_partial",
    "Verif.Props.C61_q2_defined_iff",
    "Verif.Props.C61_refuted_constant",
    "Verif.Props.C61_pva",
    "Verif.Props.C61_pva_value",
    "Verif.Props.C61_pva_leave_one_out",
    "Verif.Props.C61_coverage_range",
    "Verif.Props.C61_coverage_mono",
    "Verif.Props.C61_interval_probability"
   ],
   "note": "Exact arithmetic. Q2 proved at most one with the exact iff for one, on validated rows; it is not a number for constant outputs (refuted) and the last n mod k rows are never validated. Predictive variance adequacy, coverage range, monotony and probability of intervals proved."
  },
  {
   "property": "C62",
   "status": "partial",
   "theorems": [
    "Verif.Props.C62_accepted_iff_partial",
    "Verif.Props.C62_default_tolerances",
    "Verif.Props.C62_one_per_constraint_partial",
    "Verif.Props.C62_suggestions",
    "Verif.Props.C62_refuted_both_kinds",
    "Verif.Props.C62_refuted_no_point_added",
    "Verif.Props.C62_refuted_initial_best_ignores",
    "Verif.Props.C62_refuted_any_length_accepted",
    "Verif.Props.C62_python_default_iff_partial",
    "Verif.Props.C62_python_tolerances",
    "Verif.Props.C62_refuted_python_default"
   ],
   "note": "Proved when only one kind of constraints is present, with exact acceptance condition. Refuted with both kinds: one tolerance per constraint is rejected, and the accepted length makes every run which adds a point panic; the Python default panics."
  },
  {
   "property": "C63",
   "status": "partial",
   "theorems": [
    "Verif.Props.C63_result_index_iff_partial",
    "Verif.Props.C63_result_partial",
    "Verif.Props.C63_refuted_three_evaluations"
   ],
   "note": "Exact condition: no constraint, or as many evaluations as outputs; otherwise it panics (shape of c_doe)."
  },
  {
   "property": "C64",
   "status": "proved",
   "theorems": [
    "Verif.Props.C64_mean_round_trip",
    "Verif.Props.C64_corr_round_trip",
    "Verif.Props.C64_names_injective",
    "Verif.Props.C64_regression_bits",
    "Verif.Props.C64_correlation_bits"
   ],
   "note": "Names of all mean and correlation models, and integer flags of the Python interface."
  },
  {
   "property": "C65",
   "status": "proved",
   "theorems": [
    "Verif.Props.C65_infill_value_at_returned_point"
   ],
   "note": "External optimizers are assumed to return values within the limits together with the value of the criterion (definition Honest)."
  },
  {
   "property": "C66",
   "status": "partial",
   "theorems": [
    "Verif.Props.C66_full_activity_partial",
    "Verif.Props.C66_surrogates_partial",
    "Verif.Props.C66_refuted_group"
   ],
   "note": "Proved for surrogates and when all variables are active; refuted for function constraints with cooperation: they get the values of the group only."
  },
  {
   "property": "C67",
   "status": "partial",
   "theorems": [
    "Verif.Props.C67_unit_scale_partial",
    "Verif.Props.C67_surrogates_partial",
    "Verif.Props.C67_refuted_scale"
   ],
   "note": "Proved for surrogates and for unit scales; refuted for function constraints: the gradient is not divided by the scale."
  },
  {
   "property": "C68",
   "status": "proved",
   "theorems": [
    "Verif.Props.C68_multistart"
   ],
   "note": "Default branch (the environment variable fallback is not modelled); selected rows are an arbitrary set of points within bounds."
  },
  {
   "property": "C69",
   "status": "partial",
   "theorems": [
    "Verif.Props.C69_start_in_local_box_partial",
    "Verif.Props.C69_refuted_outside_local_box",
    "Verif.Props.C69_iff"
   ],
   "note": "The start is in the local area and the proposal within the design space; the optimizer is given the whole design space so the proposal can leave the local area (C69_refuted_outside_local_box), unless it is the whole design space (C69_iff)."
  },
  {
   "property": "C70",
   "status": "partial",
   "theorems": [
    "Verif.Props.C70_single_points_partial",
    "Verif.Props.C70_refuted_batches",
    "Verif.Props.C70_constant_batches",
    "Verif.Props.C70_batches_iff"
   ],
   "note": "Holds when at most one point is added per iteration; fails for batches: with 2 points per iteration from 5 points reclustering never happens (C70_refuted_batches); with q points at each iteration it happens if and only if gcd(q, 10) divides the number of initial points (C70_batches_iff)."
  },
  {
   "property": "C71",
   "status": "proved",
   "theorems": [
    "Verif.Props.C71_is_log_of_expectation",
    "Verif.Props.C71_gradient"
   ],
   "note": "Exact arithmetic; gradient except at the single value of u where the code switches to the expansion."
  },
  {
   "property": "C72",
   "status": "partial",
   "theorems": [
    "Verif.Props.C72_feasibility_of_all_partial",
    "Verif.Props.C72_single_iff_partial",
    "Verif.Props.C72_refuted_tolerance",
    "Verif.Props.C72_log_iff",
    "Verif.Props.C72_refuted_log"
   ],
   "note": "Product and range proved; gradients for zero tolerances, exact iff for one constraint, refuted for other tolerances (see C38). The logarithm is exact if and only if each probability is at least the machine precision, refuted below."
  },
  {
   "property": "C73",
   "status": "partial",
   "theorems": [
    "Verif.Props.C73_objective_gradient_partial",
    "Verif.Props.C73_refuted_weight",
    "Verif.Props.C73_constrained_gradient_partial",
    "Verif.Props.C73_weight_iff",
    "Verif.Props.C73_refuted_weights"
   ],
   "note": "Proved for weight 1 (and zero tolerances with constraints). Other weights: right for LogEI, exact condition for EI, WB2 and WB2S (C73_weight_iff), refuted for every weight but 1 (C73_refuted_weights): eval_grad_infill_obj passes no weight."
  },
  {
   "property": "C74",
   "status": "partial",
   "theorems": [
    "Verif.Props.C74_infill_scale_partial",
    "Verif.Props.C74_refuted_constraint_scale",
    "Verif.Props.C74_constraint_scale_partial"
   ],
   "note": "Infill scale proved positive; the constraint scale is 0 when all sampled predictions are 0 (refuted)."
  },
  {
   "property": "C75",
   "status": "partial",
   "theorems": [
    "Verif.Props.C75_constants",
    "Verif.Props.C75_finite_far_partial",
    "Verif.Props.C75_value_far_partial",
    "Verif.Props.C75_infinite_partial",
    "Verif.Props.C75_finite_near_partial",
    "Verif.Props.C75_refuted_overflow"
   ],
   "note": "Refuted for every u between -1000000 and -38 (exp(u^2/2) overflows, the result is NaN) with IEEE special values for libm; shown finite below -1000000 (with the value of the asymptotic expansion) and, under contracts on libm where nothing overflows, above -37.6; infinite arguments give the limits. Missing: between -38 and -37.6."
  },
  {
   "property": "C76",
   "status": "proved",
   "theorems": [
    "Verif.Props.C76_variance_gradient"
   ],
   "note": "Default build (not the blas feature), exact arithmetic, contracts of the linear algebra routines."
  },
  {
   "property": "C78",
   "status": "proved",
   "theorems": [
    "Verif.Props.C78_covariance",
    "Verif.Props.C78_sample_cholesky",
    "Verif.Props.C78_sample_eigenvalues"
   ],
   "note": "The draws of the normal law are arbitrary; eigenvalues method for positive semidefinite covariances with an exact decomposition."
  },
  {
   "property": "C79",
   "status": "proved",
   "theorems": [
    "Verif.Props.C79_concentrated_likelihood"
   ],
   "note": "When the retained variance is positive."
  },
  {
   "property": "C80",
   "status": "partial",
   "theorems": [
    "Verif.Props.C80_in_range",
    "Verif.Props.C80_smallest_median_partial",
    "Verif.Props.C80_refuted_not_possible",
    "Verif.Props.C80_refuted_gmm_failure",
    "Verif.Props.C80_refuted_null_values",
    "Verif.Props.C80_refuted_scale"
   ],
   "note": "Range proved in general; optimality when no mixture training fails, errors are numbers and one cluster is possible. Refuted otherwise: impossible number returned, panic on failure or null outputs, hard (relative) and smooth (absolute) errors compared."
  },
  {
   "property": "C81",
   "status": "partial",
   "theorems": [
    "Verif.Props.C81_best_factor_partial",
    "Verif.Props.C81_refuted_step",
    "Verif.Props.C81_nan_panics"
   ],
   "note": "Optimality among the 20 candidates 0.1 + 2k/19, not the documented steps of 0.1 (refuted); panics on NaN."
  },
  {
   "property": "C82",
   "status": "proved",
   "theorems": [
    "Verif.Props.C82_new_succeeds",
    "Verif.Props.C82_pdfs"
   ],
   "note": "Exact arithmetic; contracts of Cholesky and triangular solve."
  },
  {
   "property": "C83",
   "status": "partial",
   "theorems": [
    "Verif.Props.C83_trained_partial",
    "Verif.Props.C83_set_recombination",
    "Verif.Props.C83_refuted_set_recombination",
    "Verif.Props.C83_refuted_set_gmx",
    "Verif.Props.C83_refuted_given"
   ],
   "note": "Holds after training without a given mixture; refuted after set_recombination, set_gmx and training with a given mixture."
  },
  {
   "property": "C84",
   "status": "partial",
   "theorems": [
    "Verif.Props.C84_value",
    "Verif.Props.C84_lower_bound_partial",
    "Verif.Props.C84_refuted_leave_one_out",
    "Verif.Props.C84_refuted_score"
   ],
   "note": "The score averages absolute errors of each fold: it is only an upper bound of the error of the averaged coverage; with leave-one-out it is never below 0.02 (refuted, with the exact formula)."
  },
  {
   "property": "C85",
   "status": "partial",
   "theorems": [
    "Verif.Props.C85_specs_documented_partial",
    "Verif.Props.C85_rows",
    "Verif.Props.C85_empty",
    "Verif.Props.C85_columns",
    "Verif.Props.C85_refuted_fractional_limits",
    "Verif.Props.C85_refuted_missing_limits"
   ],
   "note": "Proved for documented specifications; fractional integer limits are truncated toward zero (refuted), missing limits panic."
  },
  {
   "property": "C86",
   "status": "partial",
   "theorems": [
    "Verif.Props.C86_egor_options_partial",
    "Verif.Props.C86_gpmix_options_partial",
    "Verif.Props.C86_clusters",
    "Verif.Props.C86_refuted_gpmix_max_eval",
    "Verif.Props.C86_refuted_egor_negative_n_start",
    "Verif.Props.C86_refuted_egor_smooth",
    "Verif.Props.C86_refuted_defaults",
    "Verif.Props.C86_default_options",
    "Verif.Props.C86_refuted_panics"
   ],
   "note": "Options passed as documented except: GpMix ignores max_eval, Egor ignores a negative n_start and does not optimize the smooth factor, documented defaults differ."
  },
  {
   "property": "C87",
   "status": "partial",
   "theorems": [
    "Verif.Props.C87_limit",
    "Verif.Props.C87_refuted_small_values",
    "Verif.Props.C87_kept_partial"
   ],
   "note": "The limit on evaluations holds; values below the minimum give the minimum, not the documented default."
  },
  {
   "property": "C88",
   "status": "partial",
   "theorems": [
    "Verif.Props.C88_refuted_kernel_dependence",
    "Verif.Props.C88_special_bounds_valid",
    "Verif.Props.C88_low_dimension",
    "Verif.Props.C88_user_bounds_partial",
    "Verif.Props.C88_refuted_explicit_default",
    "Verif.Props.C88_refuted_fixed_not_fixed",
    "Verif.Props.C88_refuted_auto_ignores_tuning",
    "Verif.Props.C88_automatic",
    "Verif.Props.C88_first_tuning",
    "Verif.Props.C88_cooperation"
   ],
   "note": "Bounds valid in all dimensions, user bounds kept unless equal to the default. Refuted: no dependence on kernels, fixed tuning not fixed, automatic clusters ignore the tuning."
  },
  {
   "property": "C89",
   "status": "partial",
   "theorems": [
    "Verif.Props.C89_experts_not_worse_partial",
    "Verif.Props.C89_partial_tuning_not_worse_partial",
    "Verif.Props.C89_full_tuning_not_worse_partial",
    "Verif.Props.C89_refuted_unsorted_active",
    "Verif.Props.C89_refuted_failures"
   ],
   "note": "Proved for minimizers that do not fail, initial value within the bounds, active lists that are increasing or, if the bounds are the same for all components, in any order. Refuted for other active lists and for optimizers that fail."
  },
  {
   "property": "C90",
   "status": "proved",
   "theorems": [
    "Verif.Props.C90_positive_semidefinite",
    "Verif.Props.C90_cholesky_succeeds",
    "Verif.Props.C90_constant_mean_fits",
    "Verif.Props.C90_negative_hyperparameter"
   ],
   "note": "Exact arithmetic, for all four kernels, weights and points and non negative hyperparameters; the Cholesky factorization of the fit then exists for every positive nugget and a constant trend always fits. A negative hyperparameter breaks it (shown)."
  },
  {
   "property": "C91",
   "status": "proved",
   "theorems": [
    "Verif.Props.C91_covariance",
    "Verif.Props.C91_variance",
    "Verif.Props.C91_trajectories"
   ],
   "note": "Exact arithmetic; contracts of Cholesky, QR and triangular solve. The clamping of negative variances has no effect then."
  },
  {
   "property": "C92",
   "status": "proved",
   "theorems": [
    "Verif.Props.C92_fitc_likelihood",
    "Verif.Props.C92_vfe_likelihood"
   ],
   "note": "Exact arithmetic; contracts of Cholesky and triangular solve."
  },
  {
   "property": "C93",
   "status": "partial",
   "theorems": [
    "Verif.Props.C93_law_partial",
    "Verif.Props.C93_refuted_law",
    "Verif.Props.C93_prior_covariance_partial",
    "Verif.Props.C93_refuted_vfe",
    "Verif.Props.C93_refuted_fitc",
    "Verif.Props.C93_fitc_iff",
    "Verif.Props.C93_refuted_fitc_inducing"
   ],
   "note": "Trajectories use the prior covariance, which is valid; refuted: their variance is strictly larger than the predicted one at every point (VFE; FITC with one inducing point); for FITC in general never smaller, and equal exactly where the inducing variables explain no covariance with any observation, which is never so at an inducing point (C93_fitc_iff, C93_refuted_fitc_inducing)."
  },
  {
   "property": "C94",
   "status": "proved",
   "theorems": [
    "Verif.Props.C94_located",
    "Verif.Props.C94_randomized"
   ],
   "note": "For every outcome of the shuffle."
  },
  {
   "property": "C95",
   "status": "partial",
   "theorems": [
    "Verif.Props.C95_fixed_noise",
    "Verif.Props.C95_nan_parameters",
    "Verif.Props.C95_within_bounds_partial",
    "Verif.Props.C95_not_worse_partial",
    "Verif.Props.C95_fixed_theta_partial",
    "Verif.Props.C95_refuted_all_fail"
   ],
   "note": "Proved for minimizers that do not fail when the likelihood is a number and the variance of the outputs is not null; fixed noise proved in general. Refuted when every likelihood evaluation fails: all parameters are 10, fixed theta included."
  },
  {
   "property": "C96",
   "status": "partial",
   "theorems": [
    "Verif.Props.C96_reuses_previous_partial",
    "Verif.Props.C96_refuted_values_lost",
    "Verif.Props.C96_refuted_four_iterations",
    "Verif.Props.C96_one_theta_per_cluster"
   ],
   "note": "Proved after a clustering, and with cooperative components and one cluster. Refuted otherwise: the hyperparameters optimized after the last clustering are not kept."
  },
  {
   "property": "C97",
   "status": "partial",
   "theorems": [
    "Verif.Props.C97_cooperative_not_worse_partial",
    "Verif.Props.C97_random_groups",
    "Verif.Props.C97_refuted_several_clusters"
   ],
   "note": "Proved for one cluster, minimizers that do not fail and initial values within the bounds; the conditions on groups and bounds are proved for the groups drawn by the optimizer with the default tuning. Refuted with several clusters: only the last group is tuned."
  },
  {
   "property": "C98",
   "status": "partial",
   "theorems": [
    "Verif.Props.C98_iteration_budget",
    "Verif.Props.C98_stops_iff_partial",
    "Verif.Props.C98_reason_partial",
    "Verif.Props.C98_refuted_infeasible_target"
   ],
   "note": "Proved: at most max_iters iterations, exact stopping condition, one of the three reasons when the run ends. Refuted for the feasibility of the point that reaches the target."
  },
  {
   "property": "C99",
   "status": "partial",
   "theorems": [
    "Verif.Props.C99_result_is_evaluated_optimum_partial",
    "Verif.Props.C99_inputs_admissible",
    "Verif.Props.C99_refuted_infeasible_optimum"
   ],
   "note": "Proved: result without panic, true values, optimum among the rows, admissible inputs (initial design and proposals within the relaxed bounds), optimum first of lowest rank for the stored constraint values. Refuted for the true values of function constraints, which are stored scaled (C21): the reported optimum can violate a constraint that another row satisfies."
  },
  {
   "property": "C100",
   "status": "partial",
   "theorems": [
    "Verif.Props.C100_suggestions_admissible_partial",
    "Verif.Props.C100_refuted_known_point",
    "Verif.Props.C100_suggestions_are_proposals",
    "Verif.Props.C100_refuted_any_known_point"
   ],
   "note": "Admissible suggestions, their number and absence of panic proved when categorical variables come last (encoding of the data, C09). The suggestions are the proposals of the successive optimizations, in order. Refuted for all data: new points."
  },
  {
   "property": "C101",
   "status": "partial",
   "theorems": [
    "Verif.Props.C101_folded_iff",
    "Verif.Props.C101_relaxed_sample",
    "Verif.Props.C101_folded_sample_partial",
    "Verif.Props.C101_folded_in_space",
    "Verif.Props.C101_refuted_folded_category",
    "Verif.Props.C101_full_factorial",
    "Verif.Props.C101_design"
   ],
   "note": "Proved without folding, for any continuous sample within the limits, full factorial and Latin hypercube samples. With folding: always admissible; nearest points when no categorical variable of two levels or more comes before another one, refuted otherwise (C101_folded_iff)."
  },
  {
   "property": "C102",
   "status": "partial",
   "theorems": [
    "Verif.Props.C102_folded_iff",
    "Verif.Props.C102_prediction_at_nearest",
    "Verif.Props.C102_folded_prediction_partial",
    "Verif.Props.C102_interpolates",
    "Verif.Props.C102_folded_interpolates_partial",
    "Verif.Props.C102_refuted_linfa_predict",
    "Verif.Props.C102_refuted_folded_gradient_width",
    "Verif.Props.C102_folded_gradient_width_iff",
    "Verif.Props.C102_linfa_predict_iff"
   ],
   "note": "Proved without folding for the surrogate methods; with folding for the orders of variables where C09 holds. Refuted: predict of linfa (right exactly at admissible points), width of folded gradients (right exactly when all categorical variables have one level)."
  },
  {
   "property": "C103",
   "status": "proved",
   "theorems": [
    "Verif.Props.C103_ego_iteration_points",
    "Verif.Props.C103_new_points_added",
    "Verif.Props.C103_trego_local_point"
   ],
   "note": "Exact set of points added by an EGO iteration and by a TREGO local iteration, for iterations that do not panic."
  },
  {
   "property": "C77",
   "status": "partial",
   "theorems": [
    "Verif.Props.C77_variance_terms",
    "Verif.Props.C77_constant_mean_partial",
    "Verif.Props.C77_refuted_gradient",
    "Verif.Props.C77_refuted_variance"
   ],
   "note": "With a constant mean the two builds agree on variances, variance gradients and covariances, for every fit. With a linear mean they do not: the blas build keeps only the diagonal of the triangular factor in the variance, and its gradient evaluates the basis functions at the un-normalised point. The triangular solver of ndarray-linalg is assumed to read the named triangle. Predictions of the mean are the same code in both builds and are not restated here."
  },
  {
   "property": "C104",
   "status": "proved",
   "theorems": [
    "Verif.Props.C104_success",
    "Verif.Props.C104_linear",
    "Verif.Props.C104_units",
    "Verif.Props.C104_likelihood"
   ],
   "note": "Hyperparameters are given (fitWith); the likelihood part shows that the objective of their optimization does not change. Real arithmetic. The two fits may use different linear algebra backends satisfying the contract."
  },
  {
   "property": "C105",
   "status": "proved",
   "theorems": [
    "Verif.Props.C105_input_units"
   ],
   "note": "Positive factors; a component which is constant over the training points only admits a change of origin, as its standard deviation is replaced by one. Real arithmetic, given hyperparameters (in normalized units)."
  },
  {
   "property": "C106",
   "status": "proved",
   "theorems": [
    "Verif.Props.C106_order",
    "Verif.Props.C106_success"
   ],
   "note": "The success of the other fit is an hypothesis of C106_order, as the conditioning test of the backend may depend on the order; with exact linear algebra it succeeds (C106_success). Real arithmetic."
  },
  {
   "property": "C107",
   "status": "proved",
   "theorems": [
    "Verif.Props.C107_best_linear_unbiased",
    "Verif.Props.C107_trend"
   ],
   "note": "The nonnegativity of the variance (no clamping) needs nonnegative theta and nugget. Real arithmetic, given hyperparameters, stationary kernels of the crate."
  },
  {
   "property": "C108",
   "status": "partial",
   "theorems": [
    "Verif.Props.C108_error_iff_partial",
    "Verif.Props.C108_success",
    "Verif.Props.C108_refuted_panics"
   ],
   "note": "Exact condition of the returned error, and consequences of success. Refuted: other wrong numbers of hyperparameters panic, always without dimension reduction, and with it when more hyperparameters than the reduced dimension are given."
  },
  {
   "property": "C109",
   "status": "partial",
   "theorems": [
    "Verif.Props.C109_accepted_iff_partial",
    "Verif.Props.C109_same_for_all_libraries",
    "Verif.Props.C109_null_scale",
    "Verif.Props.C109_surrogate_scale",
    "Verif.Props.C109_function_scale",
    "Verif.Props.C109_failure_iff",
    "Verif.Props.C109_failure_not_selected",
    "Verif.Props.C109_tolerance",
    "Verif.Props.C109_refuted_tolerance",
    "Verif.Props.C109_refuted_null_scale",
    "Verif.Props.C109_refuted_scale_of_another_constraint"
   ],
   "note": "Proved for every library when the scales are positive numbers; all the libraries agree without any condition; exact values of the scales. Refuted: the tolerances of the user are not used by the optimizers, a null scale makes every point infeasible, and with the constrained criterion the scales of other constraints are used."
  },
  {
   "property": "C110",
   "status": "partial",
   "theorems": [
    "Verif.Props.C110_mean_error_partial",
    "Verif.Props.C110_variance_error_partial",
    "Verif.Props.C110_mean_limit",
    "Verif.Props.C110_variance_limit",
    "Verif.Props.C110_mean_kernels_partial",
    "Verif.Props.C110_variance_kernels_partial",
    "Verif.Props.C110_refuted_corner"
   ],
   "note": "Error bounds of order two proved for every kernel, mean and variance, with an explicit constant (sharper for the squared exponential): for the absolute exponential when no inducing point is within a step along the component, for the variance where it is above its lower bound. Refuted next to the corners of the absolute exponential: at half a step of an inducing point the gradient misses at least half of the derivative, however small the step. Exact arithmetic: rounding, dominant for small steps, and single precision are not covered."
  },
  {
   "property": "C111",
   "status": "partial",
   "theorems": [
    "Verif.Props.C111_refuted_portfolio",
    "Verif.Props.C111_hyperparameters_partial",
    "Verif.Props.C111_mixture_partial",
    "Verif.Props.C111_run_partial",
    "Verif.Props.C111_run_numbers",
    "Verif.Props.C111_refuted_one_restart",
    "Verif.Props.C111_refuted_run_clusters",
    "Verif.Props.C111_sparse_gp",
    "Verif.Props.C111_sparse_mixture_located_partial",
    "Verif.Props.C111_sparse_gp_iff",
    "Verif.Props.C111_sparse_mixture_iff_partial",
    "Verif.Props.C111_refuted_sparse_seed",
    "Verif.Props.C111_generator"
   ],
   "note": "Holds unless there is exactly one restart for: hyperparameters and mixtures of GPs, runs of the optimizer with one cluster, inducing points of sparse GPs; refuted for a single restart, for runs with several clusters, for portfolios (order of a hash map), and for the inducing points of sparse mixtures whose generator starts with a small number (exact criterion; the seed 42 is one of them). Clustering, likelihood and optimizer are parameters; information flow only, not the quality of the generators."
  },
  {
   "property": "C112",
   "status": "proved",
   "theorems": [
    "Verif.Props.C112_gp_rows",
    "Verif.Props.C112_gp",
    "Verif.Props.C112_sparse_rows",
    "Verif.Props.C112_sparse",
    "Verif.Props.C112_mixture",
    "Verif.Props.C112_mixture_rows",
    "Verif.Props.C112_append",
    "Verif.Props.C112_independent"
   ],
   "note": "Matrix code for several points modelled for GPs, sparse GPs and mixtures (hard and smooth); equality with the predictions at each point alone, same failures, joint predictions equal to the separate ones. Exact arithmetic: products of matrices may round differently with the number of rows."
  },
  {
   "property": "C113",
   "status": "proved",
   "theorems": [
    "Verif.Props.C113_variables",
    "Verif.Props.C113_gradients",
    "Verif.Props.C113_success",
    "Verif.Props.C113_order_of_variables"
   ],
   "note": "Likelihood, predictions, variances, covariances and gradients; success too. The unit of a variable whose values are all equal is not covered (its scale is then 1, whatever the unit): hypothesis of the theorem."
  },
  {
   "property": "C114",
   "status": "partial",
   "theorems": [
    "Verif.Props.C114_order",
    "Verif.Props.C114_variables",
    "Verif.Props.C114_output_unit_partial",
    "Verif.Props.C114_refuted_output_origin",
    "Verif.Props.C114_refuted_fixed_nugget"
   ],
   "note": "Order of training points and inducing points, order, direction, unit and origin of the variables: proved for predictions, variances and likelihood. Unit of the output: proved when the nugget is scaled with the variances and above the threshold on variances; refuted with a nugget left as is. Origin of the output: refuted, the prior mean is zero."
  },
  {
   "property": "C115",
   "status": "partial",
   "theorems": [
    "Verif.Props.C115_fitc",
    "Verif.Props.C115_vfe_partial",
    "Verif.Props.C115_refuted_vfe_variance"
   ],
   "note": "Proved for FITC (predictions, variances, likelihood) and for VFE (predictions, likelihood). Refuted for the variances of VFE, because of the sign of a term (C50). Zero nugget."
  },
  {
   "property": "C116",
   "status": "proved",
   "theorems": [
    "Verif.Props.C116_predictions",
    "Verif.Props.C116_training_points",
    "Verif.Props.C116_constant_bound",
    "Verif.Props.C116_constant_variance",
    "Verif.Props.C116_extrapolation",
    "Verif.Props.C116_sparse"
   ],
   "note": "Exact arithmetic. Limits are uniform over the points beyond a bound along a variable on which correlations depend."
  },
  {
   "property": "C117",
   "status": "proved",
   "theorems": [
    "Verif.Props.C117_necessary",
    "Verif.Props.C117_iff",
    "Verif.Props.C117_count",
    "Verif.Props.C117_linear"
   ],
   "note": "Exact linear algebra: the test on the condition number of the trend matrix (a parameter of the model) is supposed to pass; positive nugget and non negative hyperparameters for the converse."
  },
  {
   "property": "C118",
   "status": "proved",
   "theorems": [
    "Verif.Props.C118_iff",
    "Verif.Props.C118_repeated",
    "Verif.Props.C118_distinct"
   ],
   "note": "Exact arithmetic and exact linear algebra (rounding can make a nearly singular matrix fail). Non negative hyperparameters."
  },
  {
   "property": "C119",
   "status": "proved",
   "theorems": [
    "Verif.Props.C119_positive",
    "Verif.Props.C119_zero_iff"
   ],
   "note": "Exact arithmetic. The code keeps variances above zero by a maximum: the theorem says where the maximum is zero."
  },
  {
   "property": "C120",
   "status": "proved",
   "theorems": [
    "Verif.Props.C120_one_expert_per_cluster",
    "Verif.Props.C120_every_point_once",
    "Verif.Props.C120_hard_interpolates",
    "Verif.Props.C120_two_passes",
    "Verif.Props.C120_tunings",
    "Verif.Props.C120_succeeds_iff"
   ],
   "note": "Fits, cross validations and predictions are parameters. That the Gaussian mixture assigns points to clusters it has is a hypothesis of two theorems."
  },
  {
   "property": "C121",
   "status": "partial",
   "theorems": [
    "Verif.Props.C121_as_asked",
    "Verif.Props.C121_factor_partial",
    "Verif.Props.C121_refuted_validation",
    "Verif.Props.C121_refuted_auto"
   ],
   "note": "Proved for a given number of clusters: requested recombination, or a factor among the candidates with a second training on all the data. Refuted: validation points are training points of the experts; with an automatic number of clusters the request is ignored and the factor of a smooth recombination is 1."
  },
  {
   "property": "C122",
   "status": "proved",
   "theorems": [
    "Verif.Props.C122_batch",
    "Verif.Props.C122_full_batch",
    "Verif.Props.C122_kept_entries",
    "Verif.Props.C122_weights",
    "Verif.Props.C122_without_portfolio",
    "Verif.Props.C122_portfolio",
    "Verif.Props.C122_is_run",
    "Verif.Props.C122_local_step"
   ],
   "note": "Training, scaling, the optimization of the criterion and predictions are parameters. The proposals of the theorems on runs (Run.selectNextPoints), which are arbitrary there, include those described here (C122_is_run)."
  },
  {
   "property": "C123",
   "status": "partial",
   "theorems": [
    "Verif.Props.C123_shorter_batch_partial",
    "Verif.Props.C123_refuted_first_point",
    "Verif.Props.C123_refuted_portfolio"
   ],
   "note": "Proved: a failed prediction ends a batch, which keeps its points. Refuted: a failure for the first point of a batch, or for one weight of a portfolio, is an out of bounds panic."
  },
  {
   "property": "C124",
   "status": "proved",
   "theorems": [
    "Verif.Props.C124_files",
    "Verif.Props.C124_last_row_is_result",
    "Verif.Props.C124_never_worse"
   ],
   "note": "The executor of argmin (next_iter, update, observe_iter, increment_iter) is modelled from its documentation. Failures of the file system are left out."
  },
  {
   "property": "C125",
   "status": "partial",
   "theorems": [
    "Verif.Props.C125_row_contents_partial",
    "Verif.Props.C125_restart_partial",
    "Verif.Props.C125_refuted_columns",
    "Verif.Props.C125_refuted_restart",
    "Verif.Props.C125_refuted_discrete",
    "Verif.Props.C125_columns_iff",
    "Verif.Props.C125_refuted_any_restart"
   ],
   "note": "Proved: contents of the rows; a restart writes the rows of its own iterations. Refuted: columns are outputs then inputs, a restart from a checkpoint drops the earlier rows, inputs are those of the relaxed space when some variables are discrete. The first two fail for all runs."
  },
  {
   "property": "C126",
   "status": "partial",
   "theorems": [
    "Verif.Props.C126_inputs_partial",
    "Verif.Props.C126_inputs_and_outputs_partial",
    "Verif.Props.C126_sampling_partial",
    "Verif.Props.C126_refuted_enum_inputs",
    "Verif.Props.C126_refuted_enum_outputs",
    "Verif.Props.C126_refuted_enum_shift"
   ],
   "note": "Proved without categorical variable, for designs with and without outputs, and for the default sampling. Refuted with categorical variables: the columns of the design are compared with the number of relaxed coordinates, which gives a panic or a silent mix of inputs and outputs."
  },
  {
   "property": "C127",
   "status": "partial",
   "theorems": [
    "Verif.Props.C127_points_partial",
    "Verif.Props.C127_latin",
    "Verif.Props.C127_seed",
    "Verif.Props.C127_refuted_single_point"
   ],
   "note": "Proved for all methods and domains; Latin hypercube methods give one point per stratum of continuous variables. Refuted for one point with the maximin methods (panic) and the default one (no pair to exchange, endless loop)."
  },
  {
   "property": "C128",
   "status": "partial",
   "theorems": [
    "Verif.Props.C128_options_partial",
    "Verif.Props.C128_same_fit",
    "Verif.Props.C128_within_bounds_partial",
    "Verif.Props.C128_not_worse_partial",
    "Verif.Props.C128_refuted_bounds",
    "Verif.Props.C128_refuted_no_points",
    "Verif.Props.C128_refuted_reduced_init",
    "Verif.Props.C128_refuted_default_bounds",
    "Verif.Props.C128_defaults"
   ],
   "note": "Proved with inducing points and one interval (or none) for all components of theta. Refuted: one interval per component panics, the default options panic (no inducing points), an initial theta per input panics when the dimension is reduced, the default upper bound of sparse processes is not used."
  },
  {
   "property": "C129",
   "status": "partial",
   "theorems": [
    "Verif.Props.C129_same_format",
    "Verif.Props.C129_other_format",
    "Verif.Props.C129_roundtrip_partial",
    "Verif.Props.C129_save_iff",
    "Verif.Props.C129_refuted_save",
    "Verif.Props.C129_refuted_sparse",
    "Verif.Props.C129_mixture",
    "Verif.Props.C129_contents",
    "Verif.Props.C129_refuted_json"
   ],
   "note": "Proved for names with an extension which can be created: binary files always give the model back, JSON files do if and only if all numbers are finite, that is if on no cluster the outputs are exactly those of the mean model. Refuted: a model trained on constant outputs is saved as JSON with success and cannot be loaded, a name without extension or a file that cannot be created panics instead of returning False, a single sparse surrogate cannot be loaded."
  },
  {
   "property": "C130",
   "status": "partial",
   "theorems": [
    "Verif.Props.C130_cholesky",
    "Verif.Props.C130_default_partial",
    "Verif.Props.C130_interpolation",
    "Verif.Props.C130_degenerate",
    "Verif.Props.C130_refuted_units",
    "Verif.Props.C130_expected_improvement",
    "Verif.Props.C130_cholesky_iff"
   ],
   "note": "Proved with exact linear algebra: with independent standard normal draws, trajectories drawn with the Cholesky method are independent Gaussian vectors with the predictions as means and the predicted covariance, and the method succeeds exactly at distinct points which are not training inputs (or with a nugget), if the outputs are not those of a trend; with the default method they are independent Gaussian vectors for all points, with a covariance within 1e-9 of the predicted one, and exact when no eigenvalue is in between; without nugget trajectories go through the data. Refuted for the default method: the threshold is absolute, so that in small enough units of the outputs trajectories do not vary though the predicted variance is positive."
  },
  {
   "property": "C131",
   "status": "partial",
   "theorems": [
    "Verif.Props.C131_scale",
    "Verif.Props.C131_scale_exact",
    "Verif.Props.C131_no_overflow",
    "Verif.Props.C131_excess",
    "Verif.Props.C131_lhs_strata_partial",
    "Verif.Props.C131_lhs_iff",
    "Verif.Props.C131_lhs_exact_width",
    "Verif.Props.C131_centered",
    "Verif.Props.C131_random",
    "Verif.Props.C131_full_factorial_levels",
    "Verif.Props.C131_full_factorial_partial",
    "Verif.Props.C131_full_factorial_iff",
    "Verif.Props.C131_refuted_full_factorial",
    "Verif.Props.C131_refuted_lhs"
   ],
   "note": "Proved with IEEE 754 binary64 arithmetic (round to nearest even, gradual underflow, no overflow of the width): numbers of [0, 1) are scaled within any bounds, hence random samples and centered Latin hypercubes are within any bounds; all samples respect lower bounds; a Latin hypercube of any kind is within the bounds if and only if no normalized number equal to 1 is scaled above its bound, in particular for bounds whose width is exact; its strata hold one point each, up to 2^-52; full factorial designs have the levels of exact arithmetic and are within the bounds when the last level is not above the upper bound (an equivalence with one variable); the excess is at most 2^-51 times the largest bound. Refuted: a full factorial design on [-0.3, 0.1] always has a point above 0.1; a classic Latin hypercube of four points can be rounded to 1 and then be above 0.1."
  },
  {
   "property": "C132",
   "status": "partial",
   "theorems": [
    "Verif.Props.C132_cast_partial",
    "Verif.Props.C132_cast_exact",
    "Verif.Props.C132_refuted_nearest",
    "Verif.Props.C132_sample",
    "Verif.Props.C132_sample_in_space_partial",
    "Verif.Props.C132_lhs",
    "Verif.Props.C132_centered_random",
    "Verif.Props.C132_full_factorial",
    "Verif.Props.C132_refuted_float"
   ],
   "note": "Proved with binary64 arithmetic: casts never panic on valid types, land on admissible values, are idempotent, integers and categories are the nearest ones, values of lists are the nearest ones up to a relative error 2^-53 on distances (exactly when the differences are numbers of type f64); designs of all kinds have the number of points asked for, with integers, values of lists and categories of the declared space and floats not below their lower bound and above their upper bound by at most the rounding; random samples and centered Latin hypercubes are in the declared space, as are all designs when upper bounds are not rounded up. Refuted: with the values -1 and 1 the value given to 2^-60 is -1; a full factorial design of a float of [-0.3, 0.1] has a point above 0.1."
  },
  {
   "property": "C133",
   "status": "partial",
   "theorems": [
    "Verif.Props.C133_midpoints",
    "Verif.Props.C133_midpoints_in_bounds",
    "Verif.Props.C133_no_overflow",
    "Verif.Props.C133_refuted_overflow",
    "Verif.Props.C133_starts",
    "Verif.Props.C133_local_box_partial",
    "Verif.Props.C133_local_starts_partial",
    "Verif.Props.C133_refuted_local_area",
    "Verif.Props.C133_refuted_local_starts"
   ],
   "note": "Proved with binary64 arithmetic: whatever the order of pairs and the pairs picked, each midpoint is the number nearest to the exact midpoint of two different data points, hence within the bounds; the number of starts is the one asked for; starts of global and local steps are not below the lower bounds and above the upper bounds by at most the rounding; the local area is within the design space and contains the best point; no overflow for data below 2^1023. Refuted: sums of larger data overflow; the local area of a best point at the upper bound 2^40 is a single point with the default distances; a start of a local step can be above the upper bound. Not modelled: sums of squares of distances (any order and any pick are allowed)."
  },
  {
   "property": "C134",
   "status": "partial",
   "theorems": [
    "Verif.Props.C134_first_iteration_partial",
    "Verif.Props.C134_mixed_integer_partial",
    "Verif.Props.C134_trains_from_scratch",
    "Verif.Props.C134_answers",
    "Verif.Props.C134_refuted_infeasible",
    "Verif.Props.C134_refuted_clusters",
    "Verif.Props.C134_refuted_second_iteration"
   ],
   "note": "Proved: without function constraints and CoEGO, the points suggested from evaluated data are those that a run starting from this data with the same seed tries first (also the same panics), for continuous and discrete variables, whatever the training, the scaling, the optimizer of the infill criterion and the portfolio; this needs a feasible point, or the use of feasibility by the run, or an infill criterion without constraints, and a given number of clusters, or a number of points which is not a multiple of ten, or one point per iteration; a suggestion of one point trains from scratch whatever q_optmod; if nothing fails in the training, scaling, optimization and prediction, a suggestion for continuous variables is made of q_points points. Refuted: other first iterations (no feasible point; automatic clusters with several points per iteration), and second iterations: suggest starts again from the seed and can suggest an evaluated point while the run does not."
  },
  {
   "property": "C135",
   "status": "proved",
   "theorems": [
    "Verif.Props.C135_options_reach",
    "Verif.Props.C135_accepted_iff",
    "Verif.Props.C135_no_option_ignored",
    "Verif.Props.C135_suggest_same",
    "Verif.Props.C135_defaults",
    "Verif.Props.C135_default_target"
   ],
   "note": "Options and arguments have the documented value in the configuration of the run (for the options of Gaussian processes see C86); two optimizers have the same configuration if and only if they have the same options, up to stated synonyms; exact condition of acceptance; suggest has the configuration of minimize except the number of iterations and the design; the default values are those of the Rust builder except the optimizer of the infill criterion, the recombination and explicit tolerances."
  },
  {
   "property": "C136",
   "status": "partial",
   "theorems": [
    "Verif.Props.C136_predictions",
    "Verif.Props.C136_variances",
    "Verif.Props.C136_responsibilities_partial",
    "Verif.Props.C136_smooth_partial",
    "Verif.Props.C136_refuted_smooth",
    "Verif.Props.C136_hard_partial",
    "Verif.Props.C136_ei_iff_partial",
    "Verif.Props.C136_pof_iff_partial",
    "Verif.Props.C136_log_ei_partial",
    "Verif.Props.C136_refuted_ei"
   ],
   "note": "Predictions of a Gaussian process are smooth in the point for every kernel and mean (continuous for absolute exponential, C2 for Matern 3/2, C4 for Matern 5/2, C-infinity for squared exponential), variances of a fitted model too. Mixtures with smooth recombination are continuous where nothing is at a truncation threshold; refuted in general: with two clusters or more predictions always jump somewhere, even with experts all predicting 1. Hard recombination: continuous where one cluster is strictly the most responsible. Expected improvement and probability of feasibility: continuous if and only if the variance is not at the machine precision (or not smaller nearby); refuted as soon as the variance is negligible somewhere and not elsewhere."
  },
  {
   "property": "C137",
   "status": "proved",
   "theorems": [
    "Verif.Props.C137_correct_iff",
    "Verif.Props.C137_from_indices",
    "Verif.Props.C137_sort_perm",
    "Verif.Props.C137_sorted",
    "Verif.Props.C137_permute",
    "Verif.Props.C137_moved_once",
    "Verif.Props.C137_rows_kept",
    "Verif.Props.C137_sort_permute",
    "Verif.Props.C137_unchecked_undefined",
    "Verif.Props.C137_checked",
    "Verif.Props.C137_wrong_length"
   ],
   "note": "The check accepts exactly permutations; sorting gives a permutation, sorted and stable for a strict weak order; with a permutation, `permute_axis` reads only inside the allocation, for any memory layout, moves each element exactly once, and its panes are those of the source in the order of the permutation. Without assertions a list which is not a permutation makes it read outside (the only call gives it the result of a sort)."
  },
  {
   "property": "C138",
   "status": "partial",
   "theorems": [
    "Verif.Props.C138_double_read",
    "Verif.Props.C138_double_optimizer_partial",
    "Verif.Props.C138_double_gradient_partial",
    "Verif.Props.C138_fixed",
    "Verif.Props.C138_refuted_tuned",
    "Verif.Props.C138_refuted_local",
    "Verif.Props.C138_refuted_gradient",
    "Verif.Props.C138_refuted_inner",
    "Verif.Props.C138_refuted_unaligned"
   ],
   "note": "In double precision reading the memory of a number as f64 is the identity: optimizer starts, bounds and points of finite differences are the right ones. Refuted in single precision (models are generic in the float type): with tuned hyperparameters every training, and every gradient of a sparse model, reads beyond the end of an allocation, and other numbers are read as the bytes of two numbers. Fixed hyperparameters read nothing this way."
  },
  {
   "property": "C139",
   "status": "proved",
   "theorems": [
    "Verif.Props.C139_inner_loop",
    "Verif.Props.C139_schedule",
    "Verif.Props.C139_temperature_positive",
    "Verif.Props.C139_descent"
   ],
   "note": "Over exact reals, for any random choices: acceptance rule, columns exchanged, numbers of moves and improvements, factor of the temperature, initial temperature, positivity. The numbers of inner and outer iterations are those of the lists of choices."
  },
  {
   "property": "C140",
   "status": "partial",
   "theorems": [
    "Verif.Props.C140_thetas_iff",
    "Verif.Props.C140_reports_partial",
    "Verif.Props.C140_refit",
    "Verif.Props.C140_theta_of_fit",
    "Verif.Props.C140_python_refit",
    "Verif.Props.C140_refuted_shape",
    "Verif.Props.C140_sample"
   ],
   "note": "One row of hyperparameters, one variance and one likelihood per cluster, those of the expert of that cluster, and the training data as given; refitting with the reported hyperparameters kept fixed gives the same model; exact condition for the table to exist. Refuted: with a fixed value of one component the rows have length one instead of the number of inputs; sampling trajectories of a mixture of several clusters panics in Python."
  },
  {
   "property": "C141",
   "status": "partial",
   "theorems": [
    "Verif.Props.C141_improvement_nonneg_partial",
    "Verif.Props.C141_nonneg_partial",
    "Verif.Props.C141_refuted_subnormal"
   ],
   "note": "With library functions accurate to nine digits the computed value is non-negative (and its standardized form positive below the minimum) when the prediction exceeds the current minimum by at most 37 standard deviations. Refuted beyond: with correctly rounded functions it is negative at 38.5 standard deviations, where the terms are subnormal numbers. Overflow is not modelled."
  },
  {
   "property": "C142",
   "status": "partial",
   "theorems": [
    "Verif.Props.C142_ei_iff_partial",
    "Verif.Props.C142_logei_partial",
    "Verif.Props.C142_order_partial",
    "Verif.Props.C142_objective_partial",
    "Verif.Props.C142_gp_partial",
    "Verif.Props.C142_refuted_unit",
    "Verif.Props.C142_refuted_origin",
    "Verif.Props.C142_refuted_constrained",
    "Verif.Props.C142_trego_partial",
    "Verif.Props.C142_refuted_trego",
    "Verif.Props.C142_best_index"
   ],
   "note": "Best results do not depend on unit and origin (any increasing change of the objective). With unconstrained or constrained EI the function given to the internal optimizer is unchanged, with WB2 and WB2S it is unchanged by a change of unit, where the absolute thresholds (variance, scale) are passed in both units; the order of points by every criterion is unchanged. Refuted: a small enough unit makes EI zero on a bounded domain; WB2S depends on the origin; constrained LogEI and the success test of TREGO depend on the unit."
  },
  {
   "property": "C143",
   "status": "partial",
   "theorems": [
    "Verif.Props.C143_gp",
    "Verif.Props.C143_gp_default",
    "Verif.Props.C143_gp_order",
    "Verif.Props.C143_active_iff_partial",
    "Verif.Props.C143_refuted_active",
    "Verif.Props.C143_refuted_max_eval",
    "Verif.Props.C143_sgp",
    "Verif.Props.C143_defaults",
    "Verif.Props.C143_moe",
    "Verif.Props.C143_egor",
    "Verif.Props.C143_surrogates"
   ],
   "note": "For Gaussian processes, sparse models, mixtures and the optimizer: a setting which no later one concerns is in force, what no setting concerns keeps its value, settings on different subjects commute in sequences of any length. Refuted: theta_init or theta_bounds after a partial tuning makes all components tuned (exactly then); max_eval below 25 gives 25 and not the documented default."
  },
  {
   "property": "C144",
   "status": "proved",
   "theorems": [
    "Verif.Props.C144_retrain",
    "Verif.Props.C144_points_stay",
    "Verif.Props.C144_iterations"
   ],
   "note": "With a clustering taken from a trained mixture and data containing the inputs it was trained on (outputs and tunings may change), training never fails on the number of points of a cluster and never trains a second time: it succeeds exactly when the expert of each cluster can be trained, keeps clusters and recombination, and has one expert per cluster. Lifted to any number of iterations. A shrunk data set is shown to be refused."
  },
  {
   "property": "C145",
   "status": "proved",
   "theorems": [
    "Verif.Props.C145_report",
    "Verif.Props.C145_scheduling",
    "Verif.Props.C145_succeeds_iff",
    "Verif.Props.C145_leave_one_out",
    "Verif.Props.C145_fewer_points"
   ],
   "note": "Equivalence: the program gives a report exactly when the metrics of each surrogate can be computed, and the report is then a line per surrogate in the order of the file with its own metrics, whatever the order in which parallel tasks end; existence of the report in terms of folds and training; leave-one-out by default for surrogates with the same number of training points (files of the optimizer). A surrogate with less points than the first one makes the program panic. Decoding of bytes is a parameter; two-decimal printing is not modelled."
  },
  {
   "property": "C146",
   "status": "partial",
   "theorems": [
    "Verif.Props.C146_design_partial",
    "Verif.Props.C146_starts_partial",
    "Verif.Props.C146_objective_partial",
    "Verif.Props.C146_constraints_partial",
    "Verif.Props.C146_gradient_partial",
    "Verif.Props.C146_constrained_gradient_partial",
    "Verif.Props.C146_gp_partial",
    "Verif.Props.C146_local_area_iff",
    "Verif.Props.C146_refuted_local_area",
    "Verif.Props.C146_new_point_iff",
    "Verif.Props.C146_refuted_new_point",
    "Verif.Props.C146_refuted_run",
    "Verif.Props.C146_refuted_portfolio",
    "Verif.Props.C146_portfolio_unit_cube"
   ],
   "note": "Proved for all changes of units and origins: sampled designs, starts of the internal optimizer, the values and gradients of the criteria with and without constraints, and the Gaussian processes they use are the same in the new units (gradients divided by the units). Refuted: the local area of the trust region has absolute sizes (exact condition; a unit giving another area exists for every interior point), new points are told from known ones by an absolute distance (exact condition; in units where the domain is small no run adds any point), and the members of a portfolio are clustered with an absolute tolerance: in the unit cube, and in all units below or above some value, only the first member is proposed. The clustering crate is a contract (labels when all points are close or all far). The internal optimizer itself is not modelled."
  },
  {
   "property": "C147",
   "status": "partial",
   "theorems": [
    "Verif.Props.C147_lhs_uniform",
    "Verif.Props.C147_lhs_unbiased",
    "Verif.Props.C147_random",
    "Verif.Props.C147_optimized_unbiased_partial",
    "Verif.Props.C147_lhs_accuracy",
    "Verif.Props.C147_centered_middle_partial",
    "Verif.Props.C147_refuted_centered",
    "Verif.Props.C147_refuted_maximin"
   ],
   "note": "Proved with the law of the random choices (independent, shuffles equally likely, numbers uniform): random points are independent and uniform in the box, each point of a classic Latin hypercube is uniform, so the expected average of any integrable function is its mean; for optimized (default) designs this holds for functions of one variable whatever the exchanges. For all kinds and all choices, averages of Lipschitz functions of one variable are within half of the variation over a stratum of their mean. Refuted for centered designs (the average of squares is always 1/3 - 1/(12 n^2)) and maximin designs (distance to the middle, two points in one dimension, any number of draws). Functions of several variables over optimized designs are not covered. Real numbers, no rounding."
  },
  {
   "property": "C148",
   "status": "partial",
   "theorems": [
    "Verif.Props.C148_interrupted_partial",
    "Verif.Props.C148_extended_partial",
    "Verif.Props.C148_finished",
    "Verif.Props.C148_refuted_changed_number",
    "Verif.Props.C148_short_numbers_partial",
    "Verif.Props.C148_refuted_odd_digits",
    "Verif.Props.C148_numbers_close_partial",
    "Verif.Props.C148_default_target"
   ],
   "note": "Proved for the optimization loop with choices that are functions of the state (which holds the generator): interrupted anywhere and started again it gives the uninterrupted run, extended it gives the run with the larger budget, and a finished run started again does nothing whatever the new budget; all if the numbers of the state are read back exactly. They are for decimals up to 2^53 with exponents up to 22, and always up to 5/2^53 relatively. Refuted: numbers between 1000 and 1024 written with an odd 17th digit are not read back exactly, and then the data of the two runs differ. Reading of numbers by serde_json and the executor of argmin are contracts; non finite numbers are the subject of C25; decimals of exponent beyond 308 are left out."
  },
  {
   "property": "C149",
   "status": "partial",
   "theorems": [
    "Verif.Props.C149_relative_variance",
    "Verif.Props.C149_believer_partial",
    "Verif.Props.C149_update",
    "Verif.Props.C149_same_correlations",
    "Verif.Props.C149_correlations_iff",
    "Verif.Props.C149_fixed_theta_iff",
    "Verif.Props.C149_refuted_variance",
    "Verif.Props.C149_refuted_fixed_theta"
   ],
   "note": "Proved for all kernels, means, nuggets and weights, for one Gaussian process with given hyperparameters, when points have the same correlations in both processes (C149_same_correlations and C149_correlations_iff say when: hyperparameters divided by the standard deviations of the variables agree): variances relative to the process variance never increase, observations equal to the predictions change no prediction and shrink variances at least by n/m, other observations change predictions by a combination of the prediction errors at the added points. Refuted: the variance itself may increase; with hyperparameters kept in normalized units (ThetaTuning::Fixed, as between the points of a batch) the correlations change whenever a standard deviation does, and predictions change even if the added output is the prediction. Exact arithmetic; mixtures of several clusters and tuning of the hyperparameters are left out."
  },
  {
   "property": "C150",
   "status": "partial",
   "theorems": [
    "Verif.Props.C150_zero_iff",
    "Verif.Props.C150_evaluated_partial",
    "Verif.Props.C150_new_point_partial",
    "Verif.Props.C150_log_new_point_partial",
    "Verif.Props.C150_separated",
    "Verif.Props.C150_wb2_iff",
    "Verif.Props.C150_variance_floor",
    "Verif.Props.C150_refuted_nugget",
    "Verif.Props.C150_refuted_elsewhere"
   ],
   "note": "One Gaussian process, exact arithmetic. Proved: the expected improvement is zero exactly where the variance is below the machine precision; if the nugget times the process variance is below it (always without nugget) the evaluated points have zero expected improvement and gradient, and maximizers of the expected improvement or of its logarithm over any set are new points (as soon as some point of the set is not negligible), at a bounded distance of the evaluated ones for a constant mean; exact condition for WB2 and WB2S. Refuted: with a nugget, in all large enough units of the outputs, the expected improvement is positive at the evaluated points too; without, it also vanishes in a neighbourhood of each of them. The internal optimizer, mixtures of several clusters and constraints are left out."
  },
  {
   "property": "C151",
   "status": "partial",
   "theorems": [
    "Verif.Props.C151_counts_partial",
    "Verif.Props.C151_refuted_ended_run",
    "Verif.Props.C151_refuted_no_iteration",
    "Verif.Props.C151_continued",
    "Verif.Props.C151_refuted_switched_on",
    "Verif.Props.C151_refuted_switched_off",
    "Verif.Props.C151_seed_iff",
    "Verif.Props.C151_seed_collision_iff",
    "Verif.Props.C151_no_seed_iff",
    "Verif.Props.C151_kernel_iff",
    "Verif.Props.C151_kernel_name",
    "Verif.Props.C151_acquisition_iff",
    "Verif.Props.C151_acquisition_name",
    "Verif.Props.C151_dimension_iff"
   ],
   "note": "Proved: for runs not ended as no more point can be added, the counts, numbers and samples of the file are those of the run, and a run stopped and continued has the same file. Exact conditions for the seed (less than 2^31), the kernel and criterion names, the dimension (no categorical variable of two values or more). Refuted: for all runs ended as no more point can be added (a batch counted twice), runs without iteration (maximal number of iterations instead of zero), recorder switched on (panic) or off (iterations left out) at a restart. The JSON text and the free texts are left out."
  },
  {
   "property": "C152",
   "status": "partial",
   "theorems": [
    "Verif.Props.C152_prediction_iff",
    "Verif.Props.C152_variance_iff",
    "Verif.Props.C152_dominance",
    "Verif.Props.C152_pareto",
    "Verif.Props.C152_bounds",
    "Verif.Props.C152_at_least_predicted_iff",
    "Verif.Props.C152_refuted_certain",
    "Verif.Props.C152_wb2",
    "Verif.Props.C152_log_partial",
    "Verif.Props.C152_log_all",
    "Verif.Props.C152_refuted_log",
    "Verif.Props.C152_feasibility_iff",
    "Verif.Props.C152_feasibility_variance",
    "Verif.Props.C152_refuted_known_feasible"
   ],
   "note": "Exact arithmetic. Proved: where variances are not below the machine precision, the expected improvement and WB2 increase with a better prediction and with more uncertainty (exact conditions), so that maximizers over any set are not dominated; bounds of the expected improvement; LogEI up to a million standard deviations, and up to 1e-11 beyond; the probability of feasibility follows prediction, tolerance and variance. Refuted: a certain improvement and a constraint known to be met are ranked below all uncertain points, whatever the predictions; LogEI decreases at the switch to its expansion, for all current minima and variances."
  },
  {
   "property": "C153",
   "status": "partial",
   "theorems": [
    "Verif.Props.C153_joint",
    "Verif.Props.C153_ei_expectation",
    "Verif.Props.C153_log_expectation_partial",
    "Verif.Props.C153_same_order",
    "Verif.Props.C153_feasible_iff",
    "Verif.Props.C153_ei_feasible",
    "Verif.Props.C153_refuted_wb2",
    "Verif.Props.C153_refuted_log_scale",
    "Verif.Props.C153_search_feasible",
    "Verif.Props.C153_log_search_feasible_partial",
    "Verif.Props.C153_refuted_log_flat",
    "Verif.Props.C153_no_constraint"
   ],
   "note": "Exact arithmetic, variances not below the machine precision. Proved: with EI the objective is minus the expected improvement by a point which has to meet the constraints (integral over independent normal variables) over the scale; with LogEI and a scale of 1 minus its logarithm, so that both order points alike; while no feasible point is known the most probably feasible points are preferred; without constraints the objective is the unconstrained one. Of two points of equal EI or WB2 the more probably feasible one is preferred if and only if the criterion is positive. Refuted: with WB2 the less probably feasible of any two points is preferred as soon as a large enough constant is added to the objective (exact threshold); with LogEI and any scale other than 1 some points are ordered otherwise than by EI; with LogEI all points where every constraint is less probable than the machine precision are tied."
  },
  {
   "property": "C154",
   "status": "partial",
   "theorems": [
    "Verif.Props.C154_range",
    "Verif.Props.C154_monotone",
    "Verif.Props.C154_all_monotone",
    "Verif.Props.C154_zero_iff_partial",
    "Verif.Props.C154_refuted_ties",
    "Verif.Props.C154_refuted_certain",
    "Verif.Props.C154_accurate",
    "Verif.Props.C154_log_range"
   ],
   "note": "Double precision, without overflow; erfc, sqrt and ln of the library are parameters with a contract on range and accuracy. Proved: computed probabilities are in [0, 1] and one more constraint never raises them; they never decrease with a better prediction or a larger tolerance (erfc non increasing); they are exact up to half the error of erfc plus 4e-14 per constraint; sums of logarithms are in [-37 k, 0]. The objective is 0 if and only if its exact product is at most half the smallest positive number. Refuted: all points where two constraints are each less probable than 2^-538 are tied, whatever the criterion, although their probabilities are positive; the hypothesis is met with correctly rounded functions by constraints 39 standard deviations above their tolerance."
  },
  {
   "property": "C155",
   "status": "partial",
   "theorems": [
    "Verif.Props.C155_no_reuse",
    "Verif.Props.C155_clone",
    "Verif.Props.C155_others",
    "Verif.Props.C155_with_rng",
    "Verif.Props.C155_with_rng_fresh",
    "Verif.Props.C155_linearizable",
    "Verif.Props.C155_alone",
    "Verif.Props.C155_refuted_interleaved",
    "Verif.Props.C155_lock",
    "Verif.Props.C155_maximin",
    "Verif.Props.C155_returns_iff",
    "Verif.Props.C155_refuted_failed_call",
    "Verif.Props.C155_refuted_failed_call_threads",
    "Verif.Props.C155_refuted_waiting",
    "Verif.Props.C155_usable_partial"
   ],
   "note": "Model of the lock and of the numbers drawn; what is computed from the numbers is a parameter; at least one dimension. Proved: whatever the calls, threads and schedule, each number which left the generator was drawn in exactly one section of one call; a clone, of whatever kind, is interchangeable with the original; other generators are left alone and a sampler given a generator depends on nothing else; random, classic and centered designs drawn in threads are those of the calls in some order; which calls return and in what state they leave the lock. Refuted: maximin and optimized designs drawn in threads need not be those of any order of the calls, so that the seed does not fix them; an optimized design of no point panics with the lock, after which the sampler and all its clones panic at every call; an optimized design of one point never ends and keeps the lock, so that other threads wait for ever."
  },
  {
   "property": "C156",
   "status": "partial",
   "theorems": [
    "Verif.Props.C156_monotone",
    "Verif.Props.C156_round_trip",
    "Verif.Props.C156_separated_partial",
    "Verif.Props.C156_refuted_merge",
    "Verif.Props.C156_scale_pos",
    "Verif.Props.C156_constant",
    "Verif.Props.C156_refuted_small_values",
    "Verif.Props.C156_refuted_adjacent",
    "Verif.Props.C156_mean",
    "Verif.Props.C156_squares",
    "Verif.Props.C156_deviation",
    "Verif.Props.C156_standardized_partial",
    "Verif.Props.C156_refuted_zero_mean",
    "Verif.Props.C156_refuted_merged_rows"
   ],
   "note": "Operations of f64 without overflow; the algorithms of mean_axis and std_axis of ndarray are modelled (sum row after row, one pass algorithm of Welford with fused multiplication and addition). Proved for all columns: the square root is that of a number which is not negative and the deviation is positive; a constant column has deviation exactly 1 and equal normalized values; normalizing keeps the order; restoring what was normalized gives the value back up to 2^-51 of its distance to the mean and 2^-53 of itself; values with the same normalized value are within 2^-51 of their distances to the mean; the mean is exact up to (n+1) 2^-52 of the largest value, and the square of the deviation up to n 2^-45 of the square of the largest value (values not all below 2^-500, at most 2^40 rows), so that a column of larger variance is put to scale. Refuted: values below 2^-55 times the mean are merged with zero, as the rows 0 and 2^-60 of the column 0, 2^-60, 1; columns below 2^-540, and two rows holding some adjacent numbers, have deviation 1 and so are not put to scale; the normalized values of a constant column may be any power of two."
  },
  {
   "property": "C157",
   "status": "partial",
   "theorems": [
    "Verif.Props.C157_symmetric",
    "Verif.Props.C157_distance",
    "Verif.Props.C157_accepted_partial",
    "Verif.Props.C157_batch",
    "Verif.Props.C157_batch_covered",
    "Verif.Props.C157_refuted_small_space",
    "Verif.Props.C157_distinct_partial",
    "Verif.Props.C157_refuted_merged"
   ],
   "note": "Operations of f64 without overflow; l1_dist of ndarray_stats is modelled as the sum of absolute differences one after the other. Proved for all rows of at most 2^40 coordinates: the computed distance is symmetric and exact up to (d+1) 2^-52, relatively; an accepted point is at least 99 epsilon from every stored point and a point at least 101 epsilon away is accepted; so after any batch all stored points are 99 epsilon apart, what was stored stays first, what is added are points of the batch in order, and every point of the batch is within 101 epsilon of a stored one; accepted points have distinct normalized rows when the number of variables times the largest distance to a mean is at most 24. Refuted: accepted points may have the same normalized value (0 and 1 in a column with 3 2^60); in a search space whose widths sum to less than 99 epsilon no second point is ever accepted."
  },
  {
   "property": "C158",
   "status": "partial",
   "theorems": [
    "Verif.Props.C158_feasible_iff",
    "Verif.Props.C158_monotone",
    "Verif.Props.C158_violation",
    "Verif.Props.C158_best_feasible",
    "Verif.Props.C158_best_kept",
    "Verif.Props.C158_best_infeasible_partial",
    "Verif.Props.C158_refuted_least_violated"
   ],
   "note": "Operations of f64 without overflow and NaN (the ones of C11 to C14 are in FindResult); one tolerance per constraint. Proved: feasibility is exact for any number of constraints, since a difference of distinct numbers is never rounded to zero; constraints which are all lower never have a larger sum of violations; the sum is exact up to (n+1) 2^-52, relatively (at most 2^40 constraints); if an evaluation meets the constraints the best one does and has the lowest objective of those, exactly, and the current best is replaced only by a strictly better one; otherwise its violation is the lowest up to (n+1) 2^-50, relatively. Refuted: the current best may be replaced by an evaluation which violates the constraints more, sums being rounded. The search over all the data at the start (find_best_result_index) is not part of this model."
  }
 ]
}