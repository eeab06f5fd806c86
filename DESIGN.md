# Formal model of egobox (relf/egobox): design

## Layout

* `lean/Verif/Model/*.lean`: executable (or, for real analysis, `noncomputable`) model of the Rust
  functions. Every definition cites the file and lines of `/repo` it models and says where it simplifies.
* `lean/Verif/Spec/*.lean`: small specifications, written without the model's helpers.
* `lean/Verif/Lemmas/*.lean`: helper lemmas.
* `lean/Verif/Props/*.lean`: the property theorems (one file per group of properties), each
  followed by `example`s showing that a concrete non-trivial case meets the hypotheses.
* `properties.jsonl`: the properties in English. `MANIFEST.json`: which theorems settle which property.
* `seeded/LOG.jsonl`: wrong programs tried against the theorems (one line per attempt). `theorems_failed` lists
  the declarations which stop compiling after the edit; the modules which import a failed module are not built, hence
  `theorems_depending_on_failed` gives the statements whose proofs use the failed ones (an upper bound). A failed proof
  does not by itself show that the statement became false: scripts also break on some equivalent edits (two of them were
  tried on purpose and are marked so).

Naming: `CNN_...` is a theorem about property `CNN`. `CNN_..._partial` proves a part of the property.
`CNN_refuted_...` proves that the property, as stated, is false of the code: the statement exhibits the
wrong behaviour. A property with a `_refuted_` theorem has status `partial` in the manifest, and the note
says for which inputs it does hold. Theorems of the form "if and only if" give the exact limit.

| model | Rust source (`/repo/crates`) |
|-------|------------------------------|
| `Flt` | `f64` special values, matrices with a number of columns |
| `FindResult` | `ego/src/utils/find_result.rs` |
| `MixInt` | `ego/src/gpmix/mixint.rs` |
| `Run` | `ego/src/solver/{egor_solver,solver_impl,trego,egor_state}.rs`, `ego/src/utils/{misc,run_recorder}.rs` |
| `Doe` | `doe/src/*.rs` |
| `Coego` | `ego/src/solver/{coego,solver_infill_optim}.rs` |
| `Steps` | `ego/src/utils/{start_points,portfolio}.rs`, `ego/src/solver/{trego,solver_computations}.rs` |
| `Persist` | warm start, `ego/src/utils/hot_start.rs` |
| `Resume` | executor loop continued from a checkpoint, reading of decimals |
| `Criteria`, `LogEiF64` | `ego/src/criteria/*.rs`, `ego/src/utils/{cstr_pof,logei_helper,misc}.rs`, `ego/src/solver/solver_computations.rs` |
| `Kernels`, `Means`, `GpUtils` | `gp/src/{correlation_models,mean_models,utils}.rs` |
| `Gp` | `gp/src/algorithm.rs` (fit for given hyperparameters, predictions, gradients, sampling) |
| `GpBlas` | `gp/src/algorithm.rs` (variance, covariance and variance gradient of the `blas` build) |
| `Tuning` | `gp/src/{parameters,optimization,algorithm}.rs`, `ego/src/solver/{coego,solver_impl}.rs`, `ego/src/utils/bounds.rs` (hyperparameters) |
| `Surrogate` | `ego/src/solver/solver_impl.rs` (hyperparameters kept between iterations) |
| `Result` | `ego/src/egor.rs` (result), `ego/src/egor_service.rs`, `ego/src/solver/solver_impl.rs` (suggestions) |
| `MixIntModel` | `ego/src/gpmix/mixint.rs` (sampling, surrogates) |
| `Sparse` | `gp/src/{sparse_algorithm,sparse_parameters}.rs` |
| `Moe` | `moe/src/{algorithm,clustering,parameters,expertise_macros,types}.rs` |
| `Train` | `moe/src/algorithm.rs` (training of mixtures as a whole) |
| `Propose` | `ego/src/solver/solver_impl.rs` (`select_next_points` as a whole, `refresh_surrogates`) |
| `Ask` | `solver/solver_impl.rs` (`suggest`, proposals of an iteration of a run), `solver/egor_service.rs`, with the parameters of `Propose` |
| `History` | `ego/src/egor.rs` (`OptimizationObserver`, files of `outdir`), loop of the executor with the observer |
| `UserDoe` | `ego/src/solver/egor_solver.rs` (choice of the initial design in `init`) |
| `Mixture` | `moe/src/{gaussian_mixture,algorithm}.rs` (predictions) |
| `Metrics` | `moe/src/metrics.rs`, `gp/src/metrics.rs` |
| `Config` | `ego/src/solver/egor_config.rs`, `/repo/python/src/{egor,domain,types}.rs` |
| `PyEgor` | `ego/src/solver/egor_config.rs` (all fields and setters), builders of `ego/src/egor.rs` and `ego/src/solver/egor_service.rs`, options of `/repo/python/src/egor.rs` |
| `SortAxis` | `ego/src/utils/sort_axis.rs` (unsafe code, memory as an allocation with offsets) |
| `Precision` | raw pointer casts of `gp/src/optimization.rs`, `gp/src/algorithm.rs`, `gp/src/sparse_algorithm.rs` |
| `Report` | accessors of trained mixtures in `python/src/gp_mix.rs`, `python/src/sparse_gp_mix.rs`; end of `fit` in `gp/src/algorithm.rs` |
| `EiF64` | `ExpectedImprovement::value` (`ego/src/criteria/ei.rs`), `norm_cdf`, `norm_pdf` (`ego/src/utils/misc.rs`) with the operations of `f64`; library functions are parameters |
| `Units` | a Gaussian process as surrogate of the criteria, scale of WB2S, scale of the infill objective, objective function of the internal optimizer (`solver_infill_optim.rs`, `solver_computations.rs`) |
| `Options` | chains of settings: `gp/src/parameters.rs`, `gp/src/sparse_parameters.rs`, `moe/src/parameters.rs`, `ego/src/solver/egor_config.rs` |
| `Quality` | `gpqa/src/main.rs`; `score` of `moe/src/types.rs`; decoders of files are parameters |
| `PyGp` | `/repo/python/src/{gp_config,gp_mix,egor}.rs` |
| `PySampling` | `/repo/python/src/sampling.rs` |
| `PySparse` | `/repo/python/src/sparse_gp_mix.rs` (options and `fit`) |
| `Save` | `save` and `load` of models: `/repo/crates/moe/src/algorithm.rs:511-524, 1096-1106`, `/repo/crates/moe/src/surrogates.rs:181-193, 349-360, 426-441`, `/repo/python/src/gp_mix.rs:310-331`, `/repo/python/src/sparse_gp_mix.rs:289-310` |
| `Sample` | trajectories: `/repo/crates/gp/src/algorithm.rs:382-411, 1149-1194`, `/repo/crates/gp/src/sparse_algorithm.rs:337-361` |
| `F64` | `+`, `-`, `*`, `/` of `f64`: exact result rounded to nearest, ties to even, gradual underflow |
| `DoeF64` | `doe/src/{traits,lhs,full_factorial,random}.rs` with the arithmetic of `F64` |
| `MixIntF64` | casts and samples of `gpmix/mixint.rs` with the arithmetic of `F64` |
| `StepsF64` | `utils/start_points.rs`, `solver/trego.rs` (local area), multistarts with the arithmetic of `F64`; order and choice of pairs are parameters |
| `Seeds` | origin of the random numbers in `gp`, `moe`, `ego` and `/repo/python/src` |
| `Batch` | matrix code for several points: `gp/src/algorithm.rs`, `gp/src/sparse_algorithm.rs`, `moe/src/algorithm.rs`, `moe/src/gaussian_mixture.rs` |
| `RunFile` | `ego/src/utils/run_recorder.rs` and its uses in `ego/src/egor.rs`, `ego/src/solver/egor_solver.rs`; free texts and JSON left out |
| `PofF64` | `pof`, `pofs`, `logpofs` (`ego/src/utils/cstr_pof.rs`) and `eval_infill_obj_with_cstrs` (`ego/src/solver/solver_computations.rs`) with the operations of `f64`; library functions are parameters |
| `Samplers` | the generator shared by clones of `Lhs` and `Random` (`doe/src/lhs.rs`, `doe/src/random.rs`): sections which have the lock, numbers drawn, poisoning; what is computed from the numbers is a parameter |
| `NormF64` | `normalize` (`gp/src/utils.rs`) for a column, and its uses in `predict` (`gp/src/algorithm.rs`), with the operations of `f64`; algorithms of `mean_axis` and `std_axis` |
| `DupF64` | `is_update_ok`, `update_data` (`ego/src/utils/misc.rs`) on inputs, with the operations of `f64` |
| `CstrF64` | `cstr_sum`, `cstr_min`, `find_best_result_index_from`, `is_feasible` (`ego/src/utils/find_result.rs`) with the operations of `f64` |

## Modelling conventions

* `&mut` updates return the new value. Panics are explicit error values (`Except Panic`).
* Matrices are lists of rows (`List (List α)`) with, where the number of columns matters for empty
  matrices, an explicit column count. Mathlib `Matrix` is used for the linear algebra of GPs.
* Floating point: four levels, always stated in the comments.
  1. `Flt`: IEEE comparison semantics with `nan`, `-inf`, `+inf` and exact rational finite values.
     Rounding is not modelled. Used where NaN or infinities decide the control flow (best result).
  2. an arbitrary linear ordered field `K` (exact arithmetic), for selection, bounds and geometry.
  3. `ℝ` for calculus (criteria, kernels, gradients).
  4. `F64`: real numbers with correctly rounded binary64 operations (`F64.rnd`, proved to give a nearest number of
     type `f64` and to keep the order), where rounding is the subject (C131-C133). Exponents are unbounded above.
* Random generators are parameters: a draw is an arbitrary value of the documented range, a shuffle an
  arbitrary permutation. External crates (argmin, cobyla, slsqp, linfa, GMM fitting, PLS, LAPACK-like
  factorizations, erfc, dbscan, serde) are parameters, with the assumed contract written as a
  hypothesis of the theorem that needs it.
* rayon reductions are modelled by arbitrary binary reduction trees.

## Trusted base

* Lean 4.33.0 kernel, Mathlib. No axiom is added: every theorem depends at most on `propext`,
  `Classical.choice`, `Quot.sound`; no `sorry`, no
  `native_decide`, no `bv_decide`.
* The correspondence between the Rust source and the Lean model (read by hand; nothing is extracted).
* Exact arithmetic in place of rounding, as described above. Where rounding or overflow is the subject
  of a property (C75, C57, C131-C133), the model is on `Flt` or `F64` or takes a rounding function.
* Contracts of external code. They are hypotheses or structure fields, never axioms:
  * `Gp.LinAlg`: Cholesky, triangular solves and QR of `linfa-linalg` in exact arithmetic. `Gp.exact` is an
    instance, so the contract is satisfiable. The `blas` build is modelled with the same contract: a triangular
    solve reads the triangle it names.
  * `Gp.Eigen`: `eigh` returns eigenvalues and orthonormal eigenvectors of symmetric matrices; `Spec.Draws`:
    `Array::random` with `Normal(0, 1)` gives independent standard normal variables (hypothesis of C130).
  * `Tuning.Optimizer`, with `IsMinimizer` (never above the start, within the bounds) and `NeverFails`
    in theorems about tuned hyperparameters: contract of `cobyla`.
  * `Facade.holds`: sign conventions of `cobyla`, `slsqp` and `nlopt` for constraints.
  * `Sparse.Model.centralDiff`: formula of `finitediff::ndarr::central_diff`, any step.
  * `Coego.Minimizer` with `Honest`: contract of `cobyla`/`slsqp` for the infill criterion.
  * `LogEiF64.Libm`: special values and overflow of `exp`, `log`, ...
  * `Props.Accurate`, `Spec.Decent`, `Spec.DecentLn`: range and accuracy of `exp`, `erfc`, `sqrt` and `ln` (C141, C154);
    correctly rounded functions meet the first two.
  * `Samplers.step`: semantics of `std::sync::RwLock` (poisoned by a panic of a writer, a writer waits for the other) and `Arc` (C155).
  * `NormF64.mean`, `NormF64.welford`: algorithms of `ndarray` `mean_axis` and `var_axis` (C156).
  * `DupF64.l1From`: algorithm of `ndarray_stats` `l1_dist` (C157).
  * `Metrics.fold`: semantics of `linfa::Dataset::fold` (chunks of `n / k` rows; panics for `k = 0`, `k = 1`, `k > n`).
  * `ndarray` broadcasting and `assign`, `ndarray_stats` `argmin`/`max`/`l1_dist` (panics on empty and NaN),
    `bitflags` `from_bits`, `paste!` names, `serde_json` (non finite floats are `null`, finite ones round
    trip, up to a rounding parameter in `Save` and `Persist`), `bincode` (numbers round trip), `typetag` (an object is read as one of the
    trait it was written as), `Path::extension`, `File::create`.
  * `Seeds.xoshiro`: SplitMix64 and xoshiro256+ as published; `rand` draws an `Option<u64>` as a boolean (highest bit)
    followed by a number. Elsewhere generators are arbitrary sequences.
  * IEEE 754: operations of `f64` are correctly rounded; `Array::linspace` is `start + step * i` (`ndarray` 0.16);
    `Uniform::new(0., 1.)` gives numbers of type `f64` in `[0, 1)` (hypotheses of C131-C133).
  * `Resume.scale`: `f64_from_parts` of `serde_json` 1 without `float_roundtrip`; `Resume.exec`, `Resume.resume`: executor of
    `argmin` 0.11 (solver and state taken from the checkpoint, `init` called for new runs only).
  * rayon `reduce`: any binary tree of contiguous chunks, each chunk folded from the identity.
  * Rust panics: integer underflow, indexing, slicing, `unwrap` (debug build semantics for underflow).

## Modelled and not modelled

Modelled: the functions of the table above. Not modelled:

* rounding of floating point arithmetic (other than in `DoeF64`, `MixIntF64`, `StepsF64`), time, threads other than rayon reductions;
* the inner working of cobyla, slsqp, GMM and k-means fitting, PLS (KPLS weights are an arbitrary matrix), DBSCAN;
* single precision, other than the memory read as `f64` (C138);
* logging, plotting, the command line example programs,
  file formats (`.npy`, JSON syntax);
* the persistence of GP models (`save`/`load` of `moe`), `OptimizationObserver` beyond the files it writes;
* Python conversions other than domains, samples, results and GP options.

## Plan per property

| id | modelled | proof |
|----|----------|-------|
| C01 | `SamplingMethod::sample` scaling, `normalized_sample` of Lhs (all kinds), FullFactorial, Random | affine map of [0,1]; each generator shown to be in [0,1] |
| C02 | `_classic_lhs`, `_centered_lhs`, `_maximin_lhs`, `_maximin_ese` with draws/permutations/swap choices as inputs | column of strata indices is a permutation of `range ns`; preserved by swaps; induction on optimizer steps |
| C03 | outer/inner loops of `_maximin_ese` | invariant "best <= every visited" by induction |
| C04 | `_phip`, `_phip_swap` | finite sum split on pairs touching the two rows |
| C05 | `_maximin_lhs` loop | fold invariant |
| C06 | `FullFactorial::normalized_sample` | mixed radix digits, loop invariant on levels |
| C07-C10 | `mixint.rs` functions | structural induction on the list of types; counterexamples for offset bugs |
| C11-C14 | `find_result.rs` over `Flt` | fold invariants, total preorder; NaN cases |
| C15-C19 | `update_data`, `ego_step`, `trego_step`, loop of `next_iter` with arbitrary proposals | invariants by induction over iterations |
| C20 | `EgorState::update` | case analysis, counterexample at index = doe size |
| C21, C22 | `select_next_points` constraint values, `eval_obj`, `eval_fcstrs` | counterexamples + positive part |
| C23 | file written by the observer and read by `init` | list round trip, counterexample with function constraints |
| C24, C25 | `hot_start.rs` over a file system model with crash points | case analysis on crash points |
| C26 | run recorder + termination | induction on iterations, counterexample |
| C27-C29 | `coego.rs`, gradient filter of `solver_infill_optim.rs` | list/permutation lemmas |
| C30 | rayon `reduce` trees | induction on trees |
| C31 | `start_points.rs` | fold invariant |
| C32 | `trego.rs`, `trego_iteration` | case analysis, modular arithmetic |
| C33 | `have_to_recluster`, theta optimization predicate | arithmetic |
| C34 | `portfolio.rs` | list lemmas |
| C35 | `compute_virtual_point` | order lemmas |
| C36-C39 | criteria and constraints over ℝ with abstract differentiable surrogate | `HasDerivAt` calculus |
| C40-C42, C47 | kernels and means over ℝ | `HasDerivAt` calculus, products over components |
| C43, C44 | `utils.rs` | algebra, index arithmetic |
| C45, C46, C50 | `reduced_likelihood`, `predict*`, `fitc`, `vfe` with Mathlib matrices | linear algebra |
| C48, C49, C52 | theta handling in `fit`, `prepare_multistart` | list lemmas, counterexamples |
| C51, C60, C62-C64 | decision logic | case analysis |
| C53, C54, C58, C59 | clustering helpers | list lemmas |
| C55-C57 | mixture recombination | softmax algebra, `HasDerivAt` |
| C61 | metrics | sums of squares |
| C65-C67 | objective and constraint calls of `solver_infill_optim.rs` | induction on groups, counterexamples |
| C68-C70 | multistart, TREGO local step, reclustering | list lemmas, counterexamples |
| C71-C75 | LogEI, constrained criteria, scales | calculus, Gaussian tail bounds |
| C77 | variances of the `blas` build | terms of the variance; constant mean; two explicit fits with a linear mean |
| C76, C78, C79, C91 | GP variance gradients, sampling covariance, likelihood, positivity | matrices, `HasDerivAt`, Schur complements |
| C80, C81 | automatic clustering, heaviside factor | loop invariants |
| C82-C84 | mixture densities, recombination, IAE | algebra, integrals |
| C85, C86 | Python domain and options | case analysis |
| C87-C89 | hyperparameter tuning | list lemmas, minimizer contract |
| C90 | kernels are positive semidefinite | Gaussian/Laplace mixtures, Schur products, integrals |
| C92-C95 | sparse GPs | Woodbury identities, determinant lemma |
| C96, C97 | hyperparameters along the iterations | induction on groups and iterations |
| C98-C100 | end of a run, result, suggestions | invariants of runs, C09, C11, C17 |
| C103 | points added by an iteration | induction on attempts and proposals |
| C104, C105, C106 | units and origin of outputs and inputs, order of the training points | closed form of predictions; permuted matrices; determinant |
| C107 | best linear unbiased prediction | weights of kriging, positive definiteness, span of the basis functions |
| C108 | number of hyperparameters | cases of the checks |
| C109 | facade of the optimizers, constraints and scales of the infill sub-problem | case analysis on floats, list induction |
| C110 | gradients of sparse GPs by finite differences | bounds on the third derivative of Gaussian bumps, C41; for every kernel, Lipschitz constants of second derivatives of one-dimensional correlations and of their products |
| C111 | seeds | entropy as an argument; independence by congruence and induction on rounds, C30; counterexamples |
| C112 | several points | uniqueness of triangular solves, table of differences (C44), sums and loops over `Except` |
| C113 | change of input variables | normalization removes units, change of basis of the trends, invariance of kriging |
| C114 | invariances of sparse GPs | permuted and scaled matrices; far field for the origin of outputs |
| C115 | inducing points at the training points | matrix identities |
| C116 | far from the data | decay of correlations, best linear unbiased weights (C107), Young's inequality |
| C117 | inputs that determine the trend | basis functions are independent polynomials, injectivity of the trend matrix |
| C118 | training without nugget: when it succeeds | the kernels are strictly positive definite: integrals, Vandermonde, Kronecker products |
| C119 | points where the variance is zero | the error is the quadratic form of the matrix of all points and the new one |
| C120, C121 | `train`, `train_on_clusters`, `find_best_expert` as a whole | induction on the nested trainings, lists of clusters |
| C122, C123 | `select_next_points`, `refresh_surrogates` | loop invariant with the states between points; bridge to `Run` |
| C124, C125 | `OptimizationObserver` | invariant of the loop with the observer, bridge to `Run.loop` |
| C126 | initial design of `init` | reduction to `Run.init` without categorical variable, counterexamples with |
| C127 | Python `sampling`, `lhs` | composition of C01, C02, C06, C09, C85, C101 |
| C128 | Python `SparseGpMix` | options, then C52, C94, C95 |
| C129 | files of models | formats as lists of numbers; zero variance by C107 |
| C130 | law of trajectories | Mathlib's `multivariateGaussian`, characteristic functions, Schur complements |
| C131 | samples in `f64` | nearest rounding is monotone and idempotent; units in the last place; evaluation of witnesses |
| C132 | mixed-integer points in `f64` | rounded distances order exact ones up to 2^-53; widths of integers and masks are exact; induction on types |
| C133 | starts in `f64` | the rounded midpoint is the nearest number to the midpoint; monotone rounding; evaluation of witnesses |
| C134 | ask and tell as the optimizer | the proposals do not depend on what differs between both calls (simulation); evaluation of witnesses |
| C135 | options of the Python optimizer | the chain of setters equals an explicit record; fields compared with the documented meaning; injectivity up to stated synonyms |
| C136 | continuity of predictions and criteria | Matern kernels as products of one-variable functions `(c₀ + c₁|t| + c₂t²)exp(-a|t|)`, `ContDiff`; jumps by connectedness |
| C137 | sorting rows along an axis | loop invariant of the check; stable sort; memory as an allocation with offsets |
| C138 | single and double precision | memory as bytes, reads of eight bytes at the address of a number |
| C139 | The optimized LHS follows the enhanced stochastic evolutionary algorithm | relation between designs (threshold accepting, counts, factors) stated with `Spec.phiP` and `Spec.Exchanged`; induction on the two loops |
| C140 | A trained mixture reports the hyperparameters it uses | C120 for the experts, length of fitted hyperparameters from C30 and C48; refit by `C48_fixed` |
| C141 | Expected improvement is non-negative in double precision | `u * cdf + pdf` is at least 7e-4 times the density down to -37.5 (Gaussian tail bounds), each rounding loses less; refuted with subnormal numbers |
| C142 | Proposals do not depend on the unit and the origin of the objective | predictions are affine (C104), criteria scale or shift, division by the scale cancels the unit; refuted by absolute thresholds, WB2S scale, constrained LogEI and TREGO decrease |
| C143 | Settings of models and of the optimizer do what they say, in any order | a setting as a constructor, what it says and what it concerns as separate relations; case analysis and induction on the chain |
| C144 | A clustering kept between iterations stays usable | the conditions on cluster sizes checked by a training that succeeded, monotone in the inputs of the data (sub-permutation); success of the training with kept clusters as an equivalence with the training of each expert; induction over the iterations |
| C145 | The quality report rates each saved surrogate with its own metrics | results of parallel tasks in any order (permutations); sorting by distinct indices restores the order of the file; success as an equivalence with the cross models of C61 |
| C146 | A run does not depend on the units and origins of its variables | each step commutes with an affine change of coordinates; surrogates related by it (Gaussian processes by C105); absolute sizes, distances and tolerances refute the rest, with exact conditions |
| C147 | Averages over a sampled design estimate averages over the space | law of the classic design computed with Mathlib's measures (shuffles equally likely, uniform numbers); exchanges keep the values of a column; Latin designs have one point per stratum; centered and maximin kinds refuted |
| C148 | A run continued from a checkpoint is the uninterrupted run | induction on iterations; the budget is read by the stop test only; error of the reading of decimals from the rounding lemmas; odd significands above 2^53 refuted |
| C149 | Additional observations refine a Gaussian process | weights extended by zero stay unbiased, so the optimal error decreases; coefficients of the dual form extended by zero solve the larger system when outputs are predictions; absolute variance and fixed hyperparameters refuted |
| C150 | Evaluated points have no expected improvement | variance at training points bounded by the nugget; weights of sum one give a lower bound of the variance with a nugget; continuity of the variance; refuted with a nugget and around the points |
| C151 | The file of the run recorder describes the run | on top of the recorder part of the runs (C26): closed form of the recording loop; truncation of the seed by arithmetic modulo 2^32; kernel and criterion names by cases |
| C152 | Criteria prefer better predictions and more uncertainty | derivative of `σ h(a/σ)` in `σ` is the normal density; symmetry of the normal distribution for the bounds; Mills ratio bound at the switch of LogEI |
| C153 | The constrained criterion favours feasible points | product measure of independent normal variables; objective affine in the constant added to the objective; two-point surrogates for the scale of LogEI |
| C154 | Probability of feasibility in double precision | monotonicity of rounding; numbers rounded to 0; relative errors composed up to the argument of `erfc`, mean value theorem, errors of products of numbers in [0, 1] added |
| C155 | Samplers which share a generator | calls as sequences of sections which have the lock, any schedule; monotone position in the generator; calls of one section; evaluation of an alternating schedule |
| C156 | Normalization in double precision | errors of roundings composed; the running mean stays between the values; spacing of numbers; ties; induction over the rows |
| C157 | Points which pass the check of duplicates are distinct for the model | relative error of the sum by induction; `C156_separated_partial` per column |
| C158 | Feasibility and ranking of evaluations in double precision | differences are multiples of `2^-1074`; monotonicity of rounding; sum of violations as a distance of C157; lexicographic rank |
| C101, C102 | mixed-integer sampling and surrogates | list induction, C01, C07-C09 |

## Findings

Disagreements between the code and the properties, each proved by a `_refuted_` theorem of the same number.

Optimizer:

* C13: the feasibility flag is initialised to true unless `EGOR_USE_MAX_PROBA_OF_FEASIBILITY` is set, and then stays true in all runs (`C13_refuted_flag_always`).
* C14: a NaN constraint counts as satisfied (`C14_nan_constraint_is_met`), hence is selected when its objective is the lowest (`C14_refuted_nan_selected`); with infinite objectives index 0 is returned.
* C20: `last_best_iter` misses a best point at index `doe_size` in all runs (`C20_refuted_first_point_never_recorded`) and is wrong when a run ends without a new point just after a new best (`C20_refuted_last_iteration`).
* C21: constraint values stored by EGO steps are divided by the scaling factors.
* C22: function constraints get the relaxed point (the result of the cast is dropped).
* C23: with function constraints a warm start reads too many output columns; a stale file of an older run is used.
* C158: sums of violations are rounded, so that the best of infeasible evaluations need not be the one which violates the constraints
  least (`C158_refuted_least_violated`); the difference is of the order of rounding errors (`C158_best_infeasible_partial`).
* C157: the threshold of the check of duplicates is absolute. Points accepted may have the same normalized value if values are
  large (`C157_refuted_merged`), and in a search space narrower than 99 epsilon no second point is ever stored
  (`C157_refuted_small_space`).
* C156: in double precision distinct training values may have the same normalized value: all those below `2^-55` times the mean of the
  column are merged with zero (`C156_refuted_merge`), which makes duplicate training points of rows such as 0 and `2^-60` beside 1.
  A column which is not constant may be taken for constant and not be put to scale (`C156_refuted_small_values`,
  `C156_refuted_adjacent`). Normalized constant columns need not be zero, since the mean of equal numbers is rounded
  (`C156_refuted_zero_mean`).
* C155: `sample(0)` of an optimized Latin hypercube (the default kind) panics with the lock of the generator, which poisons it:
  the sampler and all its clones, of whatever kind, panic at every later call (`C155_refuted_failed_call`). `sample(1)` never ends
  and keeps the lock, so that threads using clones wait for ever (`C155_refuted_waiting`). Maximin and optimized designs release the
  lock between sections: drawn by two threads they may be those of no order of the calls (`C155_refuted_interleaved`).
* C154: the product of the probabilities of feasibility underflows: points where two constraints are each less probable than
  `2^-538` (38 standard deviations) all have objective 0, whatever the criterion (`C154_refuted_ties`), so that the internal
  optimizer has no direction there.
* C153: with `cstr_infill` and WB2 or WB2S, the criterion, which may be negative, is multiplied by the probability of
  feasibility, so that of two points the LESS probably feasible one is preferred as soon as a large enough constant is added
  to the objective (`C153_refuted_wb2`, exact threshold; `C153_feasible_iff`: sign of the criterion). With LogEI only the
  criterion is divided by the scale, not the sum of logarithms of probabilities, so that any scale other than 1 orders some
  points otherwise than EI (`C153_refuted_log_scale`), and points where every constraint is less probable than the machine
  precision are tied (`C153_refuted_log_flat`).
* C152: a point whose variance is below the machine precision has zero expected improvement and zero probability of
  feasibility even if its prediction improves or meets the constraint by any amount: it is ranked below all other points.
  LogEI jumps down (by about 3e-12) where it switches to its asymptotic expansion, so it is not increasing there.
* C151: the run recorder writes the seed as a 32 bit integer: it is the one of the configuration only below 2^31, and a
  seed whose low 32 bits are ones is written as no seed. A run ended as no more point can be added counts its last batch
  twice, a run whose target is reached by the initial design has the maximal number of iterations in its file, a restart
  with the recorder switched on panics if the checkpoint was made without it, and one with the recorder switched off for a
  while leaves a gap which only the number of iterations shows.
* C150: with the default nugget (100 times the machine precision) the variance at evaluated points is at least
  the nugget times the process variance over the number of points; once this exceeds the threshold of `ei.rs:34`
  (process variance above n/100) the expected improvement is positive at evaluated points. Below, it vanishes with
  its gradient in a whole neighbourhood of each evaluated point.
* C149: between the points of a batch and between tunings, surrogates are fitted again with the previous
  hyperparameters (`ThetaTuning::Fixed`, `solver_impl.rs:231-238`), which are in units of the standard deviations of
  the previous training set. An added point changes these deviations, hence all the correlations: the virtual point
  of the kriging believer changes the predictions elsewhere (`C149_refuted_fixed_theta`), although with the same
  correlations it would not (`C149_believer_partial`).
* C148: checkpoints are read with `serde_json` without `float_roundtrip`: many numbers change in their last
  bits (always those in `[1000, 1024)` written with an odd 17th digit), so a continued run is not the uninterrupted one. The
  budget of the configuration is not used by a continued run.
* C24, C25: a crash while writing loses the checkpoint; a state with NaN or infinite numbers cannot be loaded back.
* C26: a run that ends with no more point records its last batch twice, in all cases (`C26_refuted_ended_run`).
* C29: with shuffled groups the gradient is in the wrong order.
* C35: the constant liar uses stored constraint values.
* C66, C67: function constraints get only the active variables; their gradient is not scaled.
* C69: the TREGO local optimization is bounded by the whole design space. `C69_iff` says when the step is nevertheless inside the region.
* C70: reclustering every ten points is skipped with batches. `C70_batches_iff` gives the batch sizes for which it never happens.
* C62: tolerances cannot be given for both kinds of constraints; the Python default panics then.
* C88: Egor ignores a fixed tuning, ignores the tuning with automatic clusters, replaces explicit default bounds,
  and the influence factors of kernels have no effect (Matern 5/2 is never tested).
* C96: hyperparameters optimized after the last clustering are not kept, unless there is one cluster and cooperative
  components are activated.
* C98: the target test does not look at feasibility.
* C100: `suggest` can return known points or several times the same point, for all data (`C100_refuted_any_known_point`).
* C134: `suggest` with the data and the seed of a run is not its next iteration: it looks for feasibility only when no point is feasible,
  does not cluster again within a batch, and starts again from the seed each time.
* C102: the `predict` of `linfa` predicts at the point itself, not at the nearest admissible point; gradients in
  folded space have the width of the relaxed space.
* C109: the optimizers of the infill criterion use null tolerances; a null scale makes every point infeasible for them;
  with the constrained criterion function constraint `i` uses the scale of constraint `i` of the whole list.
* C110: with the absolute exponential, at half a step of an inducing point the gradient of a sparse model misses at
  least half of the derivative of the prediction, however small the step (corners).
* C126: with categorical variables the columns of a given design are not those documented: panic, or outputs read as
  inputs.
* C97: with several clusters and cooperative components only the last group is tuned between clusterings.
* C146: three thresholds are absolute, so the run depends on the units of the variables: the size of the local area of the
  trust region, the distance under which a point is a known one (in small enough units no point is ever added), and the
  tolerance clustering the members of a portfolio (in the unit cube a portfolio only gives its first member).

Criteria:

* C37: the WB2S scale is 0 when the prediction at the largest EI is 0. C74: the scale of a constraint can be 0.
* C38, C72: the gradient of the probability of feasibility is wrong for non null tolerances.
* C39: the upper trust bound gradient uses the first component of the variance gradient for all components.
* C73: the gradient ignores the weight of the standard deviation.
* C75: LogEI is NaN for every u in (-10^6, -38].
* C141: EI is negative in double precision at predictions about 38.5 standard deviations above the minimum (never down to 37), by a few units of the smallest positive number.
* C142: the threshold on the variance is absolute: in a small enough unit EI is zero over a bounded domain and LogEI constant, so proposals no longer depend on the data. The scale of WB2S is computed from the prediction, which depends on the origin. With constraints in the criterion LogEI is divided by a scale but the logarithm of the probability of feasibility is not, so the balance of the two depends on the unit. The decrease required by TREGO is `sigma^2` in any unit.
* C143: `theta_init` and `theta_bounds` turn a partial tuning of `GpParams` and `SgpParams` into a full one, so components to be kept are tuned. `max_eval` below 25 gives 25, documented to give the default 1000.

Sampling and types: C147 (averages over centered and maximin Latin hypercubes are biased), C02 (one point: maximin panics, the optimized kind does not end), C09 (offset of Enum variables
in encoding and decoding; the lists of variables for which they are right are those of `C09_encode_iff`, `C09_decode_iff` and `C09_round_trip_iff`), C85 (fractional integer limits are truncated toward zero), C131 (rounding: the last level of a full factorial design can
be above the upper bound, as 0.10000000000000003 for the limits [-0.3, 0.1]; so can a Latin hypercube, for the largest draws), C132 (the same
for declared floats; the value chosen in a list may be the farther one of two whose rounded distances are equal), C133 (midpoints of data
above 2^1023 are infinite; the local area of TREGO can be a single point; its starts can be above the upper bound).

Gaussian processes: C43 (single row gives NaN), C44 (no row underflows), C47 (`-2 theta` in the per-component
derivative), C48/C49/C87/C89 (unsorted active lists swap bounds, failures give theta 10, scalars with
Fixed/Partial panic, setters lose the active list, one start with equal bounds panics, documentation of
`max_eval`), C50 (VFE variance sign), C51 (`dims`), C52 (per component bounds panic), C93 (trajectories use the
prior covariance), C77 (the `blas` build reads only the diagonal of the factor of the mean, and its variance gradient
uses the un-normalised point), C95 (all failures give 10 for all parameters), C108 (wrong
numbers of hyperparameters panic instead of giving an error), C114 (sparse GPs have a zero prior mean and a nugget that
does not follow the scale of the outputs), C115 (VFE variance again), C130 (the default sampling drops eigenvalues
under an absolute threshold: with outputs in small units trajectories do not vary; `sample_chol` panics at training
inputs without nugget), C138 (models are generic in the float type, but training in `f32` with tuned hyperparameters, and
gradients of sparse models, read the memory of an `f32` as an `f64`: undefined behaviour).

Mixtures: C55 (responsibilities tend to 0 far from the data), C136 (they jump there, and so do smooth predictions; the
expected improvement jumps where the variance crosses the machine precision), C57 (variance gradient broadcasting, underflow), C58
(elements are counted instead of rows), C59 (linear and quadratic means are never evaluated in dimension 2 or more,
NaN errors win, sparse experts), C60 (`is_multi` of automatic), C80 (impossible number of clusters, panics, relative
and absolute errors compared), C81 (candidates of the factor), C83 (factor not applied by `set_recombination`,
`set_gmx` and with a given mixture), C121 (the factor is validated on points the experts were trained on; with an
automatic number of clusters the recombination asked is ignored and the factor is 1), C61/C84 (Q2 of constant outputs, unvalidated rows, IAE of leave-one-out).

Python: C63 (`get_result_index` panics with constraints), C140 (one reported hyperparameter instead of one per input
when a single value is kept fixed; sampling trajectories panics with several clusters), C127 (`sampling` of one point, as C02), C128
(`SparseGpMix`: default options and bounds per component panic, `n_clusters` and `recombination` are documented but do
not exist), C86 (`GpMix` ignores `max_eval`, `Egor` ignores negative
`n_start`, documented defaults).

Seeds: C111 (a single restart of the hyperparameters uses the entropy of the system; the clustering of the surrogates of
`Egor` does too; `SparseGpMix` draws an optional seed for its experts, hence ignores about half of the seeds, 42 among
them; points selected from a portfolio are in the order of a hash map, which changes from one execution to the next).

Failures: C123 (a prediction that fails for the first point of a batch or for one member of a portfolio is a panic).

Files: C125 (`egor_history.npy` has outputs before inputs, loses its rows at a restart from a checkpoint, and has the
relaxed coordinates of discrete variables), C129 (a model trained on constant outputs has an infinite likelihood, so is
saved as JSON with success and cannot be loaded; `save` panics on names without extension and on files that cannot be
created; saved sparse surrogates cannot be loaded).
