import Verif.Model.Tuning

/-!
# Hyperparameters of the surrogates along the iterations

Model of `make_clustered_surrogate` (`/repo/crates/ego/src/solver/solver_impl.rs:121-296`) as far as the
hyperparameters are concerned, and of the hyperparameters kept between its calls by `select_next_points`
(`solver_impl.rs:636-679`), for one surrogate (objective or constraint).

Simplifications: what the training of a mixture returns is a parameter (`Trainer`), the hyperparameters of all
experts have the same length (the code panics otherwise), `COEGO_IMPROVEMENT_CHECK` is `false` (`coego.rs:21`).
-/

set_option autoImplicit false

namespace Verif.Surrogate

open Verif Tuning

/-- Hyperparameters of the experts, one row per expert. -/
abbrev Thetas := List (List ℝ)

/-- The options used: `config.gp.theta_tuning`, number of hyperparameters, `config.gp.correlation_spec`,
`config.coego.activated`, number of clusters (`none` is `NbClusters::Auto`). -/
structure Cfg where
  user : ThetaTuning
  dim : ℕ
  spec : CorrSpec
  coego : Bool
  nb : Option ℕ

/-- `NbClusters::is_mono` (`moe/src/parameters.rs:76-83`). -/
def Cfg.mono (cfg : Cfg) : Bool := cfg.nb == some 1

/-- `builder.train` or `builder.train_on_clusters` for the `i`-th group of active components: the hyperparameters
of the experts for the given tunings. -/
abbrev Trainer := ℕ → List ThetaTuning → Except Panic Thetas

/-- One call: flags `make_clustering` and `optimize_theta`, groups of active components, training. -/
structure Call where
  cluster : Bool
  optimize : Bool
  actives : List (List ℕ)
  train : Trainer

/-- The tunings given to the builder (`solver_impl.rs:163-244`); with an automatic number of clusters they are
left to the default of the builder when clustering is done. -/
noncomputable def tunings (cfg : Cfg) (c : Call) (active : List ℕ) (best : Thetas) : List ThetaTuning :=
  if c.cluster && cfg.nb.isNone then [ThetaTuning.dflt]
  else best.map (egorTuning cfg.user cfg.dim cfg.spec c.cluster c.optimize cfg.coego active)

/-- The loop on the groups (`solver_impl.rs:162-294`): `best` is `best_theta_inits`, `model` the hyperparameters
of the last trained mixture. -/
noncomputable def groupLoop (cfg : Cfg) (c : Call) (i : ℕ) (best : Thetas) (model : Option Thetas) :
    List (List ℕ) → Except Panic (Option Thetas × Thetas)
  | [] => .ok (model, best)
  | a :: as => c.train i (tunings cfg c a best) >>= fun gp =>
      groupLoop cfg c (i + 1) (if c.cluster || (cfg.coego && cfg.mono) then gp else best) (some gp) as

/-- `best_theta_inits` at the beginning (`solver_impl.rs:144-154`): the previous values, or the initial value of
the configuration for each cluster (`n_or_else_one`, `moe/src/parameters.rs:49-54`: one if automatic). -/
def firstInits (cfg : Cfg) : Option Thetas → Except Panic Thetas
  | some inits => .ok inits
  | none => egorInit cfg.user cfg.dim >>= fun r => .ok (List.replicate (cfg.nb.getD 1) r)

/-- `make_clustered_surrogate`: hyperparameters of the surrogate, and the values kept for the next call. -/
noncomputable def makeSurrogate (cfg : Cfg) (c : Call) (inits : Option Thetas) : Except Panic (Thetas × Thetas) :=
  firstInits cfg inits >>= fun best => groupLoop cfg c 0 best none c.actives >>= fun r =>
    match r.1 with
    | none => .error .other
    | some m => .ok (m, r.2)

/-- Successive calls (`solver_impl.rs:636-679`): the hyperparameters of each surrogate and the values kept at the
end (`theta_inits[k]`). -/
noncomputable def session (cfg : Cfg) : List Call → Option Thetas → Except Panic (List Thetas × Option Thetas)
  | [], inits => .ok ([], inits)
  | c :: cs, inits => makeSurrogate cfg c inits >>= fun r =>
      session cfg cs (some r.2) >>= fun r' => .ok (r.1 :: r'.1, r'.2)

/-- Training of one expert per tuning by `GpParams::fit` (`moe/src/algorithm.rs:293-304`), the data of the
experts being fixed: `env i k` is the environment of expert `k` for group `i`. -/
noncomputable def expertTrainer (env : ℕ → ℕ → Env) (dim nStart maxEval : ℕ) : Trainer := fun i ts =>
  (ts.zip (List.range ts.length)).mapM fun p => fitTheta (env i p.2) dim nStart maxEval p.1

end Verif.Surrogate
