import Verif.Model.Train
import Verif.Model.Tuning

/-!
# What a trained model reports

Model of the accessors of a trained mixture in Python (`/repo/python/src/gp_mix.rs:404-496` and the same functions in
`/repo/python/src/sparse_gp_mix.rs:393-459`) and of those of an expert (`/repo/crates/gp/src/algorithm.rs:413-425`).
Conversions to Python arrays keep shapes and values.
-/

set_option autoImplicit false

namespace Verif.Report

open Verif Tuning

/-- What an expert reports: `theta()`, `variance()`, `likelihood()` (`gp/src/algorithm.rs:413-425`). -/
structure Expert where
  theta : List ℝ
  variance : ℝ
  likelihood : ℝ

/-- `thetas` (`python/src/gp_mix.rs:457-465`): `Zip` panics if the numbers of rows and experts differ, `assign` broadcasts
one value. -/
def thetas (nClusters : ℕ) (es : List Expert) : Except Panic (List (List ℝ)) :=
  match es with
  | [] => .error .other
  | proto :: _ =>
    if nClusters = es.length then es.mapM fun e => assignRow proto.theta.length e.theta
    else .error .shape

/-- The loop of `variances` and `likelihoods` (`python/src/gp_mix.rs:472-479, 488-495`). -/
def perCluster (get : Expert → ℝ) (nClusters : ℕ) (es : List Expert) : Except Panic (List ℝ) :=
  if nClusters = es.length then .ok (es.map get) else .error .shape

/-- `variances` (`python/src/gp_mix.rs:472-479`). -/
def variances : ℕ → List Expert → Except Panic (List ℝ) := perCluster Expert.variance

/-- `likelihoods` (`python/src/gp_mix.rs:488-495`). -/
def likelihoods : ℕ → List Expert → Except Panic (List ℝ) := perCluster Expert.likelihood

/-- `sample` in Python (`python/src/gp_mix.rs:415-425`, `moe/src/algorithm.rs:550-558`): the error is unwrapped. `draw`:
trajectories of an expert. -/
def sample {α : Type} (draw : Expert → α) (nClusters : ℕ) : List Expert → Except Panic α
  | es => if nClusters ≠ 1 then .error .other else match es with
    | [] => .error .outOfBounds
    | e :: _ => .ok (draw e)

/-- End of `fit` (`gp/src/algorithm.rs:966-979`): everything else is computed from the hyperparameters and the data;
`build` is that computation, `none` is an error of the linear algebra. -/
noncomputable def fitExpert (build : List ℝ → Option Expert) (env : Env) (dim nStart maxEval : ℕ) (t : ThetaTuning) :
    Except Panic (Option Expert) :=
  fitTheta env dim nStart maxEval t >>= fun theta => .ok ((build theta).map fun e => { e with theta := theta })

end Verif.Report
