import Verif.Model.Gp
import Verif.Model.MixInt
import Mathlib.Analysis.SpecialFunctions.Pow.Real
import Mathlib.Analysis.SpecialFunctions.Log.Basic
import Mathlib.Analysis.Real.Pi.Bounds

/-!
# Gaussian mixture and recombination of experts

Model over `ℝ` of `/repo/crates/moe/src/gaussian_mixture.rs` and of the predictions of
`/repo/crates/moe/src/algorithm.rs`. The code handles a set of points; this file handles one point, and
`Verif/Model/Batch.lean` a set of points.
Rounding is not modelled, except where `round` is a parameter.
-/

set_option autoImplicit false

namespace Verif.Mixture

open Verif Matrix

/-- `GaussianMixture` (`gaussian_mixture.rs:30-45`) with `n` clusters in dimension `d`; `covariances` is only kept
for the user. -/
structure Gmx (n d : ℕ) where
  weights : Fin n → ℝ
  means : Fin n → Fin d → ℝ
  precisions : Fin n → Matrix (Fin d) (Fin d) ℝ
  precisionsChol : Fin n → Matrix (Fin d) (Fin d) ℝ
  heavisideFactor : ℝ
  logDet : Fin n → ℝ

variable {n d : ℕ}

/-- `compute_precisions_cholesky` (`gaussian_mixture.rs:182-204`) for one covariance. -/
noncomputable def precChol (la : Gp.LinAlg) (cov : Matrix (Fin d) (Fin d) ℝ) :
    Option (Matrix (Fin d) (Fin d) ℝ) := do
  let covChol ← la.chol cov
  let sol ← la.solve .lower covChol 1
  some solᵀ

/-- `compute_log_det` (`gaussian_mixture.rs:220-226, 286-299`). -/
noncomputable def computeLogDet (pc : Fin n → Matrix (Fin d) (Fin d) ℝ) (factor : ℝ) (k : Fin n) : ℝ :=
  ∑ i, Real.log ((pc k i i) * factor ^ (-0.5 : ℝ))

open Classical in
/-- `GaussianMixture::new` (`gaussian_mixture.rs:64-81`). -/
noncomputable def new (la : Gp.LinAlg) (weights : Fin n → ℝ) (means : Fin n → Fin d → ℝ)
    (covariances : Fin n → Matrix (Fin d) (Fin d) ℝ) : Option (Gmx n d) :=
  if h : ∀ k, ∃ p, precChol la (covariances k) = some p then
    let pc := fun k => (h k).choose
    some ⟨weights, means, fun k => pc k * (pc k)ᵀ, pc, 1, computeLogDet pc 1⟩
  else none

namespace Gmx

/-- `heaviside_factor` (`gaussian_mixture.rs:106-111`). -/
noncomputable def setFactor (m : Gmx n d) (f : ℝ) : Gmx n d :=
  { m with heavisideFactor := f, logDet := computeLogDet m.precisionsChol f }

/-- `compute_log_gaussian_prob` (`gaussian_mixture.rs:257-282`). -/
noncomputable def logGaussianProb (m : Gmx n d) (x : Fin d → ℝ) (k : Fin n) : ℝ :=
  let precs := m.heavisideFactor ^ (-0.5 : ℝ) • m.precisionsChol k
  let diff := (x - m.means k) ᵥ* precs
  (-0.5 : ℝ) * ((∑ j, diff j * diff j) + d * Real.log (2 * Real.pi)) + m.logDet k

/-- `f64::MIN_10_EXP` -/
def minExp : ℝ := -307

/-- `f64::EPSILON` -/
noncomputable def epsilon : ℝ := 2⁻¹ ^ 52

/-- `weighted_log_prob` (`gaussian_mixture.rs:234`). Weights are supposed positive (`ln 0` is `-inf` in the code). -/
noncomputable def weightedLogProb (m : Gmx n d) (x : Fin d → ℝ) (k : Fin n) : ℝ :=
  m.logGaussianProb x k + Real.log (m.weights k)

/-- The sum of `gaussian_mixture.rs:235-243`: terms whose logarithm is at most `-307` do not count. -/
noncomputable def probSum (m : Gmx n d) (x : Fin d → ℝ) : ℝ :=
  ∑ k, if m.weightedLogProb x k ≤ minExp then 0 else Real.exp (m.weightedLogProb x k)

/-- `log_prob_norm` (`gaussian_mixture.rs:244-250`). -/
noncomputable def logProbNorm (m : Gmx n d) (x : Fin d → ℝ) : ℝ :=
  if |m.probSum x| < epsilon then 0 else Real.log (m.probSum x)

/-- `log_resp` (`gaussian_mixture.rs:251`). -/
noncomputable def logResp (m : Gmx n d) (x : Fin d → ℝ) (k : Fin n) : ℝ :=
  m.weightedLogProb x k - m.logProbNorm x

/-- `predict_probas` (`gaussian_mixture.rs:114-121`). -/
noncomputable def probas (m : Gmx n d) (x : Fin d → ℝ) (k : Fin n) : ℝ :=
  if n = 1 then 1 else Real.exp (m.logResp x k)

/-- `pdfs` (`gaussian_mixture.rs:174-177`). -/
noncomputable def pdfs (m : Gmx n d) (x : Fin d → ℝ) (k : Fin n) : ℝ := Real.exp (m.logGaussianProb x k)

/-- `v` of `predict_single_probas_derivatives` (`gaussian_mixture.rs:131`). -/
noncomputable def mixtureDensity (m : Gmx n d) (x : Fin d → ℝ) : ℝ := ∑ k, m.weights k * m.pdfs x k

/-- `predict_single_probas_derivatives` (`gaussian_mixture.rs:127-152`): derivative of the responsibility of
cluster `k` with respect to component `j`. -/
noncomputable def probasDerivatives (m : Gmx n d) (x : Fin d → ℝ) (k : Fin n) (j : Fin d) : ℝ :=
  let v := m.mixtureDensity x
  let deriv := fun k => (x - m.means k) ᵥ* (m.heavisideFactor⁻¹ • m.precisions k)
  let vprime := fun j => ∑ k, deriv k j * -(m.weights k * m.pdfs x k)
  let u := fun k => m.weights k * m.pdfs x k
  let uprime := fun k j => -(deriv k j * u k)
  (uprime k j * v - u k * vprime j) / (v * v)

/-- `predict_single_probas_derivatives` when `v * v` is rounded by `round` (underflow): `none` stands for the NaN
or infinite values given by a division by zero. -/
noncomputable def probasDerivativesF64 (m : Gmx n d) (round : ℝ → ℝ) (x : Fin d → ℝ) :
    Option (Fin n → Fin d → ℝ) :=
  if round (m.mixtureDensity x * m.mixtureDensity x) = 0 then none else some (m.probasDerivatives x)

/-- `predict` (`gaussian_mixture.rs:302-316`): number of the cluster of a point. -/
noncomputable def predict (m : Gmx n d) (x : Fin d → ℝ) : ℕ :=
  match MixInt.argmax (List.ofFn fun k => Real.exp (m.logResp x k)) with
  | .ok k => k
  | .error _ => 0

end Gmx

/-! ## Arrays with broadcasting -/

/-- A two dimensional `ndarray`; a one dimensional array of length `c` is broadcast as a `1 × c` one. -/
structure Arr where
  r : ℕ
  c : ℕ
  v : ℕ → ℕ → ℝ

/-- Common size of an axis (`DimMax` co-broadcasting of `ndarray`). -/
def coDim (a b : ℕ) : Except Panic ℕ :=
  if a = b then .ok a else if a = 1 then .ok b else if b = 1 then .ok a else .error .shape

/-- Index used in an axis of size `a`. -/
def coIdx (a i : ℕ) : ℕ := if a = 1 then 0 else i

/-- Elementwise operation with broadcasting of both operands. -/
def Arr.zip (f : ℝ → ℝ → ℝ) (a b : Arr) : Except Panic Arr := do
  let r ← coDim a.r b.r
  let c ← coDim a.c b.c
  .ok ⟨r, c, fun i j => f (a.v (coIdx a.r i) (coIdx a.c j)) (b.v (coIdx b.r i) (coIdx b.c j))⟩

/-- `a * b` -/
noncomputable def Arr.mul (a b : Arr) : Except Panic Arr := Arr.zip (· * ·) a b

/-- `a + b` -/
noncomputable def Arr.add (a b : Arr) : Except Panic Arr := Arr.zip (· + ·) a b

/-- `sum_axis(Axis(0))`, a one dimensional array. -/
noncomputable def Arr.sumAxis0 (a : Arr) : Arr := ⟨1, a.c, fun _ j => ∑ i ∈ Finset.range a.r, a.v i j⟩

/-- `y.assign(&a)` for `y` of length `d` and `a` one dimensional: `a` is broadcast to the length of `y`. -/
def Arr.assign (d : ℕ) (a : Arr) : Except Panic (Fin d → ℝ) :=
  if a.c = d then .ok fun j => a.v 0 j else if a.c = 1 then .ok fun _ => a.v 0 0 else .error .shape

/-- A vector of length `n` as a one dimensional array. -/
noncomputable def Arr.vec (p : Fin n → ℝ) : Arr := ⟨1, n, fun _ j => if h : j < n then p ⟨j, h⟩ else 0⟩

/-- A vector of length `n` as a column (`insert_axis(Axis(1))`). -/
noncomputable def Arr.col (p : Fin n → ℝ) : Arr := ⟨n, 1, fun i _ => if h : i < n then p ⟨i, h⟩ else 0⟩

/-- A matrix. -/
noncomputable def Arr.mat (p : Fin n → Fin d → ℝ) : Arr :=
  ⟨n, d, fun i j => if h : i < n ∧ j < d then p ⟨i, h.1⟩ ⟨j, h.2⟩ else 0⟩

/-! ## Recombination -/

/-- The predictions of an expert at a point (`GpSurrogateExt`). -/
structure Expert (d : ℕ) where
  predict : (Fin d → ℝ) → ℝ
  predictVar : (Fin d → ℝ) → ℝ
  predictGradients : (Fin d → ℝ) → Fin d → ℝ
  predictVarGradients : (Fin d → ℝ) → Fin d → ℝ

/-- `Recombination` (`moe/src/types.rs:20-28`). -/
inductive Recombination
  | hard
  | smooth (factor : Option ℝ)

/-- `GpMixture` (`moe/src/algorithm.rs:430-443`): one expert for each cluster. -/
structure GpMixture (n d : ℕ) where
  recombination : Recombination
  experts : Fin n → Expert d
  gmx : Gmx n d

namespace GpMixture

/-- `set_recombination` (`moe/src/algorithm.rs:632-639`). -/
def setRecombination (m : GpMixture n d) (r : Recombination) : GpMixture n d :=
  { m with recombination := match r with
    | .hard => .hard
    | .smooth (some f) => .smooth (some f)
    | .smooth none => .smooth (some 1) }

/-- `set_gmx` (`moe/src/algorithm.rs:642-650`): `none` when the construction fails (`unwrap` panics). -/
noncomputable def setGmx (m : GpMixture n d) (la : Gp.LinAlg) (weights : Fin n → ℝ) (means : Fin n → Fin d → ℝ)
    (covariances : Fin n → Matrix (Fin d) (Fin d) ℝ) : Option (GpMixture n d) :=
  (new la weights means covariances).map fun gmx => { m with gmx := gmx }

/-- `factor` of `train` (`moe/src/algorithm.rs:129-133`). -/
def trainFactor : Recombination → ℝ
  | .smooth (some f) => f
  | .smooth none => 1
  | .hard => 1

/-- `gmx` of `train` (`moe/src/algorithm.rs:116-135`): the mixture given with the parameters if any, otherwise the one
made from weights, means and covariances which the external clustering gives. -/
noncomputable def trainGmx (la : Gp.LinAlg) (given : Option (Gmx n d)) (r : Recombination) (weights : Fin n → ℝ)
    (means : Fin n → Fin d → ℝ) (covariances : Fin n → Matrix (Fin d) (Fin d) ℝ) : Option (Gmx n d) :=
  match given with
  | some g => some g
  | none => (new la weights means covariances).map fun g => g.setFactor (trainFactor r)

/-- End of `train` and `train_on_clusters` (`moe/src/algorithm.rs:137-139, 195-204`) with the given experts, when no
heaviside factor has to be found: the mixture returned. -/
noncomputable def train (la : Gp.LinAlg) (given : Option (Gmx n d)) (r : Recombination) (weights : Fin n → ℝ)
    (means : Fin n → Fin d → ℝ) (covariances : Fin n → Matrix (Fin d) (Fin d) ℝ) (experts : Fin n → Expert d) :
    Option (GpMixture n d) :=
  (trainGmx la given r weights means covariances).map fun g => ⟨r, experts, g⟩

/-- `experts[c]`: panics when out of bounds. -/
def expert (m : GpMixture n d) (c : ℕ) : Except Panic (Expert d) :=
  if h : c < n then .ok (m.experts ⟨c, h⟩) else .error .outOfBounds

/-- `predict_smooth` (`moe/src/algorithm.rs:411-423, 662-664`). -/
noncomputable def predictSmooth (m : GpMixture n d) (x : Fin d → ℝ) : ℝ :=
  ∑ i, (m.experts i).predict x * m.gmx.probas x i

/-- `predict_var_smooth` (`moe/src/algorithm.rs:670-685`). -/
noncomputable def predictVarSmooth (m : GpMixture n d) (x : Fin d → ℝ) : ℝ :=
  ∑ i, (m.experts i).predictVar x * m.gmx.probas x i * m.gmx.probas x i

/-- `predict_gradients_smooth` (`moe/src/algorithm.rs:691-733`). -/
noncomputable def predictGradientsSmooth (m : GpMixture n d) (x : Fin d → ℝ) : Except Panic (Fin d → ℝ) := do
  let p := m.gmx.probas x
  let term1 := (Arr.mat fun i j => (m.experts i).predictGradients x j * p i).sumAxis0
  let t2 ← (Arr.mat (m.gmx.probasDerivatives x)).mul (Arr.col fun i => (m.experts i).predict x)
  let s ← term1.add t2.sumAxis0
  s.assign d

/-- `predict_var_gradients_smooth` (`moe/src/algorithm.rs:739-783`): `p` is one dimensional in
`p.to_owned() * pprime * preds`. -/
noncomputable def predictVarGradientsSmooth (m : GpMixture n d) (x : Fin d → ℝ) :
    Except Panic (Fin d → ℝ) := do
  let p := m.gmx.probas x
  let term1 := (Arr.mat fun i j => (m.experts i).predictVarGradients x j * p i * p i).sumAxis0
  let t2 ← (Arr.vec p).mul (Arr.mat (m.gmx.probasDerivatives x))
  let t2 ← t2.mul (Arr.col fun i => (m.experts i).predictVar x)
  let t2 : Arr := { t2 with v := fun i j => 2 * t2.v i j }
  let s ← term1.add t2.sumAxis0
  s.assign d

/-- `predict_hard` (`moe/src/algorithm.rs:879-888`). -/
noncomputable def predictHard (m : GpMixture n d) (x : Fin d → ℝ) : Except Panic ℝ := do
  let e ← m.expert (m.gmx.predict x)
  .ok (e.predict x)

/-- `predict_var_hard` (`moe/src/algorithm.rs:894-910`). -/
noncomputable def predictVarHard (m : GpMixture n d) (x : Fin d → ℝ) : Except Panic ℝ := do
  let e ← m.expert (m.gmx.predict x)
  .ok (e.predictVar x)

/-- `predict_gradients_hard` (`moe/src/algorithm.rs:942-958`). -/
noncomputable def predictGradientsHard (m : GpMixture n d) (x : Fin d → ℝ) : Except Panic (Fin d → ℝ) := do
  let e ← m.expert (m.gmx.predict x)
  .ok (e.predictGradients x)

/-- `predict_var_gradients_hard` (`moe/src/algorithm.rs:965-981`). -/
noncomputable def predictVarGradientsHard (m : GpMixture n d) (x : Fin d → ℝ) : Except Panic (Fin d → ℝ) := do
  let e ← m.expert (m.gmx.predict x)
  .ok (e.predictVarGradients x)

/-- `predict` (`moe/src/algorithm.rs:488-493`). -/
noncomputable def predict (m : GpMixture n d) (x : Fin d → ℝ) : Except Panic ℝ :=
  match m.recombination with
  | .hard => m.predictHard x
  | .smooth _ => .ok (m.predictSmooth x)

/-- `predict_var` (`moe/src/algorithm.rs:495-500`). -/
noncomputable def predictVar (m : GpMixture n d) (x : Fin d → ℝ) : Except Panic ℝ :=
  match m.recombination with
  | .hard => m.predictVarHard x
  | .smooth _ => .ok (m.predictVarSmooth x)

/-- `predict_gradients` (`moe/src/algorithm.rs:529-534`). -/
noncomputable def predictGradients (m : GpMixture n d) (x : Fin d → ℝ) : Except Panic (Fin d → ℝ) :=
  match m.recombination with
  | .hard => m.predictGradientsHard x
  | .smooth _ => m.predictGradientsSmooth x

/-- `predict_var_gradients` (`moe/src/algorithm.rs:536-541`). -/
noncomputable def predictVarGradients (m : GpMixture n d) (x : Fin d → ℝ) : Except Panic (Fin d → ℝ) :=
  match m.recombination with
  | .hard => m.predictVarGradientsHard x
  | .smooth _ => m.predictVarGradientsSmooth x

end GpMixture

end Verif.Mixture
