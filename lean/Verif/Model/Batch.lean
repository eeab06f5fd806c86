import Verif.Model.Gp
import Verif.Model.Sparse
import Verif.Model.Mixture

set_option autoImplicit false

/-!
# Predictions at several points

The other files model predictions at one point. Here are the matrix computations that the code does for all the rows of
a set of points at once: `gp/src/algorithm.rs`, `gp/src/sparse_algorithm.rs`, `moe/src/surrogates.rs`,
`moe/src/gaussian_mixture.rs` and `moe/src/algorithm.rs`, default build, exact arithmetic.
-/

namespace Verif.Batch
open Verif Matrix Kernels

variable {n m d h t : ℕ}

/-- `unwrap` of a result. -/
def unwrap {α : Type} : Option α → Except Panic α
  | some a => .ok a
  | none => .error .other

/-- A set of `t` points, one for each row. -/
abbrev Points (t d : ℕ) := Fin t → Fin d → ℝ

/-- The predictions of a surrogate at sets of points (traits `GpSurrogate` and `GpSurrogateExt`,
`moe/src/surrogates.rs:49-81`). -/
structure Surrogate (d : ℕ) where
  predict : {t : ℕ} → Points t d → Except Panic (Fin t → ℝ)
  predictVar : {t : ℕ} → Points t d → Except Panic (Fin t → ℝ)
  predictValvar : {t : ℕ} → Points t d → Except Panic ((Fin t → ℝ) × (Fin t → ℝ))
  predictGradients : {t : ℕ} → Points t d → Except Panic (Fin t → Fin d → ℝ)
  predictVarGradients : {t : ℕ} → Points t d → Except Panic (Fin t → Fin d → ℝ)
  predictValvarGradients : {t : ℕ} → Points t d → Except Panic ((Fin t → Fin d → ℝ) × (Fin t → Fin d → ℝ))

/-- A loop over the rows (`Zip::from(drv.rows_mut()).and(x.rows()).for_each`) which stops at the first panic. -/
def forRows {α : Type} : {t : ℕ} → (Fin t → Except Panic α) → Except Panic (Fin t → α)
  | 0, _ => .ok fun i => i.elim0
  | _ + 1, f => f 0 >>= fun a => forRows (fun i => f i.succ) >>= fun r => .ok (Fin.cons a r)

/-! ## Gaussian processes -/

/-- `into_shape_with_order((r, c))`: rows one after another. -/
def reshape (r c : ℕ) (v : ℕ → ℝ) : Matrix (Fin r) (Fin c) ℝ := fun i j => v (i * c + j)

/-- Kernel between all the rows of two sets of points (`gp/src/algorithm.rs:372-380`,
`gp/src/sparse_algorithm.rs:226-231`): differences of all pairs, kernel of each, reshape. -/
noncomputable def kernelTable {p q : ℕ} (k : Kernel) (theta : Fin h → ℝ) (w : Fin d → Fin h → ℝ) (a : Points p d)
    (b : Points q d) : Except Panic (Matrix (Fin p) (Fin q) ℝ) :=
  GpUtils.pairwise a b >>= fun r => .ok (reshape p q fun i => k.value theta w (r.2 i))

section
variable (la : Gp.LinAlg) (g : Gp.Model n d h)

/-- `predict` (`gp/src/algorithm.rs:253-263`). -/
noncomputable def gpPredict (xs : Points t d) : Except Panic (Fin t → ℝ) := do
  let xn : Points t d := fun i => g.xnorm (xs i)
  let f := Gp.meanMat g.mean xn
  let corr ← kernelTable g.kernel g.theta g.w xn g.xtData
  let y := f * g.inner.beta + corr * g.inner.gamma
  .ok fun i => y i 0 * g.ytStd + g.ytMean

/-- `_compute_rt_u` (`gp/src/algorithm.rs:330-369`). -/
noncomputable def gpRtU (xn : Points t d) (corr : Matrix (Fin t) (Fin n) ℝ) :
    Except Panic (Matrix (Fin n) (Fin t) ℝ × Matrix (Fin (Gp.basis g.mean d)) (Fin t) ℝ) := do
  let rt ← unwrap (la.solve .lower g.inner.rChol corrᵀ)
  let rhs := g.inner.ftᵀ * rt - (Gp.meanMat g.mean xn)ᵀ
  let u ← unwrap (la.solve .lower g.inner.ftQrRᵀ rhs)
  .ok (rt, u)

/-- The mean squared errors of `predict_var` (`gp/src/algorithm.rs:272-278`). -/
noncomputable def gpMse (ru : Matrix (Fin n) (Fin t) ℝ × Matrix (Fin (Gp.basis g.mean d)) (Fin t) ℝ) : Fin t → ℝ := fun i =>
  let v := g.inner.sigma2 * (1 - ∑ a, ru.1 a i * ru.1 a i + ∑ a, ru.2 a i * ru.2 a i)
  if v < 0 then 0 else v

/-- `predict_var` (`gp/src/algorithm.rs:267-279`). -/
noncomputable def gpPredictVar (xs : Points t d) : Except Panic (Fin t → ℝ) := do
  let xn : Points t d := fun i => g.xnorm (xs i)
  let corr ← kernelTable g.kernel g.theta g.w xn g.xtData
  let ru ← gpRtU la g xn corr
  .ok (gpMse g ru)

/-- `predict_valvar` (`gp/src/algorithm.rs:282-307`). -/
noncomputable def gpPredictValvar (xs : Points t d) : Except Panic ((Fin t → ℝ) × (Fin t → ℝ)) := do
  let xn : Points t d := fun i => g.xnorm (xs i)
  let f := Gp.meanMat g.mean xn
  let corr ← kernelTable g.kernel g.theta g.w xn g.xtData
  let y := f * g.inner.beta + corr * g.inner.gamma
  let yp : Fin t → ℝ := fun i => y i 0 * g.ytStd + g.ytMean
  let ru ← gpRtU la g xn corr
  .ok (yp, gpMse g ru)

/-- The surrogate of a GP (`moe/src/surrogates.rs:168-211`, `gp/src/algorithm.rs:510-519, 701-727`). -/
noncomputable def gpSurrogate : Surrogate d where
  predict := gpPredict g
  predictVar := gpPredictVar la g
  predictValvar := gpPredictValvar la g
  predictGradients := fun xs => forRows fun i => unwrap (g.predictGradient (xs i))
  predictVarGradients := fun xs => forRows fun i => unwrap (g.predictVarGradient la (xs i))
  predictValvarGradients := fun xs =>
    (forRows fun i => unwrap (g.predictGradient (xs i)) >>= fun v =>
      unwrap (g.predictVarGradient la (xs i)) >>= fun s => .ok (v, s)) >>= fun r =>
    .ok (fun i => (r i).1, fun i => (r i).2)
end

/-! ## Sparse Gaussian processes -/

section
variable (g : Sparse.Model n m d h)

/-- `predict` (`gp/src/sparse_algorithm.rs:237-241`). -/
noncomputable def sgpPredict (xs : Points t d) : Except Panic (Fin t → ℝ) := do
  let kx ← kernelTable g.kernel g.theta g.w xs g.inducings
  .ok fun i => ((g.sigma2 • kx) * g.data.vec) i 0

/-- `predict_var` (`gp/src/sparse_algorithm.rs:245-257`). -/
noncomputable def sgpPredictVar (xs : Points t d) : Except Panic (Fin t → ℝ) := do
  let kx ← kernelTable g.kernel g.theta g.w g.inducings xs
  let kx := g.sigma2 • kx
  .ok fun i =>
    let v := g.sigma2 - ∑ a, (g.data.invᵀ * kx) a i * kx a i
    if v < 1e-15 then 1e-15 + g.noise else v + g.noise

/-- A prediction at one point (`insert_axis(Axis(0))`, then `[0]`). -/
def atPoint {α : Type} (f : Points 1 d → Except Panic (Fin 1 → α)) (x : Fin d → ℝ) : Except Panic α :=
  f (fun _ => x) >>= fun r => .ok (r 0)

/-- `finitediff::ndarr::central_diff` of a function which may panic. -/
noncomputable def centralDiff (step : ℝ) (f : (Fin d → ℝ) → Except Panic ℝ) (x : Fin d → ℝ) :
    Except Panic (Fin d → ℝ) :=
  forRows fun j => f (Function.update x j (x j + step)) >>= fun a =>
    f (Function.update x j (x j - step)) >>= fun b => .ok ((a - b) / (2 * step))

/-- The surrogate of a sparse GP (`moe/src/surrogates.rs:336-377`, `gp/src/sparse_algorithm.rs:300-335`). -/
noncomputable def sgpSurrogate (step : ℝ) : Surrogate d where
  predict := sgpPredict g
  predictVar := sgpPredictVar g
  predictValvar := fun xs => sgpPredict g xs >>= fun v => sgpPredictVar g xs >>= fun s => .ok (v, s)
  predictGradients := fun xs => forRows fun i => centralDiff step (atPoint (sgpPredict g)) (xs i)
  predictVarGradients := fun xs => forRows fun i => centralDiff step (atPoint (sgpPredictVar g)) (xs i)
  predictValvarGradients := fun xs =>
    (forRows fun i => centralDiff step (atPoint (sgpPredict g)) (xs i)) >>= fun v =>
      (forRows fun i => centralDiff step (atPoint (sgpPredictVar g)) (xs i)) >>= fun s => .ok (v, s)
end

/-! ## Mixtures -/

section
variable (q : Mixture.Gmx n d)

/-- `compute_log_gaussian_prob` (`gaussian_mixture.rs:257-282`). -/
noncomputable def logGaussianProb (xs : Points t d) : Matrix (Fin t) (Fin n) ℝ := fun i k =>
  let diff := (Matrix.of fun i => xs i - q.means k) * (q.heavisideFactor ^ (-0.5 : ℝ) • q.precisionsChol k)
  (-0.5 : ℝ) * ((∑ j, diff i j * diff i j) + d * Real.log (2 * Real.pi)) + q.logDet k

/-- `compute_log_prob_resp` (`gaussian_mixture.rs:230-253`), the logarithms of the responsibilities. -/
noncomputable def logResp (xs : Points t d) : Matrix (Fin t) (Fin n) ℝ :=
  let wlp : Matrix (Fin t) (Fin n) ℝ := fun i k => logGaussianProb q xs i k + Real.log (q.weights k)
  let sum : Fin t → ℝ := fun i => ∑ k, if wlp i k ≤ Mixture.Gmx.minExp then 0 else Real.exp (wlp i k)
  let norm : Fin t → ℝ := fun i => if |sum i| < Mixture.Gmx.epsilon then 0 else Real.log (sum i)
  fun i k => wlp i k - norm i

/-- `predict_probas` (`gaussian_mixture.rs:114-121`). -/
noncomputable def probas (xs : Points t d) : Matrix (Fin t) (Fin n) ℝ :=
  if n = 1 then fun _ _ => 1 else fun i k => Real.exp (logResp q xs i k)

/-- `predict` (`gaussian_mixture.rs:302-316`): the cluster of each point. -/
noncomputable def clusterOf (xs : Points t d) : Fin t → ℕ := fun i =>
  match MixInt.argmax (List.ofFn fun k => Real.exp (logResp q xs i k)) with
  | .ok k => k
  | .error _ => 0

/-- The sum over the experts, starting from zeros (`moe/src/algorithm.rs:417-421, 674-684, 795-806`). -/
def sumExperts {n : ℕ} (f : Fin n → Except Panic (Fin t → ℝ)) : Except Panic (Fin t → ℝ) :=
  (List.finRange n).foldlM (fun acc k => f k >>= fun v => .ok (acc + v)) 0

/-- The experts, the clusters and the recombination of a mixture (`moe/src/algorithm.rs:430-443`). -/
structure Mix (n d : ℕ) where
  recombination : Mixture.Recombination
  experts : Fin n → Surrogate d
  gmx : Mixture.Gmx n d

variable (M : Mix n d)

/-- `experts[c]`. -/
def Mix.expert (c : ℕ) : Except Panic (Surrogate d) :=
  if h : c < n then .ok (M.experts ⟨c, h⟩) else .error .outOfBounds

/-- `predict_smooth` (`moe/src/algorithm.rs:411-423`). -/
noncomputable def predictSmooth (xs : Points t d) : Except Panic (Fin t → ℝ) :=
  sumExperts fun k => (M.experts k).predict xs >>= fun v => .ok fun i => v i * probas M.gmx xs i k

/-- `predict_var_smooth` (`moe/src/algorithm.rs:670-685`). -/
noncomputable def predictVarSmooth (xs : Points t d) : Except Panic (Fin t → ℝ) :=
  sumExperts fun k => (M.experts k).predictVar xs >>= fun v =>
    .ok fun i => v i * probas M.gmx xs i k * probas M.gmx xs i k

/-- `predict_valvar_smooth` (`moe/src/algorithm.rs:789-809`). -/
noncomputable def predictValvarSmooth (xs : Points t d) : Except Panic ((Fin t → ℝ) × (Fin t → ℝ)) :=
  (List.finRange n).foldlM (fun acc k => (M.experts k).predictValvar xs >>= fun v =>
    .ok (acc.1 + fun i => v.1 i * probas M.gmx xs i k,
      acc.2 + fun i => v.2 i * probas M.gmx xs i k * probas M.gmx xs i k)) (0, 0)

/-- One row of the gradient (`moe/src/algorithm.rs:705-732, 852-861`), from the predictions of the experts, their
gradients, the responsibilities and their derivatives. -/
noncomputable def rowGradient (preds : Fin n → ℝ) (drvs : Fin n → Fin d → ℝ) (p : Fin n → ℝ) (pp : Fin n → Fin d → ℝ) :
    Except Panic (Fin d → ℝ) := do
  let term1 := (Mixture.Arr.mat fun i j => drvs i j * p i).sumAxis0
  let t2 ← (Mixture.Arr.mat pp).mul (Mixture.Arr.col preds)
  let s ← term1.add t2.sumAxis0
  s.assign d

/-- One row of the gradient of the variance (`moe/src/algorithm.rs:754-780, 863-871`). -/
noncomputable def rowVarGradient (vars : Fin n → ℝ) (drvs : Fin n → Fin d → ℝ) (p : Fin n → ℝ) (pp : Fin n → Fin d → ℝ) :
    Except Panic (Fin d → ℝ) := do
  let term1 := (Mixture.Arr.mat fun i j => drvs i j * p i * p i).sumAxis0
  let t2 ← (Mixture.Arr.vec p).mul (Mixture.Arr.mat pp)
  let t2 ← t2.mul (Mixture.Arr.col vars)
  let t2 : Mixture.Arr := { t2 with v := fun i j => 2 * t2.v i j }
  let s ← term1.add t2.sumAxis0
  s.assign d

/-- `predict_gradients_smooth` (`moe/src/algorithm.rs:691-733`). -/
noncomputable def predictGradientsSmooth (xs : Points t d) : Except Panic (Fin t → Fin d → ℝ) :=
  forRows fun i => do
    let preds ← forRows fun k => atPoint (M.experts k).predict (xs i)
    let drvs ← forRows fun k => atPoint (M.experts k).predictGradients (xs i)
    rowGradient preds drvs (probas M.gmx xs i) (M.gmx.probasDerivatives (xs i))

/-- `predict_var_gradients_smooth` (`moe/src/algorithm.rs:739-783`). -/
noncomputable def predictVarGradientsSmooth (xs : Points t d) : Except Panic (Fin t → Fin d → ℝ) :=
  forRows fun i => do
    let preds ← forRows fun k => atPoint (M.experts k).predictVar (xs i)
    let drvs ← forRows fun k => atPoint (M.experts k).predictVarGradients (xs i)
    rowVarGradient preds drvs (probas M.gmx xs i) (M.gmx.probasDerivatives (xs i))

/-- A joint prediction at one point. -/
def atPoint2 {α : Type} (f : Points 1 d → Except Panic ((Fin 1 → α) × (Fin 1 → α))) (x : Fin d → ℝ) : Except Panic (α × α) :=
  f (fun _ => x) >>= fun r => .ok (r.1 0, r.2 0)

/-- `predict_valvar_gradients_smooth` (`moe/src/algorithm.rs:811-873`). -/
noncomputable def predictValvarGradientsSmooth (xs : Points t d) :
    Except Panic ((Fin t → Fin d → ℝ) × (Fin t → Fin d → ℝ)) :=
  (forRows fun i => do
    let pv ← forRows fun k => atPoint2 (M.experts k).predictValvar (xs i)
    let dv ← forRows fun k => atPoint2 (M.experts k).predictValvarGradients (xs i)
    let p := probas M.gmx xs i
    let pp := M.gmx.probasDerivatives (xs i)
    let g ← rowGradient (fun k => (pv k).1) (fun k => (dv k).1) p pp
    let v ← rowVarGradient (fun k => (pv k).2) (fun k => (dv k).2) p pp
    .ok (g, v)) >>= fun r => .ok (fun i => (r i).1, fun i => (r i).2)

/-- `predict_hard`, `predict_var_hard`, `predict_gradients_hard`, `predict_var_gradients_hard`
(`moe/src/algorithm.rs:879-910, 942-981`): the same loop with the prediction `f` of the expert of each row. -/
noncomputable def hard {α : Type} (f : Surrogate d → Points 1 d → Except Panic (Fin 1 → α)) (xs : Points t d) :
    Except Panic (Fin t → α) :=
  forRows fun i => M.expert (clusterOf M.gmx xs i) >>= fun e => atPoint (f e) (xs i)

/-- `predict_valvar_hard`, `predict_valvar_gradients_hard` (`moe/src/algorithm.rs:915-935, 986-1005`). -/
noncomputable def hard2 {α : Type} (f : Surrogate d → Points 1 d → Except Panic ((Fin 1 → α) × (Fin 1 → α)))
    (xs : Points t d) : Except Panic ((Fin t → α) × (Fin t → α)) :=
  (forRows fun i => M.expert (clusterOf M.gmx xs i) >>= fun e => atPoint2 (f e) (xs i)) >>= fun r =>
    .ok (fun i => (r i).1, fun i => (r i).2)

/-- The mixture as a surrogate (`moe/src/algorithm.rs:487-548`). -/
noncomputable def mixSurrogate : Surrogate d where
  predict := match M.recombination with
    | .hard => hard M fun e => e.predict
    | .smooth _ => predictSmooth M
  predictVar := match M.recombination with
    | .hard => hard M fun e => e.predictVar
    | .smooth _ => predictVarSmooth M
  predictValvar := match M.recombination with
    | .hard => hard2 M fun e => e.predictValvar
    | .smooth _ => predictValvarSmooth M
  predictGradients := match M.recombination with
    | .hard => hard M fun e => e.predictGradients
    | .smooth _ => predictGradientsSmooth M
  predictVarGradients := match M.recombination with
    | .hard => hard M fun e => e.predictVarGradients
    | .smooth _ => predictVarGradientsSmooth M
  predictValvarGradients := match M.recombination with
    | .hard => hard2 M fun e => e.predictValvarGradients
    | .smooth _ => predictValvarGradientsSmooth M
end

end Verif.Batch
