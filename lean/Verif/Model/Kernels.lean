import Mathlib.Analysis.SpecialFunctions.Exp
import Mathlib.Analysis.SpecialFunctions.Sqrt

/-!
# Correlation models

Model over `ℝ` of `/repo/crates/gp/src/correlation_models.rs`. A difference vector is `d : Fin n → ℝ`, the
hyperparameters `θ : Fin h → ℝ`, the PLS weights `w : Fin n → Fin h → ℝ` (so that the shapes agree); matrices
of differences are handled row by row, as in the code. Simplification: exact arithmetic.
-/

set_option autoImplicit false

namespace Verif.Kernels

open Real

variable {n h m : ℕ}

/-- `f64::signum` (1 at 0). -/
noncomputable def signum (v : ℝ) : ℝ := if 0 ≤ v then 1 else -1

/-- `SquaredExponentialCorr::value` (`correlation_models.rs:91-104`), one row. -/
noncomputable def seValue (θ : Fin h → ℝ) (w : Fin n → Fin h → ℝ) (d : Fin n → ℝ) : ℝ :=
  let thetaW := fun j => ∑ l, (θ l * w j l) ^ 2
  let r := ∑ j, d j ^ 2 * thetaW j
  rexp (-0.5 * r)

/-- `SquaredExponentialCorr::jacobian` (`correlation_models.rs:106-122`), one row. -/
noncomputable def seJac (θ : Fin h → ℝ) (w : Fin n → Fin h → ℝ) (d : Fin n → ℝ) : Fin n → ℝ := fun j =>
  let dthetaW := -∑ l, (θ l * w j l) ^ 2
  d j * dthetaW * seValue θ w d

/-- `AbsoluteExponentialCorr::value` (`correlation_models.rs:185-196`), one row. -/
noncomputable def absValue (θ : Fin h → ℝ) (w : Fin n → Fin h → ℝ) (d : Fin n → ℝ) : ℝ :=
  let thetaW := fun j => ∑ l, |w j l| * θ l
  let r := ∑ j, |d j| * thetaW j
  rexp (-r)

/-- `AbsoluteExponentialCorr::jacobian` (`correlation_models.rs:198-214`), one row. -/
noncomputable def absJac (θ : Fin h → ℝ) (w : Fin n → Fin h → ℝ) (d : Fin n → ℝ) : Fin n → ℝ := fun j =>
  let dthetaW := signum (d j) * (-1 * ∑ l, θ l * |w j l|)
  dthetaW * absValue θ w d

/-- `theta * weights.mapv(|v| v.abs())` (`correlation_models.rs:333, 381, 505, 554`). -/
def thetaW (θ : Fin h → ℝ) (w : Fin n → Fin h → ℝ) (j : Fin n) (l : Fin h) : ℝ := θ l * |w j l|

/-- First factor of `Matern32Corr::_compute_r_factors` (`correlation_models.rs:338-349`). -/
noncomputable def m32A (θ : Fin h → ℝ) (w : Fin n → Fin h → ℝ) (d : Fin n → ℝ) : ℝ :=
  ∏ j, ∏ l, (1 + √3 * thetaW θ w j l * |d j|)

/-- Second factor of `Matern32Corr::_compute_r_factors` (`correlation_models.rs:336, 351`). -/
noncomputable def m32B (θ : Fin h → ℝ) (w : Fin n → Fin h → ℝ) (d : Fin n → ℝ) : ℝ :=
  rexp (-√3 * ∑ l, ∑ j, |d j| * thetaW θ w j l)

/-- `Matern32Corr::value` (`correlation_models.rs:277-286`), one row. -/
noncomputable def m32Value (θ : Fin h → ℝ) (w : Fin n → Fin h → ℝ) (d : Fin n → ℝ) : ℝ :=
  m32A θ w d * m32B θ w d

/-- `Matern32Corr::_jac_helper` (`correlation_models.rs:355-412`), one row. -/
noncomputable def m32Jac (θ : Fin h → ℝ) (w : Fin n → Fin h → ℝ) (d : Fin n → ℝ) : Fin n → ℝ := fun j =>
  let db := -√3 * (∑ l, |w j l| * θ l) * signum (d j) * m32B θ w d * m32A θ w d
  let da := ∑ k, (√3 * thetaW θ w j k * signum (d j)) *
    ∏ p, ∏ l, if l ≠ k ∨ p ≠ j then 1 + √3 * (thetaW θ w p l * |d p|) else 1
  db + m32B θ w d * da

/-- First factor of `Matern52Corr::compute_r_factors` (`correlation_models.rs:506-518`). -/
noncomputable def m52A (θ : Fin h → ℝ) (w : Fin n → Fin h → ℝ) (d : Fin n → ℝ) : ℝ :=
  ∏ j, ∏ l, (1 + √5 * thetaW θ w j l * |d j| + 5 / 3 * (thetaW θ w j l * thetaW θ w j l * d j * d j))

/-- Second factor of `Matern52Corr::compute_r_factors` (`correlation_models.rs:520-521`). -/
noncomputable def m52B (θ : Fin h → ℝ) (w : Fin n → Fin h → ℝ) (d : Fin n → ℝ) : ℝ :=
  rexp (-√5 * ∑ l, ∑ j, |d j| * thetaW θ w j l)

/-- `Matern52Corr::value` (`correlation_models.rs:446-455`), one row. -/
noncomputable def m52Value (θ : Fin h → ℝ) (w : Fin n → Fin h → ℝ) (d : Fin n → ℝ) : ℝ :=
  m52A θ w d * m52B θ w d

/-- `Matern52Corr::_jac_helper` (`correlation_models.rs:525-586`), one row. -/
noncomputable def m52Jac (θ : Fin h → ℝ) (w : Fin n → Fin h → ℝ) (d : Fin n → ℝ) : Fin n → ℝ := fun j =>
  let db := -√5 * (∑ l, |w j l| * θ l) * signum (d j) * m52B θ w d * m52A θ w d
  let da := ∑ k, (√5 * thetaW θ w j k * signum (d j) +
      2 * (5 / 3) * thetaW θ w j k * thetaW θ w j k * signum (d j) * |d j|) *
    ∏ p, ∏ l, if l ≠ k ∨ p ≠ j then
      1 + √5 * (thetaW θ w p l * |d p|) + 5 / 3 * (thetaW θ w p l * |d p|) * (thetaW θ w p l * |d p|) else 1
  db + m52B θ w d * da

/-- The four kernels. -/
inductive Kernel where
  | squaredExponential
  | absoluteExponential
  | matern32
  | matern52
deriving DecidableEq, Repr

/-- `CorrelationModel::value`, one row. -/
noncomputable def Kernel.value : Kernel → (Fin h → ℝ) → (Fin n → Fin h → ℝ) → (Fin n → ℝ) → ℝ
  | .squaredExponential => seValue
  | .absoluteExponential => absValue
  | .matern32 => m32Value
  | .matern52 => m52Value

/-- Jacobian as a function of the differences, one row. -/
noncomputable def Kernel.jacRow : Kernel → (Fin h → ℝ) → (Fin n → Fin h → ℝ) → (Fin n → ℝ) → Fin n → ℝ
  | .squaredExponential => seJac
  | .absoluteExponential => absJac
  | .matern32 => m32Jac
  | .matern52 => m52Jac

/-- `differences` (`gp/src/utils.rs:136-142`). -/
def differences (x : Fin n → ℝ) (xtrain : Fin m → Fin n → ℝ) : Fin m → Fin n → ℝ :=
  fun i j => x j - xtrain i j

/-- `CorrelationModel::jacobian` (`correlation_models.rs:106-122, 198-214, 288-298, 457-468`). -/
noncomputable def Kernel.jacobian (k : Kernel) (x : Fin n → ℝ) (xtrain : Fin m → Fin n → ℝ) (θ : Fin h → ℝ)
    (w : Fin n → Fin h → ℝ) : Fin m → Fin n → ℝ :=
  fun i => k.jacRow θ w (differences x xtrain i)

/-- `CorrelationModel::valjac` (`correlation_models.rs:124-141, 216-233, 300-312, 470-483`): the squared and
absolute exponentials repeat the code of `jacobian`. -/
noncomputable def Kernel.valjac (k : Kernel) (x : Fin n → ℝ) (xtrain : Fin m → Fin n → ℝ) (θ : Fin h → ℝ)
    (w : Fin n → Fin h → ℝ) : (Fin m → ℝ) × (Fin m → Fin n → ℝ) :=
  match k with
  | .squaredExponential =>
    let d := differences x xtrain
    let r := fun i => seValue θ w (d i)
    (r, fun i j => d i j * (-∑ l, (θ l * w j l) ^ 2) * r i)
  | .absoluteExponential =>
    let d := differences x xtrain
    let r := fun i => absValue θ w (d i)
    (r, fun i j => signum (d i j) * (-1 * ∑ l, θ l * |w j l|) * r i)
  | .matern32 =>
    let d := differences x xtrain
    (fun i => m32A θ w (d i) * m32B θ w (d i), fun i => m32Jac θ w (d i))
  | .matern52 =>
    let d := differences x xtrain
    (fun i => m52A θ w (d i) * m52B θ w (d i), fun i => m52Jac θ w (d i))

end Verif.Kernels
