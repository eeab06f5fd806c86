import Mathlib.LinearAlgebra.Matrix.NonsingularInverse
import Mathlib.Analysis.SpecialFunctions.Trigonometric.Basic
import Mathlib.Analysis.SpecialFunctions.Log.Basic
import Verif.Model.Kernels

/-!
# Universal kriging, textbook formulas
-/

set_option autoImplicit false

namespace Verif.Spec

open Matrix

variable {n d h p : ℕ}

/-- Correlation matrix of the (normalized) inputs, with a nugget on the diagonal. -/
noncomputable def corrMatrix (k : Kernels.Kernel) (θ : Fin h → ℝ) (w : Fin d → Fin h → ℝ) (nugget : ℝ)
    (x : Fin n → Fin d → ℝ) : Matrix (Fin n) (Fin n) ℝ :=
  Matrix.of fun i j => if i = j then 1 + nugget else k.value θ w (x i - x j)

/-- Generalized least squares estimate. -/
noncomputable def krigBeta (R : Matrix (Fin n) (Fin n) ℝ) (F : Matrix (Fin n) (Fin p) ℝ)
    (y : Matrix (Fin n) (Fin 1) ℝ) : Matrix (Fin p) (Fin 1) ℝ :=
  (Fᵀ * R⁻¹ * F)⁻¹ * (Fᵀ * R⁻¹ * y)

/-- Universal kriging predictor for correlations `r` and basis functions `f` at the point. -/
noncomputable def krigMean (R : Matrix (Fin n) (Fin n) ℝ) (F : Matrix (Fin n) (Fin p) ℝ)
    (y : Matrix (Fin n) (Fin 1) ℝ) (r : Matrix (Fin n) (Fin 1) ℝ) (f : Matrix (Fin p) (Fin 1) ℝ) : ℝ :=
  (fᵀ * krigBeta R F y + rᵀ * R⁻¹ * (y - F * krigBeta R F y)) 0 0

/-- Universal kriging variance factor. -/
noncomputable def krigVar (R : Matrix (Fin n) (Fin n) ℝ) (F : Matrix (Fin n) (Fin p) ℝ)
    (r : Matrix (Fin n) (Fin 1) ℝ) (f : Matrix (Fin p) (Fin 1) ℝ) : ℝ :=
  1 - (rᵀ * R⁻¹ * r) 0 0 + ((f - Fᵀ * R⁻¹ * r)ᵀ * (Fᵀ * R⁻¹ * F)⁻¹ * (f - Fᵀ * R⁻¹ * r)) 0 0

/-- Universal kriging covariance factor of two points, `k` being their correlation. -/
noncomputable def krigCov (R : Matrix (Fin n) (Fin n) ℝ) (F : Matrix (Fin n) (Fin p) ℝ) (k : ℝ)
    (r r' : Matrix (Fin n) (Fin 1) ℝ) (f f' : Matrix (Fin p) (Fin 1) ℝ) : ℝ :=
  k - (rᵀ * R⁻¹ * r') 0 0 + ((f - Fᵀ * R⁻¹ * r)ᵀ * (Fᵀ * R⁻¹ * F)⁻¹ * (f' - Fᵀ * R⁻¹ * r')) 0 0

/-- Maximum likelihood estimate of the process variance (of normalized outputs). -/
noncomputable def krigSigma2 (R : Matrix (Fin n) (Fin n) ℝ) (F : Matrix (Fin n) (Fin p) ℝ)
    (y : Matrix (Fin n) (Fin 1) ℝ) : ℝ :=
  ((y - F * krigBeta R F y)ᵀ * R⁻¹ * (y - F * krigBeta R F y)) 0 0 / n

/-- Log-likelihood of observations `y` of a Gaussian vector of mean `F β` and covariance `v R`. -/
noncomputable def gaussLogLik (R : Matrix (Fin n) (Fin n) ℝ) (F : Matrix (Fin n) (Fin p) ℝ)
    (y : Matrix (Fin n) (Fin 1) ℝ) (β : Matrix (Fin p) (Fin 1) ℝ) (v : ℝ) : ℝ :=
  -(n * Real.log (2 * Real.pi * v) + Real.log R.det + ((y - F * β)ᵀ * R⁻¹ * (y - F * β)) 0 0 / v) / 2

end Verif.Spec
