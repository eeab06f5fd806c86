import Mathlib.LinearAlgebra.Matrix.NonsingularInverse
import Verif.Spec.Kernels
import Mathlib.Analysis.SpecialFunctions.Log.Basic

/-!
# Sparse Gaussian processes, textbook formulas

`Kmm` is the covariance of the inducing variables, `Kmn` their covariance with the observations (without noise),
`Λ` the variances of the observations given the inducing variables, `km` the covariance of the inducing variables
with the value at a point, `k` the prior variance of this value.
-/

set_option autoImplicit false

namespace Verif.Spec

open Matrix Verif.Kernels

variable {n m d h : ℕ}

/-- Covariances of the Gaussian process of variance `s` between points `a` and points `b`. -/
noncomputable def crossCov {p q : ℕ} (k : Kernel) (θ : Fin h → ℝ) (w : Fin d → Fin h → ℝ) (s : ℝ)
    (a : Fin p → Fin d → ℝ) (b : Fin q → Fin d → ℝ) : Matrix (Fin p) (Fin q) ℝ :=
  Matrix.of fun i j => s * corr k θ w fun l => a i l - b j l

/-- Covariance of the inducing variables. -/
noncomputable def inducingCov (k : Kernel) (θ : Fin h → ℝ) (w : Fin d → Fin h → ℝ) (s nugget : ℝ)
    (z : Fin m → Fin d → ℝ) : Matrix (Fin m) (Fin m) ℝ :=
  crossCov k θ w s z z + nugget • 1

/-- Posterior covariance of the inducing variables, up to `Kmm` on both sides. -/
noncomputable def sparseSigma (Kmm : Matrix (Fin m) (Fin m) ℝ) (Kmn : Matrix (Fin m) (Fin n) ℝ) (Λ : Fin n → ℝ) :
    Matrix (Fin m) (Fin m) ℝ :=
  (Kmm + Kmn * (Matrix.diagonal Λ)⁻¹ * Kmnᵀ)⁻¹

/-- Posterior mean. -/
noncomputable def sparseMean (Kmm : Matrix (Fin m) (Fin m) ℝ) (Kmn : Matrix (Fin m) (Fin n) ℝ) (Λ : Fin n → ℝ)
    (y : Matrix (Fin n) (Fin 1) ℝ) (km : Matrix (Fin m) (Fin 1) ℝ) : ℝ :=
  (kmᵀ * sparseSigma Kmm Kmn Λ * Kmn * (Matrix.diagonal Λ)⁻¹ * y) 0 0

/-- Posterior variance (without noise). -/
noncomputable def sparseVar (Kmm : Matrix (Fin m) (Fin m) ℝ) (Kmn : Matrix (Fin m) (Fin n) ℝ) (Λ : Fin n → ℝ)
    (km : Matrix (Fin m) (Fin 1) ℝ) (k : ℝ) : ℝ :=
  k - (kmᵀ * (Kmm⁻¹ - sparseSigma Kmm Kmn Λ) * km) 0 0

/-- Covariance of the observations explained by the inducing variables. -/
noncomputable def nystrom (Kmm : Matrix (Fin m) (Fin m) ℝ) (Kmn : Matrix (Fin m) (Fin n) ℝ) : Matrix (Fin n) (Fin n) ℝ :=
  Kmnᵀ * Kmm⁻¹ * Kmn

/-- Variances of the observations given the inducing variables for FITC. -/
noncomputable def fitcVariances (Kmm : Matrix (Fin m) (Fin m) ℝ) (Kmn : Matrix (Fin m) (Fin n) ℝ) (s noise : ℝ) :
    Fin n → ℝ :=
  fun i => s - nystrom Kmm Kmn i i + noise

/-- Log-density at `y` of the centered Gaussian vector of covariance `S`, without the constant `n/2 log (2π)`. -/
noncomputable def logDensity (S : Matrix (Fin n) (Fin n) ℝ) (y : Matrix (Fin n) (Fin 1) ℝ) : ℝ :=
  -(1 / 2) * (Real.log S.det + (yᵀ * S⁻¹ * y) 0 0)

end Verif.Spec
