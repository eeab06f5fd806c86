import Verif.Model.Mixture

/-!
# Specification of Gaussian mixtures
-/

set_option autoImplicit false

namespace Verif.Spec

open Verif Matrix Mixture

variable {n d : ℕ}

/-- Density of the multivariate normal law of mean `μ` and covariance `C`. -/
noncomputable def density (μ : Fin d → ℝ) (C : Matrix (Fin d) (Fin d) ℝ) (x : Fin d → ℝ) : ℝ :=
  Real.exp (-((x - μ) ⬝ᵥ (C⁻¹ *ᵥ (x - μ))) / 2) / √((2 * Real.pi) ^ d * C.det)

/-- `m` is a mixture built from positive weights, means, symmetric positive definite covariances, with a
positive heaviside factor which multiplies the covariances. -/
structure IsMixture (m : Gmx n d) (w : Fin n → ℝ) (μ : Fin n → Fin d → ℝ)
    (C : Fin n → Matrix (Fin d) (Fin d) ℝ) (h : ℝ) : Prop where
  weights : ∀ k, 0 < w k
  factor : 0 < h
  posDef : ∀ k, (C k).PosDef
  built : ∃ la m0, new la w μ C = some m0 ∧ m = m0.setFactor h

/-- Weight of cluster `k` at `x` (up to normalization): `w_k N(x; μ_k, h C_k)`. -/
noncomputable def joint (w : Fin n → ℝ) (μ : Fin n → Fin d → ℝ) (C : Fin n → Matrix (Fin d) (Fin d) ℝ)
    (h : ℝ) (x : Fin d → ℝ) (k : Fin n) : ℝ := w k * density (μ k) (h • C k) x

/-- Responsibility of cluster `k` at `x`. -/
noncomputable def responsibility (w : Fin n → ℝ) (μ : Fin n → Fin d → ℝ)
    (C : Fin n → Matrix (Fin d) (Fin d) ℝ) (h : ℝ) (x : Fin d → ℝ) (k : Fin n) : ℝ :=
  joint w μ C h x k / ∑ i, joint w μ C h x i

end Verif.Spec
