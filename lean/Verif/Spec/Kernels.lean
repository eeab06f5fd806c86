import Verif.Model.Kernels

/-!
# Textbook correlation functions
-/

set_option autoImplicit false

namespace Verif.Spec

open Real Verif.Kernels

/-- One-dimensional correlation at scaled distance `t ≥ 0`. -/
noncomputable def corr1 : Kernel → ℝ → ℝ
  | .squaredExponential, t => rexp (-t ^ 2 / 2)
  | .absoluteExponential, t => rexp (-t)
  | .matern32, t => (1 + √3 * t) * rexp (-√3 * t)
  | .matern52, t => (1 + √5 * t + 5 / 3 * t ^ 2) * rexp (-√5 * t)

/-- The documented correlation: product over components and PLS directions of one-dimensional correlations. -/
noncomputable def corr {n h : ℕ} (k : Kernel) (θ : Fin h → ℝ) (w : Fin n → Fin h → ℝ) (d : Fin n → ℝ) : ℝ :=
  ∏ j, ∏ l, corr1 k (θ l * |w j l| * |d j|)

end Verif.Spec
