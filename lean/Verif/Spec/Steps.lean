import Mathlib.Analysis.Real.Sqrt

/-!
# Specification of start points
-/

set_option autoImplicit false

namespace Verif.Spec

/-- Distance when the variables are scaled by the sizes of their ranges. -/
noncomputable def scaledDist {d : ℕ} (lower upper a b : Fin d → ℝ) : ℝ :=
  Real.sqrt (∑ j, ((a j - b j) / (upper j - lower j)) ^ 2)

/-- `m` is the middle of `[a, b]`. -/
def IsMiddle {d : ℕ} (a b m : Fin d → ℝ) : Prop := ∀ j, 2 * m j = a j + b j

/-- No data point is closer to `m` than the data point `i`. -/
def IsNearest {n d : ℕ} (lower upper : Fin d → ℝ) (x : Fin n → Fin d → ℝ) (m : Fin d → ℝ) (i : Fin n) : Prop :=
  ∀ k, scaledDist lower upper (x i) m ≤ scaledDist lower upper (x k) m

end Verif.Spec
