import Verif.Model.Criteria
import Mathlib.Probability.Distributions.Gaussian.Real

/-!
# What criteria and constraints have to compute
-/

set_option autoImplicit false

namespace Verif.Spec

open Verif.Criteria MeasureTheory ProbabilityTheory

variable {d : ℕ}

/-- `g` is the vector of partial derivatives of `f` at `x`. -/
def IsGradient (f : Pt d → ℝ) (g : Pt d) (x : Pt d) : Prop :=
  ∀ j, HasDerivAt (fun t => f (Function.update x j t)) (g j) (x j)

/-- The value a computation returns has gradient the vector another computation returns at `x`: both
computations succeed. -/
def ReturnsGradient (value : Pt d → Except Panic ℝ) (grad : Except Panic (Pt d)) (x : Pt d) : Prop :=
  ∃ f g, (∀ z, value z = .ok (f z)) ∧ grad = .ok g ∧ IsGradient f g x

/-- The predictions of a surrogate succeed and are the mean `m` and variance `v` of a process, with
gradients `dm` and `dv` at `x`. -/
structure Describes (s : Surrogate d) (m v : Pt d → ℝ) (dm dv : Pt d) (x : Pt d) : Prop where
  predict : ∀ z, s.predict z = some (m z)
  valvar : ∀ z, s.valvar z = some (m z, v z)
  predictGrad : s.predictGrad x = some dm
  valvarGrad : s.valvarGrad x = some (dm, dv)
  gradMean : IsGradient m dm x
  gradVar : IsGradient v dv x

/-- Expected improvement on `fmin` of a normal variable. -/
noncomputable def expectedImprovement (fmin m : ℝ) (v : NNReal) : ℝ :=
  ∫ y, max (fmin - y) 0 ∂gaussianReal m v

/-- Probability that a normal variable is at most `tol`. -/
noncomputable def probBelow (tol m : ℝ) (v : NNReal) : ℝ := (gaussianReal m v).real (Set.Iic tol)

end Verif.Spec
