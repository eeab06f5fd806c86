import Mathlib.Probability.Distributions.Gaussian.Multivariate
import Mathlib.Probability.Independence.Basic
import Mathlib.Probability.HasLaw

/-!
# Laws of random vectors
-/

set_option autoImplicit false

namespace Verif.Spec

open MeasureTheory ProbabilityTheory

variable {Ω : Type} [MeasurableSpace Ω] {m t : ℕ}

/-- Independent draws of the standard normal law. -/
structure Draws (P : Measure Ω) (Z : Ω → Matrix (Fin m) (Fin t) ℝ) : Prop where
  law : ∀ i j, HasLaw (fun ω => Z ω i j) (gaussianReal 0 1) P
  indep : iIndepFun (fun (p : Fin m × Fin t) ω => Z ω p.1 p.2) P

/-- The columns of the random matrix `S` are independent and each one is a Gaussian vector with the given mean and
covariance. -/
structure GaussianColumns (P : Measure Ω) (S : Ω → Matrix (Fin m) (Fin t) ℝ) (mean : Fin m → ℝ)
    (cov : Matrix (Fin m) (Fin m) ℝ) : Prop where
  law : ∀ j, HasLaw (fun ω => WithLp.toLp 2 fun i => S ω i j) (multivariateGaussian (WithLp.toLp 2 mean) cov) P
  indep : iIndepFun (fun (j : Fin t) ω (i : Fin m) => S ω i j) P

end Verif.Spec
