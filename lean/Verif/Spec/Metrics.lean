import Verif.Model.Metrics
import Mathlib.Probability.Distributions.Gaussian.Real
import Mathlib.Probability.CDF

/-!
# Specification of cross validation
-/

set_option autoImplicit false

namespace Verif.Spec

open Verif Metrics MeasureTheory ProbabilityTheory

variable {X : Type}

/-- Rows of fold number `i` with folds of `s` rows. -/
def chunk (rows : List (X × ℝ)) (s i : ℕ) : List (X × ℝ) := (rows.drop (i * s)).take s

/-- All rows but those of fold number `i`, in order. -/
def others (rows : List (X × ℝ)) (s i : ℕ) : List (X × ℝ) := rows.take (i * s) ++ rows.drop ((i + 1) * s)

/-- The models of a cross validation with `k` folds. -/
structure CrossModels (fit : List (X × ℝ) → Option (Fitted X)) (rows : List (X × ℝ)) (k : ℕ) (M : ℕ → Fitted X) :
    Prop where
  two : 2 ≤ k
  le : k ≤ rows.length
  fit : ∀ i < k, fit (others rows (rows.length / k) i) = some (M i)

/-- Mean of the outputs. -/
noncomputable def meanOutput (rows : List (X × ℝ)) : ℝ := (rows.map Prod.snd).sum / rows.length

/-- Sum over all validated rows, with their fold number. -/
noncomputable def sumValidated (rows : List (X × ℝ)) (k : ℕ) (f : ℕ → X × ℝ → ℝ) : ℝ :=
  ∑ i ∈ Finset.range k, ((chunk rows (rows.length / k) i).map (f i)).sum

/-- `ppf` is the quantile function of the standard normal law. -/
def IsQuantile (ppf : ℝ → ℝ) : Prop := ∀ p, 0 < p → p < 1 → (gaussianReal 0 1).real (Set.Iic (ppf p)) = p

/-- The 20 levels, evenly spaced from 0.02 to 0.98. -/
noncomputable def levels : List ℝ := (List.range 20).map fun i : ℕ => 0.02 + 0.96 * (i / 19)

/-- Mean over the 20 levels of the distance between a coverage and its target. -/
noncomputable def coverageError (delta : ℝ → ℝ) : ℝ := (levels.map fun a => |delta a - (1 - a)|).sum / 20

end Verif.Spec
