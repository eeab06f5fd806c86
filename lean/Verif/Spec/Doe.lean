import Mathlib.Analysis.SpecialFunctions.Pow.Real
import Mathlib.Analysis.Real.Sqrt

/-!
# Specification of designs of experiments

Independent of the model: a design is a function of the row and of the column.
-/

set_option autoImplicit false

namespace Verif.Spec

/-- All components are in `[0, 1]`. -/
def InUnit {ns nx : ℕ} (x : Fin ns → Fin nx → ℝ) : Prop := ∀ i j, 0 ≤ x i j ∧ x i j ≤ 1

/-- All components are within the bounds. -/
def InBounds {ns nx : ℕ} (lower upper : Fin nx → ℝ) (x : Fin ns → Fin nx → ℝ) : Prop :=
  ∀ i j, lower j ≤ x i j ∧ x i j ≤ upper j

/-- In every dimension, each of the `ns` equal strata of `[0, 1)` holds exactly one point. -/
def Latin {ns nx : ℕ} (x : Fin ns → Fin nx → ℝ) : Prop :=
  ∀ j, ∀ k : Fin ns, ∃! i, (k : ℝ) / ns ≤ x i j ∧ x i j < ((k : ℝ) + 1) / ns

/-- Euclidean distance. -/
noncomputable def euclid {nx : ℕ} (a b : Fin nx → ℝ) : ℝ := Real.sqrt (∑ j, (a j - b j) ^ 2)

/-- The criterion `phi_p`: `p`-norm of the inverse distances between points. -/
noncomputable def phiP {ns nx : ℕ} (p : ℝ) (x : Fin ns → Fin nx → ℝ) : ℝ :=
  (∑ i, ∑ j, if i < j then (euclid (x i) (x j)) ^ (-p) else 0) ^ (1 / p)

/-- `x'` is `x` where the values of rows `i1` and `i2` in column `k` are exchanged. -/
structure Exchanged {ns nx : ℕ} (x x' : Fin ns → Fin nx → ℝ) (k : Fin nx) (i1 i2 : Fin ns) : Prop where
  first : x' i1 k = x i2 k
  second : x' i2 k = x i1 k
  column : ∀ i, i ≠ i1 → i ≠ i2 → x' i k = x i k
  others : ∀ i j, j ≠ k → x' i j = x i j

/-- `m` is the smallest distance between two points of the design. -/
def IsMinDist {ns nx : ℕ} (x : Fin ns → Fin nx → ℝ) (m : ℝ) : Prop :=
  (∃ i j, i < j ∧ m = euclid (x i) (x j)) ∧ ∀ i j, i < j → m ≤ euclid (x i) (x j)

/-- Numbers of levels after `t` increments given in turn to the factors. -/
def levelsAfter (nx t : ℕ) : List ℕ := (List.range nx).map fun i => 1 + (t + (nx - 1 - i)) / nx

/-- Row of a grid: the level `d` of a factor with `n` levels is the number `d / (n - 1)` (0 if there is one
level). -/
def gridValue (K : Type) [Field K] (n d : ℕ) : K := if n = 1 then 0 else (d : K) / ((n : K) - 1)

/-- The row `row` is the grid point with levels `ds`. -/
def IsGridRow (K : Type) [Field K] (levels ds : List ℕ) (row : List K) : Prop :=
  List.Forall₂ (fun d n => d < n) ds levels ∧ row = List.zipWith (gridValue K) levels ds

end Verif.Spec
