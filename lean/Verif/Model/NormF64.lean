import Mathlib.Analysis.Real.Sqrt
import Verif.Model.F64

/-!
# Normalization with the operations of `f64`

`normalize` (`/repo/crates/gp/src/utils.rs:45-54`) for one column of at least two rows, and the two uses of its results in
`predict` (`/repo/crates/gp/src/algorithm.rs:253-262`). The algorithms of `ndarray` are modelled: `mean_axis` adds rows one
after the other and divides by their number; `std_axis` is the one pass algorithm of Welford, with a fused multiplication and addition.
`sqrt` is correctly rounded, as IEEE 754 requires. Overflow is not modelled.
-/

set_option autoImplicit false

namespace Verif.NormF64

open Verif.F64

/-- `ndarray` `mean_axis`. -/
noncomputable def mean (xs : List ℝ) : ℝ := div (xs.foldl add 0) xs.length

/-- Loop of `ndarray` `var_axis`: `k` rows read, their mean and the sum of squares. -/
noncomputable def welford (k : ℕ) (mean ssq : ℝ) : List ℝ → ℝ
  | [] => ssq
  | x :: xs =>
    let delta := sub x mean
    let mean' := add mean (div delta (k + 1))
    welford (k + 1) mean' (rnd (sub x mean' * delta + ssq)) xs

/-- `ndarray` `std_axis(Axis(0), 1)`. -/
noncomputable def std (xs : List ℝ) : ℝ := rnd √(div (welford 0 0 0 xs) (xs.length - 1))

/-- Deviation kept (`utils.rs:50`). -/
noncomputable def scale (xs : List ℝ) : ℝ := if std xs = 0 then 1 else std xs

/-- A normalized value (`utils.rs:51`, `algorithm.rs:254`) with mean `m` and deviation `s`. -/
noncomputable def center (m s x : ℝ) : ℝ := div (sub x m) s

/-- A prediction in the units of the outputs (`algorithm.rs:262`). -/
noncomputable def restore (m s v : ℝ) : ℝ := add (mul v s) m

/-- Normalized column. -/
noncomputable def normalize (xs : List ℝ) : List ℝ := xs.map (center (mean xs) (scale xs))

end Verif.NormF64
