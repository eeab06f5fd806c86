import Verif.Model.F64
import Verif.Model.Criteria

/-!
# Expected improvement in double precision

Model of `ExpectedImprovement::value` (`/repo/crates/ego/src/criteria/ei.rs:22-47`) with the operations of `f64`. The
library functions are parameters. Overflow is not modelled.
-/

set_option autoImplicit false

namespace Verif.EiF64

open Verif.F64

/-- Library functions on `f64`. -/
structure Fns where
  exp : ℝ → ℝ
  erfc : ℝ → ℝ
  sqrt : ℝ → ℝ

/-- `std::f64::consts::SQRT_2`. -/
noncomputable def sqrt2 : ℝ := 6369051672525773 / 4503599627370496

/-- `SQRT_2PI` (`ego/src/utils/misc.rs:7`), the `f64` nearest to the literal. -/
noncomputable def sqrt2pi : ℝ := 2822212540896131 / 1125899906842624

/-- `norm_cdf` (`ego/src/utils/misc.rs:31-33`). -/
noncomputable def normCdf (f : Fns) (x : ℝ) : ℝ := mul (1 / 2) (f.erfc (div (-x) sqrt2))

/-- `norm_pdf` (`ego/src/utils/misc.rs:36-38`). -/
noncomputable def normPdf (f : Fns) (x : ℝ) : ℝ := div (f.exp (mul (mul (-1 / 2) x) x)) sqrt2pi

/-- `args1 + args2` (`ego/src/criteria/ei.rs:40-42`). -/
noncomputable def improvement (f : Fns) (u : ℝ) : ℝ := add (mul u (normCdf f u)) (normPdf f u)

/-- The value once prediction and variance are known (`ego/src/criteria/ei.rs:33-43`). -/
noncomputable def eiAt (f : Fns) (fmin k pred var : ℝ) : ℝ :=
  if var < Criteria.eps then 0
  else
    let sigma := mul k (f.sqrt var)
    mul sigma (improvement f (div (sub fmin pred) sigma))

end Verif.EiF64
