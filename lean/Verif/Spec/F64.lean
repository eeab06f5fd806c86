import Mathlib.Algebra.Order.Floor.Ring
import Mathlib.Data.Int.Log
import Mathlib.Algebra.Order.Archimedean.Real.Basic

/-!
# Numbers of type `f64`

IEEE 754 binary64: 53 significant bits, exponents at least `-1074`. Exponents are not bounded above: overflow is a
separate condition (`Overflows`).
-/

set_option autoImplicit false

namespace Verif.Spec

/-- `x` is a finite `f64` (or would be one with larger exponents). -/
def IsF64 (x : ℝ) : Prop := ∃ m e : ℤ, |m| < 2 ^ 53 ∧ -1074 ≤ e ∧ x = m * (2 : ℝ) ^ e

/-- `r` is a number of type `f64` nearest to `x`. -/
def IsNearestF64 (x r : ℝ) : Prop := IsF64 r ∧ ∀ y, IsF64 y → |r - x| ≤ |y - x|

/-- The rounded value `r` is not finite. -/
def Overflows (r : ℝ) : Prop := 2 ^ 1024 ≤ |r|

end Verif.Spec
