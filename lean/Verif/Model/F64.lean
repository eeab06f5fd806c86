import Mathlib.Algebra.Order.Floor.Ring
import Mathlib.Algebra.Ring.Int.Parity
import Mathlib.Algebra.Order.Round
import Mathlib.Data.Int.Log
import Mathlib.Algebra.Order.Archimedean.Real.Basic

/-!
# Arithmetic of `f64`

The operations `+`, `-`, `*`, `/` of Rust on finite `f64`: the exact result is rounded to nearest, ties to even
(IEEE 754 binary64), with gradual underflow. Results which overflow are not modelled: exponents are unbounded above.
The signs of zeros are not modelled.
-/

set_option autoImplicit false

namespace Verif.F64

/-- Exponent of the unit in the last place of `x`: 53 significant bits, at least `2 ^ (-1074)`. -/
noncomputable def expo (x : ℝ) : ℤ := max (Int.log 2 |x| - 52) (-1074)

/-- Nearest integer, the even one of two. -/
noncomputable def roundEven (x : ℝ) : ℤ :=
  if Int.fract x = 1 / 2 then (if Even ⌊x⌋ then ⌊x⌋ else ⌊x⌋ + 1) else round x

/-- Rounding of a real number. -/
noncomputable def rnd (x : ℝ) : ℝ := roundEven (x / 2 ^ expo x) * 2 ^ expo x

/-- `a + b`. -/
noncomputable def add (a b : ℝ) : ℝ := rnd (a + b)

/-- `a - b`. -/
noncomputable def sub (a b : ℝ) : ℝ := rnd (a - b)

/-- `a * b`. -/
noncomputable def mul (a b : ℝ) : ℝ := rnd (a * b)

/-- `a / b`. -/
noncomputable def div (a b : ℝ) : ℝ := rnd (a / b)

end Verif.F64
