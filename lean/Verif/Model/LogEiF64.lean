import Verif.Model.Flt
import Mathlib.Data.Rat.Defs

/-!
# The LogEI helper with overflow

`/repo/crates/ego/src/utils/logei_helper.rs:9-37` with `f64` infinities and NaN (finite values are not
rounded). `exp`, `erfc`, `log`, `expm1`, `log1p` are parameters, constrained by `Libm` below.
-/

set_option autoImplicit false

namespace Verif.LogEiF64

open Verif Flt

/-- `a * b` on `f64`, without rounding. -/
def mul : Flt → Flt → Flt
  | .nan, _ => .nan
  | _, .nan => .nan
  | .fin a, .fin b => .fin (a * b)
  | .pinf, .pinf => .pinf
  | .pinf, .ninf => .ninf
  | .ninf, .pinf => .ninf
  | .ninf, .ninf => .pinf
  | .pinf, .fin b => if b = 0 then .nan else if 0 < b then .pinf else .ninf
  | .fin a, .pinf => if a = 0 then .nan else if 0 < a then .pinf else .ninf
  | .ninf, .fin b => if b = 0 then .nan else if 0 < b then .ninf else .pinf
  | .fin a, .ninf => if a = 0 then .nan else if 0 < a then .ninf else .pinf

/-- The mathematical functions used (`libm`). -/
structure Fns where
  exp : Flt → Flt
  erfc : Flt → Flt
  log : Flt → Flt
  expm1 : Flt → Flt
  log1p : Flt → Flt
  normPdf : Flt → Flt
  normCdf : Flt → Flt

/-- What is used of `libm`: the largest finite `f64` is below `e^710`, special values as in IEEE 754. -/
structure Libm (f : Fns) : Prop where
  exp_overflow : ∀ q : ℚ, 710 ≤ q → f.exp (.fin q) = .pinf
  exp_nan : f.exp .nan = .nan
  erfc_pos : ∀ q : ℚ, ∃ r : ℚ, 0 ≤ r ∧ f.erfc (.fin q) = .fin r
  log_pinf : f.log .pinf = .pinf
  log_ninf : f.log .ninf = .nan
  log_nan : f.log .nan = .nan
  log_pos : ∀ q : ℚ, 0 < q → ∃ r : ℚ, f.log (.fin q) = .fin r
  expm1_pinf : f.expm1 .pinf = .pinf
  log1p_nan : f.log1p .nan = .nan

/-- `erfcx` (`logei_helper.rs:9-11`). -/
def erfcx (f : Fns) (u : Flt) : Flt := mul (f.exp (mul u u)) (f.erfc u)

/-- `log1mexp` (`logei_helper.rs:13-20`). -/
def log1mexp (f : Fns) (x : Flt) : Flt :=
  if gt x (neg (f.log (.fin 2))) then f.log (neg (f.expm1 x)) else f.log1p (neg (f.exp x))

/-- `INV_SQRT_2` (`logei_helper.rs:4`). -/
def invSqrt2 : ℚ := 7071067811865475 / 10000000000000000

/-- `LOG_2PI_OVER_2` (`logei_helper.rs:5`), as a decimal fraction. -/
def log2PiOver2 : ℚ := 9189385332046727 / 10000000000000000

/-- `LOG_PI_OVER_2_ALL_OVER_2` (`logei_helper.rs:6`), as a decimal fraction. -/
def logPiOver2Half : ℚ := 2257913526447274 / 10000000000000000

/-- `log_ei_helper` (`logei_helper.rs:22-37`). -/
def logEiHelper (f : Fns) (u : Flt) : Flt :=
  if gt u (.fin (-1)) then f.log (add (f.normPdf u) (mul u (f.normCdf u)))
  else
    add (sub (mul (mul (.fin (-1 / 2)) u) u) (.fin log2PiOver2))
      (if gt u (.fin (-1000000)) then
        log1mexp f (add (f.log (mul (erfcx f (mul (.fin (-invSqrt2)) u)) (abs u)))
          (.fin logPiOver2Half))
       else mul (.fin (-2)) (f.log (abs u)))

end Verif.LogEiF64
