import Verif.Model.Flt
import Mathlib.Algebra.BigOperators.Group.List.Basic

/-!
# Specification of the run data
-/

set_option autoImplicit false

namespace Verif.Spec

/-- L1 distance of two points of the same dimension. -/
def l1 (a b : List ℚ) : ℚ := (List.zipWith (fun u v => |u - v|) a b).sum

/-- `100` times the machine epsilon. -/
def minSep : ℚ := 100 / 2 ^ 52

end Verif.Spec
