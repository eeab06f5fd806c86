import Verif.Spec.Best

/-!
# Specification of the end of a run
-/

set_option autoImplicit false

namespace Verif.Spec

/-- The value is at most the target (never if one of them is NaN). -/
def AtMost (v target : Flt) : Prop := v ≠ .nan ∧ target ≠ .nan ∧ toE v ≤ toE target

/-- The value is less than the previous one minus a margin (never if one of them is NaN). -/
def Improves (v prev : Flt) (margin : ℚ) : Prop :=
  v ≠ .nan ∧ prev ≠ .nan ∧ toE v < toE prev - ((margin : ℝ) : EReal)

end Verif.Spec
