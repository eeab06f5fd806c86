import Verif.Spec.Run

/-!
# Specification of the points added by an iteration
-/

set_option autoImplicit false

namespace Verif.Spec

/-- Points kept among proposals, taken in order: those that are not too close to a stored point or to a point kept
before. -/
inductive Kept : List (List ℚ) → List (List ℚ) → List (List ℚ) → Prop
  | nil {st} : Kept st [] []
  | keep {st p ps qs} : (∀ a ∈ st, minSep ≤ l1 a p) → Kept (st ++ [p]) ps qs → Kept st (p :: ps) (p :: qs)
  | drop {st p ps qs} : (∃ a ∈ st, l1 a p < minSep) → Kept st ps qs → Kept st (p :: ps) qs

end Verif.Spec
