import Verif.Model.Batch

set_option autoImplicit false

/-!
# Specification of predictions at several points
-/

namespace Verif.Spec
open Verif.Batch

variable {d : ℕ}

/-- A prediction works row by row: it succeeds when it does at each of the points alone, and the row of a point is then
what is predicted at this point alone. -/
def Local {α : Type} (f : {t : ℕ} → Points t d → Except Panic (Fin t → α)) : Prop :=
  ∀ (t : ℕ) (xs : Points t d) (v : Fin t → α), f xs = .ok v ↔ ∀ i, f (t := 1) (fun _ => xs i) = .ok fun _ => v i

/-- `f` gives at each row a value which `R` relates to the point. -/
def Rows {α : Type} (f : {t : ℕ} → Points t d → Except Panic (Fin t → α)) (R : (Fin d → ℝ) → α → Prop) : Prop :=
  ∀ (t : ℕ) (xs : Points t d) (v : Fin t → α), f xs = .ok v ↔ ∀ i, R (xs i) (v i)

/-- `f` gives the results of `g` and of `h`. -/
def Together {α : Type} (f : {t : ℕ} → Points t d → Except Panic ((Fin t → α) × (Fin t → α)))
    (g h : {t : ℕ} → Points t d → Except Panic (Fin t → α)) : Prop :=
  ∀ (t : ℕ) (xs : Points t d) (v w : Fin t → α), f xs = .ok (v, w) ↔ g xs = .ok v ∧ h xs = .ok w

/-- What a user expects of a surrogate queried at several points. -/
structure Consistent (s : Surrogate d) : Prop where
  predict : Local s.predict
  predictVar : Local s.predictVar
  predictGradients : Local s.predictGradients
  predictVarGradients : Local s.predictVarGradients
  predictValvar : Together s.predictValvar s.predict s.predictVar
  predictValvarGradients : Together s.predictValvarGradients s.predictGradients s.predictVarGradients

end Verif.Spec
