import Verif.Model.Tuning
import Verif.Spec.Coego

/-!
# Specification of the tuning of hyperparameters
-/

set_option autoImplicit false

namespace Verif.Spec

open Verif

/-- Every value is between its bounds. -/
def WithinBounds (x : List ℝ) (bounds : List (ℝ × ℝ)) : Prop :=
  List.Forall₂ (fun v b => b.1 ≤ v ∧ v ≤ b.2) x bounds

/-- The value declared for component `i` when `l` has one value for all or one value per component. -/
def perComponent {α : Type} (l : List α) (i : ℕ) : Option α := if l.length = 1 then l[0]? else l[i]?

/-- What is expected from a minimizer that does not report a failure. -/
structure IsMinimizer (opt : Tuning.Optimizer) : Prop where
  /-- The point is between the bounds. -/
  within : ∀ f x0 bs n v, (opt f x0 bs n).1 = some v → x0.length = bs.length → (∀ b ∈ bs, b.1 ≤ b.2) →
    WithinBounds (opt f x0 bs n).2 bs
  /-- The value is the one of the function at the point. -/
  value : ∀ f x0 bs n v, (opt f x0 bs n).1 = some v → f ((opt f x0 bs n).2.map some) = .ok v
  /-- The value is not worse than at the start. -/
  descent : ∀ f x0 bs n v v0, (opt f x0 bs n).1 = some v → WithinBounds x0 bs → f (x0.map some) = .ok v0 →
    cost v ≤ cost v0

/-- The minimizer reports no failure for a function that does not panic. -/
def NeverFails (opt : Tuning.Optimizer) : Prop :=
  ∀ f, (∀ x, ∃ v, f x = .ok v) → ∀ x0 bs n, (opt f x0 bs n).1 ≠ none

/-- The bounds are the same for all components. -/
def SameBounds (bounds : List (ℝ × ℝ)) : Prop := ∀ b ∈ bounds, ∀ b' ∈ bounds, b = b'

/-- The active components are in increasing order, or they are distinct and their order does not matter since the
bounds are the same for all. -/
def OrderOk (bounds : List (ℝ × ℝ)) (active : List ℕ) : Prop :=
  active.Pairwise (· < ·) ∨ (active.Nodup ∧ SameBounds bounds)

end Verif.Spec
