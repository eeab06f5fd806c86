import Verif.Model.Flt
import Mathlib.Data.EReal.Operations
import Mathlib.Data.Prod.Lex
import Mathlib.Algebra.BigOperators.Group.List.Basic

/-!
# Specification of the best result

An evaluation is a row `objective :: constraints`. There is one finite tolerance per constraint.
-/

set_option autoImplicit false

namespace Verif.Spec

open Verif

/-- The extended real value of a float (NaN has no meaningful value: rows with NaN are excluded by the
hypotheses of theorems using this function). -/
noncomputable def toE : Flt → EReal
  | .nan => 0
  | .ninf => ⊥
  | .pinf => ⊤
  | .fin q => ((q : ℝ) : EReal)

/-- Every constraint is below its tolerance (as many tolerances as constraints). -/
def Feasible (tol : List ℚ) (cs : List Flt) : Prop :=
  List.Forall₂ (fun c (t : ℚ) => toE c ≤ ((t : ℝ) : EReal)) cs tol

/-- Sum of the violations. -/
noncomputable def violation (tol : List ℚ) (cs : List Flt) : EReal :=
  (List.zipWith (fun c (t : ℚ) => max 0 (toE c - ((t : ℝ) : EReal))) cs tol).sum

open Classical in
/-- Rank of an evaluation: feasible ones first, ordered by objective; then infeasible ones, ordered by
violation. -/
noncomputable def rank (tol : List ℚ) (row : List Flt) : ℕ ×ₗ EReal :=
  if Feasible tol row.tail then toLex (0, toE (row.headD .nan))
  else toLex (1, violation tol row.tail)

/-- `i` is the index of the first minimum of `l`. -/
def IsFirstMin {α : Type*} [LinearOrder α] (l : List α) (i : ℕ) : Prop :=
  ∃ h : i < l.length, (∀ x ∈ l, l[i] ≤ x) ∧ ∀ (j : ℕ) (hj : j < i), l[i] < l[j]

/-- A row of `n` constraints whose values can be compared: an objective which is neither NaN nor `+inf`
and constraints which are not NaN. -/
def Valid (n : ℕ) (row : List Flt) : Prop :=
  ∃ o cs, row = o :: cs ∧ cs.length = n ∧ o ≠ .nan ∧ o ≠ .pinf ∧ ∀ c ∈ cs, c ≠ .nan

end Verif.Spec
