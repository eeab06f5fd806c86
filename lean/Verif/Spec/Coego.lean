import Verif.Spec.Best

/-!
# Specification of cooperative optimization
-/

set_option autoImplicit false

namespace Verif.Spec

open Verif

/-- Value of an optimization result: NaN counts as `+inf`. -/
noncomputable def cost (v : Flt) : EReal := if v = .nan then ⊤ else toE v

/-- `res` is the first result with the lowest cost, or the default result if no result is below `+inf`. -/
def IsSelected {α : Type} (items : List (Flt × α)) (dflt : α) (res : Flt × α) : Prop :=
  ((∀ p ∈ items, cost p.1 = ⊤) ∧ res = (.pinf, dflt)) ∨
  ∃ k, items[k]? = some res ∧ cost res.1 < ⊤ ∧ IsFirstMin (items.map fun p => cost p.1) k

/-- The groups form a partition of `0, ..., n - 1`. -/
def IsPartition (n : ℕ) (groups : List (List ℕ)) : Prop := groups.flatten.Perm (List.range n)

/-- Sizes differ by at most one. -/
def Balanced (groups : List (List ℕ)) : Prop :=
  ∀ g ∈ groups, ∀ h ∈ groups, g.length ≤ h.length + 1

/-- Components of `x` at the indices `is`, in the order of `is`. -/
def pickAt {α : Type} (x : List α) (is : List ℕ) : List (Option α) := is.map fun i => x[i]?

/-- `y` is a point whose components are those of `x`, except possibly at the indices `is`. -/
def SameOutside {α : Type} (is : List ℕ) (x y : List α) : Prop :=
  y.length = x.length ∧ ∀ i, i ∉ is → y[i]? = x[i]?

/-- A row of activity: distinct valid indices followed by markers. -/
def IsActivity (n : ℕ) (active valid : List ℕ) : Prop :=
  ∃ marks, active = valid ++ marks ∧ valid.Nodup ∧ (∀ i ∈ valid, i < n) ∧ ∀ i ∈ marks, n ≤ i

end Verif.Spec
