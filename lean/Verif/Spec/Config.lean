import Verif.Model.Config

/-!
# Specification of the Python domain

Meaning of a specification of a variable, as documented (`python/src/egor.rs:27-37`): the set of the
values of the variable. These definitions use the data types of the model, not its functions.
-/

set_option autoImplicit false

namespace Verif.Spec

open Verif.MixInt (XType)
open Verif.Config (XSpec XKind)

variable {K : Type} [Field K] [LinearOrder K] [IsStrictOrderedRing K]

/-- Values of a variable of a declared type; categories are numbered from 0. -/
def IsValue : XType K → K → Prop
  | .float l u, v => l ≤ v ∧ v ≤ u
  | .int l u, v => ∃ z : ℤ, v = z ∧ l ≤ z ∧ z ≤ u
  | .ord vs, v => v ∈ vs
  | .enum n, v => ∃ k : ℕ, v = k ∧ k < n

/-- Documented values of a Python specification. -/
def SpecValue (s : XSpec K) (v : K) : Prop :=
  match s.kind with
  | .float => ∃ l u, s.limits = [l, u] ∧ l ≤ v ∧ v ≤ u
  | .int => ∃ l u, s.limits = [l, u] ∧ ∃ z : ℤ, v = z ∧ l ≤ v ∧ v ≤ u
  | .ord => v ∈ s.limits
  | .enum => ∃ k : ℕ, v = k ∧ ((s.tags ≠ 0 ∧ k < s.tags) ∨ (s.tags = 0 ∧ ∃ n, s.limits = [n] ∧ v < n))

/-- A specification as documented: two limits for a float, two integers (of 32 bits) for an integer
variable, tags or a number of categories. -/
def SpecOk (s : XSpec K) : Prop :=
  match s.kind with
  | .float => ∃ l u, s.limits = [l, u]
  | .int => ∃ l u : ℤ, s.limits = [(l : K), (u : K)] ∧ -2147483648 ≤ l ∧ l ≤ 2147483647 ∧
      -2147483648 ≤ u ∧ u ≤ 2147483647
  | .ord => True
  | .enum => s.tags ≠ 0 ∨ ∃ n : ℕ, s.limits = [(n : K)]

end Verif.Spec
