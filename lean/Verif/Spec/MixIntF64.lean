import Verif.Spec.F64
import Verif.Spec.MixInt

/-!
# Specification of mixed-integer spaces with `f64` limits
-/

set_option autoImplicit false

namespace Verif.Spec

open Verif.MixInt (XType)

/-- The numbers of the declared type are numbers of the Rust types `f64` and `i32`. -/
def IsF64Type : XType ℝ → Prop
  | .float l u => IsF64 l ∧ IsF64 u
  | .int l u => -2 ^ 31 ≤ l ∧ u < 2 ^ 31
  | .ord vs => ∀ v ∈ vs, IsF64 v
  | .enum _ => True

/-- `c` is a value of the list nearest to `x`, for distances known with a relative error of `ε`. -/
def IsClosest (ε : ℝ) (vs : List ℝ) (x c : ℝ) : Prop := c ∈ vs ∧ ∀ w ∈ vs, (1 - ε) * |x - c| ≤ (1 + ε) * |x - w|

/-- `NearlyCast ε ts x x'`: as `Cast`, values of lists being the nearest ones up to `ε`. -/
inductive NearlyCast (ε : ℝ) : List (XType ℝ) → List ℝ → List ℝ → Prop
  | nil : NearlyCast ε [] [] []
  | float {l u x : ℝ} {ts xs us} : NearlyCast ε ts xs us → NearlyCast ε (.float l u :: ts) (x :: xs) (x :: us)
  | int {l u : ℤ} {x : ℝ} {z : ℤ} {ts xs us} : (∀ w : ℤ, |x - z| ≤ |x - w|) → NearlyCast ε ts xs us →
      NearlyCast ε (.int l u :: ts) (x :: xs) ((z : ℝ) :: us)
  | ord {vs : List ℝ} {x c : ℝ} {ts xs us} : IsClosest ε vs x c → NearlyCast ε ts xs us →
      NearlyCast ε (.ord vs :: ts) (x :: xs) (c :: us)
  | enum {n k : ℕ} {a b : List ℝ} {ts xs us} : a.length = n → IsMask n k b →
      (∀ (i : ℕ) (hi : i < a.length) (hk : k < a.length), a[i] ≤ a[k] ∧ (i < k → a[i] < a[k])) →
      NearlyCast ε ts xs us → NearlyCast ε (.enum n :: ts) (a ++ xs) (b ++ us)

/-- The declared type with the upper bound of floats increased by a few units of rounding. -/
noncomputable def slack : XType ℝ → XType ℝ
  | .float l u => .float l (u + 2 ^ (-51 : ℤ) * max |l| |u|)
  | t => t

end Verif.Spec
