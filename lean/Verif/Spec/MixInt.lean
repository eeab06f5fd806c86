import Verif.Model.MixInt

/-!
# Specification of mixed-integer spaces

These definitions only use the data type `XType`, not the functions of the model.
-/

set_option autoImplicit false

namespace Verif.Spec

open Verif.MixInt (XType)

variable {K : Type} [Field K] [LinearOrder K] [IsStrictOrderedRing K]

/-- `b` is the one-hot mask of length `n` with its one at `k`. -/
def IsMask (n k : ℕ) (b : List K) : Prop :=
  b.length = n ∧ k < n ∧ ∀ (i : ℕ) (h : i < b.length), b[i] = if i = k then 1 else 0

/-- The declared type makes sense. -/
def TypeOk : XType K → Prop
  | .float l u => l ≤ u
  | .int l u => l ≤ u
  | .ord vs => vs ≠ []
  | .enum n => 1 ≤ n

/-- The variable can take at least two values (for a categorical variable: at least one). -/
def Varies : XType K → Prop
  | .float l u => l < u
  | .int l u => l < u
  | .ord vs => ∃ a ∈ vs, ∃ b ∈ vs, a ≠ b
  | .enum n => 1 ≤ n

/-- `Relaxed ts x u`: `x` is an admissible point given with category indices and `u` is its
continuous relaxation: categories are replaced by one-hot masks, other variables are copied. -/
inductive Relaxed : List (XType K) → List K → List K → Prop
  | nil : Relaxed [] [] []
  | float {l u x : K} {ts xs us} : l ≤ x → x ≤ u → Relaxed ts xs us →
      Relaxed (.float l u :: ts) (x :: xs) (x :: us)
  | int {l u z : ℤ} {ts xs us} : l ≤ z → z ≤ u → Relaxed ts xs us →
      Relaxed (.int l u :: ts) ((z : K) :: xs) ((z : K) :: us)
  | ord {vs : List K} {x : K} {ts xs us} : x ∈ vs → Relaxed ts xs us →
      Relaxed (.ord vs :: ts) (x :: xs) (x :: us)
  | enum {n k : ℕ} {b : List K} {ts xs us} : IsMask n k b → Relaxed ts xs us →
      Relaxed (.enum n :: ts) ((k : K) :: xs) (b ++ us)

/-- `Cast ts x x'`: `x'` is a projection of the relaxed point `x` on admissible values: nearest integer,
nearest value of the list, mask of the (first) largest component. Floats are unchanged. -/
inductive Cast : List (XType K) → List K → List K → Prop
  | nil : Cast [] [] []
  | float {l u x : K} {ts xs us} : Cast ts xs us → Cast (.float l u :: ts) (x :: xs) (x :: us)
  | int {l u : ℤ} {x : K} {z : ℤ} {ts xs us} : (∀ w : ℤ, |x - z| ≤ |x - w|) → Cast ts xs us →
      Cast (.int l u :: ts) (x :: xs) ((z : K) :: us)
  | ord {vs : List K} {x c : K} {ts xs us} : c ∈ vs → (∀ w ∈ vs, |x - c| ≤ |x - w|) → Cast ts xs us →
      Cast (.ord vs :: ts) (x :: xs) (c :: us)
  | enum {n k : ℕ} {a b : List K} {ts xs us} : a.length = n → IsMask n k b →
      (∀ (i : ℕ) (hi : i < a.length) (hk : k < a.length), a[i] ≤ a[k] ∧ (i < k → a[i] < a[k])) →
      Cast ts xs us → Cast (.enum n :: ts) (a ++ xs) (b ++ us)

/-- Discrete components of a relaxed point are admissible. -/
inductive Admissible : List (XType K) → List K → Prop
  | nil : Admissible [] []
  | float {l u x : K} {ts xs} : Admissible ts xs → Admissible (.float l u :: ts) (x :: xs)
  | int {l u z : ℤ} {ts xs} : Admissible ts xs → Admissible (.int l u :: ts) ((z : K) :: xs)
  | ord {vs : List K} {x : K} {ts xs} : x ∈ vs → Admissible ts xs →
      Admissible (.ord vs :: ts) (x :: xs)
  | enum {n k : ℕ} {b : List K} {ts xs} : IsMask n k b → Admissible ts xs →
      Admissible (.enum n :: ts) (b ++ xs)

/-- Number of relaxed components. -/
def relaxedDim (ts : List (XType K)) : ℕ :=
  (ts.map fun t => match t with | .enum n => n | _ => 1).sum

/-- Componentwise inside limits (one limit per component). -/
def InLimits (lim : List (K × K)) (x : List K) : Prop :=
  List.Forall₂ (fun l v => l.1 ≤ v ∧ v ≤ l.2) lim x

end Verif.Spec
