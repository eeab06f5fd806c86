import Mathlib.Data.Real.Basic
import Mathlib.Data.List.FinRange
import Mathlib.Logic.Function.Basic
import Verif.Model.Run

/-!
# Regression (mean) models

Model over `ℝ` of `/repo/crates/gp/src/mean_models.rs`; the value at one point (one row) is a list, a Jacobian a
function of the row number and of the component, together with its number of rows.
-/

set_option autoImplicit false

namespace Verif.Means

variable {n : ℕ}

/-- A Jacobian matrix with `n` columns. -/
structure Jac (n : ℕ) where
  nrows : ℕ
  at_ : ℕ → Fin n → ℝ

/-- `ConstantMean::value` (`mean_models.rs:42-44`), one row. -/
def constValue (_x : Fin n → ℝ) : List ℝ := [1]

/-- `ConstantMean::jacobian` (`mean_models.rs:50-52`). -/
def constJac (_x : Fin n → ℝ) : Jac n := ⟨1, fun _ _ => 0⟩

/-- `LinearMean::value` (`mean_models.rs:68-71`), one row. -/
def linValue (x : Fin n → ℝ) : List ℝ := [1] ++ List.ofFn x

/-- `Array2::eye(p)` entry. -/
def eye (i j : ℕ) : ℝ := if i = j then 1 else 0

/-- `LinearMean::jacobian` (`mean_models.rs:76-81`): zeros, then the identity assigned to the rows from 1. -/
def linJac (_x : Fin n → ℝ) : Jac n :=
  ⟨n + 1, fun r c => if 1 ≤ r then eye (r - 1) c else 0⟩

/-- Components `k..` of a point multiplied by component `k` (`mean_models.rs:100`). -/
def quadPart (x : Fin n → ℝ) (k : Fin n) : List ℝ :=
  ((List.finRange n).drop k).map fun c => x c * x k

/-- `QuadraticMean::value` (`mean_models.rs:97-104`), one row: the loop concatenates the parts. -/
def quadValue (x : Fin n → ℝ) : List ℝ :=
  (List.finRange n).foldl (fun res k => res ++ quadPart x k) ([1] ++ List.ofFn x)

/-- State of the loop of `QuadraticMean::jacobian`: matrix, offset `o`, block size `p`. -/
structure QState (n : ℕ) where
  jac : ℕ → Fin n → ℝ
  o : ℕ
  p : ℕ

/-- `part_i` (`mean_models.rs:117-119`). -/
def partI (x : Fin n → ℝ) (i : Fin n) (a b : ℕ) : ℝ :=
  (if b = 0 then (if h : i.val + a < n then x ⟨i.val + a, h⟩ else 0) else 0) + eye a b * x i

/-- One iteration of the loop (`mean_models.rs:116-125`). The column 0 of the `(p, p)` part is assigned the
`n - i` components from `i`, then the part is assigned to rows `o..o + n - i` and columns `i..n`: shapes must
agree, and the rows must exist. -/
def qstep (x : Fin n → ℝ) (s : QState n) (i : Fin n) : Except Panic (QState n) :=
  if s.p ≠ n - i then .error .shape
  else if 1 + n + n * (n + 1) / 2 < s.o + n - i then .error .outOfBounds
  else .ok
    { jac := fun r c => if s.o ≤ r ∧ r < s.o + n - i ∧ i ≤ c then partI x i (r - s.o) (c - i) else s.jac r c
      o := s.o + s.p
      p := s.p - 1 }

/-- `QuadraticMean::jacobian` (`mean_models.rs:110-127`). -/
def quadJac (x : Fin n → ℝ) : Except Panic (Jac n) := do
  let s ← (List.finRange n).foldlM (qstep x)
    ⟨fun r c => if 1 ≤ r ∧ r < n + 1 then eye (r - 1) c else 0, 1 + n, n⟩
  pure ⟨1 + n + n * (n + 1) / 2, s.jac⟩

/-- The three mean models. -/
inductive Mean where
  | constant
  | linear
  | quadratic
deriving DecidableEq, Repr

/-- `RegressionModel::value`, one row. -/
def Mean.value : Mean → (Fin n → ℝ) → List ℝ
  | .constant => constValue
  | .linear => linValue
  | .quadratic => quadValue

/-- `RegressionModel::jacobian`. -/
def Mean.jacobian : Mean → (Fin n → ℝ) → Except Panic (Jac n)
  | .constant, x => .ok (constJac x)
  | .linear, x => .ok (linJac x)
  | .quadratic, x => quadJac x

end Verif.Means
