import Mathlib.Analysis.Real.Sqrt
import Verif.Model.Flt

/-!
# Normalization and tables of differences

Model of `/repo/crates/gp/src/utils.rs` over `ℝ`. A matrix with `m` rows and `n` columns is
`Fin m → Fin n → ℝ`, or a function of the row number when the code fills it by index.
-/

set_option autoImplicit false

namespace Verif.GpUtils

variable {m n : ℕ}

/-- Division of floats: a division by zero does not give a number (NaN or infinity). -/
noncomputable def fdiv (a b : ℝ) : Option ℝ := if b = 0 then none else some (a / b)

/-- `mean_axis(Axis(0))`, one column. -/
noncomputable def colMean (x : Fin m → ℝ) : ℝ := (∑ i, x i) / m

/-- `std_axis(Axis(0), 1)`, one column, of `m` numbers: sum of squares divided by `m - 1`, then square root. -/
noncomputable def colStd (x : Fin m → ℝ) : Option ℝ :=
  (fdiv (∑ i, (x i - colMean x) ^ 2) (m - 1)).map Real.sqrt

/-- `NormalizedData` (`gp/src/utils.rs:10-16`); `none` stands for NaN or infinity. -/
structure Normalized (m n : ℕ) where
  data : Fin m → Fin n → Option ℝ
  mean : Fin n → ℝ
  std : Fin n → Option ℝ

/-- `normalize` (`gp/src/utils.rs:45-54`): the mean of no row is `None` and unwrapped. Zero deviations are replaced by
one; NaN is not zero. -/
noncomputable def normalize (x : Fin m → Fin n → ℝ) : Except Panic (Normalized m n) :=
  if m = 0 then .error .emptyReduction
  else
    let mean := fun j => colMean fun i => x i j
    let std := fun j => (colStd fun i => x i j).map fun v => if v = 0 then 1 else v
    .ok ⟨fun i j => (std j).bind fun s => fdiv (x i j - mean j) s, mean, std⟩

/-- What `_cross_diff` fills: row `r` of the index table and row `r` of the table of differences. -/
structure Cross (n : ℕ) where
  ind : ℕ → ℕ × ℕ
  d : ℕ → Fin n → ℝ

/-- Inner loop: `indices[[r, 0]] = k; indices[[r, 1]] = i` with `r = idx0 + i - k - 1` (`gp/src/utils.rs:93-97`), for a
table of `N` rows. -/
def writeIndices (N idx0 k : ℕ) : List ℕ → (ℕ → ℕ × ℕ) → Except Panic (ℕ → ℕ × ℕ)
  | [], ind => .ok ind
  | i :: is, ind =>
    let r := idx0 + i - k - 1
    if r < N then writeIndices N idx0 k is (Function.update ind r (k, i)) else .error .outOfBounds

/-- Outer loop of `_cross_diff` (`gp/src/utils.rs:87-101`). -/
def crossLoop (x : Fin m → Fin n → ℝ) (N : ℕ) : List ℕ → ℕ → Cross n → Except Panic (Cross n)
  | [], _, c => .ok c
  | k :: ks, idx0, c =>
    let offset := m - k - 1
    let idx := idx0 + offset
    match writeIndices N idx0 k ((List.range' (k + 1) (m - (k + 1)))) c.ind with
    | .error e => .error e
    | .ok ind =>
      if N < idx then .error .outOfBounds
      else crossLoop x N ks idx
        { ind := ind
          d := fun r j => if h : idx0 ≤ r ∧ r < idx ∧ k < m ∧ k + 1 + (r - idx0) < m then
              x ⟨k, h.2.2.1⟩ j - x ⟨k + 1 + (r - idx0), h.2.2.2⟩ j
            else c.d r j }

/-- `DiffMatrix::_cross_diff` (`gp/src/utils.rs:80-105`), with the number of rows; `n_obs - 1` underflows for no
observation. -/
def crossDiff (x : Fin m → Fin n → ℝ) : Except Panic (ℕ × Cross n) :=
  if m = 0 then .error .other
  else
    let N := m * (m - 1) / 2
    match crossLoop x N (List.range (m - 1)) 0 ⟨fun _ => (0, 0), fun _ _ => 0⟩ with
    | .error e => .error e
    | .ok c => .ok (N, { c with
        d := fun r j => |c.d r j| })

variable {q : ℕ}

/-- `pairwise_differences` (`gp/src/utils.rs:110-131`): number of rows and rows filled by the loops, the last write
winning. -/
def pairwise (x : Fin m → Fin n → ℝ) (y : Fin q → Fin n → ℝ) : Except Panic (ℕ × (ℕ → Fin n → ℝ)) := do
  let res ← (List.finRange m).foldlM (fun res i => (List.finRange q).foldlM (fun res j =>
    if i.val * q + j.val < m * q then
      (.ok (Function.update res (i.val * q + j.val) fun k => x i k - y j k) : Except Panic (ℕ → Fin n → ℝ))
    else .error .outOfBounds) res) (fun _ _ => 0)
  pure (m * q, res)

end Verif.GpUtils
