import Mathlib.Data.Rat.Defs
import Mathlib.Algebra.Order.Ring.Rat

/-!
# Floating point values with IEEE comparison semantics

Used for the code whose control flow depends on NaN or infinities
(`/repo/crates/ego/src/utils/find_result.rs`). Finite values are exact rationals: rounding is not
modelled. Only the operations used by that code are defined.
-/

set_option autoImplicit false

namespace Verif

/-- Rust panics and error returns, as explicit values. -/
inductive Panic
  /-- `ndarray` shape mismatch (`concatenate!`, broadcasting, `assign`) -/
  | shape
  /-- index or slice out of bounds -/
  | outOfBounds
  /-- `unwrap()` on an empty reduction (`argmin`, `reduce`, `first`, ...) -/
  | emptyReduction
  /-- `unwrap()` on `partial_cmp` or `argmin` in presence of NaN -/
  | undefinedOrder
  /-- any other `panic!`, failed `assert!`, `expect` -/
  | other
deriving DecidableEq, Repr

/-- An `f64`: NaN, infinities and finite values. Simplification: finite values are exact. -/
inductive Flt
  | nan
  | ninf
  | fin (q : ℚ)
  | pinf
deriving DecidableEq, Repr

namespace Flt

instance : Inhabited Flt := ⟨nan⟩

/-- `PartialOrd::partial_cmp` of `f64`. -/
def cmp : Flt → Flt → Option Ordering
  | nan, _ => none
  | _, nan => none
  | ninf, ninf => some .eq
  | ninf, _ => some .lt
  | pinf, pinf => some .eq
  | pinf, _ => some .gt
  | fin _, ninf => some .gt
  | fin _, pinf => some .lt
  | fin a, fin b => some (if a < b then .lt else if b < a then .gt else .eq)

/-- `a < b` on `f64` (false when one of them is NaN). -/
def lt (a b : Flt) : Bool := cmp a b == some .lt

/-- `a > b` on `f64`. -/
def gt (a b : Flt) : Bool := cmp a b == some .gt

/-- `a == b` on `f64`. -/
def feq (a b : Flt) : Bool := cmp a b == some .eq

/-- `F::zero()` -/
def zero : Flt := fin 0

/-- `a + b` on `f64`, without rounding. -/
def add : Flt → Flt → Flt
  | nan, _ => nan
  | _, nan => nan
  | ninf, pinf => nan
  | pinf, ninf => nan
  | ninf, _ => ninf
  | _, ninf => ninf
  | pinf, _ => pinf
  | _, pinf => pinf
  | fin a, fin b => fin (a + b)

/-- `-a` on `f64`. -/
def neg : Flt → Flt
  | nan => nan
  | ninf => pinf
  | pinf => ninf
  | fin a => fin (-a)

/-- `a - b` on `f64`, without rounding. -/
def sub (a b : Flt) : Flt := add a (neg b)

/-- `a.abs()` on `f64`. -/
def abs : Flt → Flt
  | nan => nan
  | ninf => pinf
  | pinf => pinf
  | fin a => fin |a|

end Flt

/-- A dense matrix as a list of rows, with an explicit number of columns (`ndarray::Array2`). -/
structure Mat (α : Type) where
  ncols : ℕ
  rows : List (List α)
deriving DecidableEq, Repr

namespace Mat
variable {α : Type}

/-- All rows have the declared number of columns (always true of an `Array2`). -/
def WF (m : Mat α) : Prop := ∀ r ∈ m.rows, r.length = m.ncols

/-- `concatenate![Axis(1), a, b]`: panics when the numbers of rows differ. -/
def hcat (a b : Mat α) : Except Panic (Mat α) :=
  if a.rows.length = b.rows.length then
    .ok ⟨a.ncols + b.ncols, List.zipWith (· ++ ·) a.rows b.rows⟩
  else .error .shape

end Mat

end Verif
