import Verif.Model.F64

/-!
# The check of duplicates with the operations of `f64`

`is_update_ok` and `update_data` (`/repo/crates/ego/src/utils/misc.rs:44-83`), for inputs. `l1_dist` of `ndarray_stats` adds
absolute differences one after the other. Overflow is not modelled; rows have the same length.
-/

set_option autoImplicit false

namespace Verif.DupF64

open Verif.F64

/-- Loop of `l1_dist`. -/
noncomputable def l1From (acc : ℝ) : List ℝ → List ℝ → ℝ
  | a :: x, b :: y => l1From (add acc |sub a b|) x y
  | _, _ => acc

/-- `ndarray_stats` `l1_dist`. -/
noncomputable def l1 (x y : List ℝ) : ℝ := l1From 0 x y

/-- `100. * f64::EPSILON`, which is exact. -/
noncomputable def threshold : ℝ := 100 * 2 ^ (-52 : ℤ)

/-- `is_update_ok` (`misc.rs:44-54`). -/
def isUpdateOk (data : List (List ℝ)) (x : List ℝ) : Prop := ∀ row ∈ data, ¬ l1 row x < threshold

open Classical in
/-- `update_data` (`misc.rs:59-83`): the inputs stored after a batch. -/
noncomputable def updateData (data : List (List ℝ)) : List (List ℝ) → List (List ℝ)
  | [] => data
  | x :: xs => if isUpdateOk data x then updateData (data ++ [x]) xs else updateData data xs

end Verif.DupF64
