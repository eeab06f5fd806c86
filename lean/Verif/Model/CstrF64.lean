import Verif.Model.F64

/-!
# Feasibility and ranking of evaluations with the operations of `f64`

`cstr_sum`, `cstr_min`, the search of `find_best_result_index_from` and `is_feasible` (`/repo/crates/ego/src/utils/find_result.rs`).
An evaluation is an objective and its constraints (of the objective function, then function constraints), as many as
tolerances. Overflow and NaN are not modelled here (see `FindResult` for NaN and infinities).
-/

set_option autoImplicit false

namespace Verif.CstrF64

open Verif.F64

/-- An evaluation `[obj, cstr1, ...]`. -/
structure Eval where
  obj : ℝ
  cstr : List ℝ

open Classical in
/-- Loop of `cstr_sum` (`find_result.rs:11-15`). -/
noncomputable def sumFrom (acc : ℝ) : List ℝ → List ℝ → ℝ
  | c :: cs, t :: ts => sumFrom (if t < c then add acc |sub c t| else acc) cs ts
  | _, _ => acc

/-- `cstr_sum` (`find_result.rs:10-16`). -/
noncomputable def cstrSum (c tol : List ℝ) : ℝ := sumFrom 0 c tol

open Classical in
/-- `cstr_min` (`find_result.rs:20-41`). -/
noncomputable def cstrMin (a b : Eval) (tol : List ℝ) : Ordering :=
  if a.cstr = [] then compare a.obj b.obj
  else if 0 < cstrSum a.cstr tol ∧ 0 < cstrSum b.cstr tol then compare (cstrSum a.cstr tol) (cstrSum b.cstr tol)
  else if cstrSum a.cstr tol = 0 ∧ cstrSum b.cstr tol = 0 then compare a.obj b.obj
  else if cstrSum a.cstr tol = 0 then .lt
  else .gt

/-- `find_best_result_index_from` (`find_result.rs:48-70`): the evaluation found, rather than its index. `min_by` keeps its first
argument unless it is greater. -/
noncomputable def best (cur : Eval) (rows : List Eval) (tol : List ℝ) : Eval :=
  rows.foldl (fun a b => if cstrMin a b tol = .gt then b else a) cur

/-- `is_feasible` (`find_result.rs:146-158`). -/
def isFeasible (e : Eval) (tol : List ℝ) : Prop := e.cstr = [] ∨ cstrSum e.cstr tol = 0

end Verif.CstrF64
