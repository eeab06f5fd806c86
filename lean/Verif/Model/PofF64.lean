import Verif.Model.EiF64

/-!
# Probability of feasibility in double precision

Model of `pof`, `pofs` and `logpofs` (`/repo/crates/ego/src/utils/cstr_pof.rs:9-71`) and of
`eval_infill_obj_with_cstrs` (`/repo/crates/ego/src/solver/solver_computations.rs:398-422`) with the operations of `f64`.
The library functions are parameters. Overflow is not modelled. A constraint is given by its tolerance, its prediction and
its variance at the point.
-/

set_option autoImplicit false

namespace Verif.PofF64

open Verif.F64 Verif.EiF64

/-- What is known of a constraint at a point. -/
structure Cstr where
  tol : ℝ
  pred : ℝ
  var : ℝ

/-- `pof` (`cstr_pof.rs:9-25`), the prediction having succeeded. -/
noncomputable def pof (f : Fns) (c : Cstr) : ℝ :=
  if c.var < Criteria.eps then 0
  else normCdf f (div (sub c.tol c.pred) (f.sqrt c.var))

/-- `pofs` (`cstr_pof.rs:51-60`): the fold starts from 1. -/
noncomputable def pofs (f : Fns) (cs : List Cstr) : ℝ := cs.foldl (fun acc c => mul acc (pof f c)) 1

/-- `logpofs` (`cstr_pof.rs:62-71`); `ln`: the logarithm of the library. -/
noncomputable def logpofs (f : Fns) (ln : ℝ → ℝ) (cs : List Cstr) : ℝ :=
  cs.foldl (fun acc c => add acc (ln (max (pof f c) Criteria.eps))) 0

/-- `eval_infill_obj_with_cstrs` (`solver_computations.rs:398-422`) with another criterion than LogEI, of value `v`. -/
noncomputable def objective (f : Fns) (cs : List Cstr) (v scale : ℝ) (feasibility : Bool) : ℝ :=
  mul (if feasibility then div (-v) scale else -1) (pofs f cs)

end Verif.PofF64
