import Verif.Model.Criteria
import Verif.Model.Gp

/-!
# Objective of the internal optimization with its scaling factors

Model of `compute_scaling` (`/repo/crates/ego/src/solver/solver_computations.rs:132-193`) and of the objective given to
the internal optimizer (`/repo/crates/ego/src/solver/solver_infill_optim.rs:73-146`), all variables being active.
-/

set_option autoImplicit false

namespace Verif.Units

open Verif Criteria

variable {n d h : ℕ}

/-- A trained GP as the criteria see it (`moe/src/surrogates.rs:168-211`). -/
noncomputable def gpSurr (la : Gp.LinAlg) (g : Gp.Model n d h) : Surrogate d where
  predict x := some (g.predict x)
  predictGrad x := g.predictGradient x
  valvar x := (g.predictVar la x).map fun v => (g.predict x, v)
  valvarGrad x := (g.predictGradient x).bind fun p => (g.predictVarGradient la x).map fun v => (p, v)

/-- `scale_ic` (`solver_computations.rs:146-157`, `wb2.rs:15-17, 51-63`): the name of the criterion is `WB2S` unless its
factor is 1. `xs`: the scaling points. -/
noncomputable def scaleIc (c : Crit) (xs : List (Pt d)) (s : Surrogate d) (fmin sw : ℝ) : Except Panic ℝ :=
  match c with
  | .wb2 none => wb2sScale xs s fmin (some sw)
  | .wb2 (some k) => .ok k
  | _ => .ok 1

/-- The value of a computation, 0 if it panics. -/
def orZero : Except Panic ℝ → ℝ
  | .ok v => v
  | .error _ => 0

/-- `scale_infill_obj` (`solver_computations.rs:159-167, 297-351`). -/
noncomputable def objScale (c : Crit) (cstrInfill : Bool) (xs : List (Pt d)) (s : Surrogate d) (cs : List (Surrogate d))
    (tols : List ℝ) (fmin sic sw : ℝ) : Except Panic ℝ :=
  (xs.mapM fun x => evalInfillObj c x s fmin 1 sic sw) >>= fun _ =>
    .ok (infillObjScale c cstrInfill xs (fun x => orZero (evalInfillObj c x s fmin 1 sic sw)) cs tols)

/-- The function minimized by the internal optimizer (`solver_impl.rs:694-716`, `solver_infill_optim.rs:73-146`). -/
noncomputable def objective (c : Crit) (cstrInfill : Bool) (xs : List (Pt d)) (s : Surrogate d)
    (cs : List (Surrogate d)) (tols : List ℝ) (fmin : ℝ) (feasibility : Bool) (sw : ℝ) :
    Except Panic (Pt d → Except Panic ℝ) :=
  scaleIc c xs s fmin sw >>= fun sic =>
    objScale c cstrInfill xs s cs tols fmin sic sw >>= fun scale =>
      .ok fun x =>
        if cstrInfill then evalInfillObjWithCstrs c x s cs tols fmin scale sic feasibility sw
        else evalInfillObj c x s fmin scale sic sw

end Verif.Units
