import Verif.Model.Propose
import Verif.Model.Result

/-!
# Ask and tell

Model of `EgorSolver::suggest` (`/repo/crates/ego/src/solver/solver_impl.rs:52-101`) and of `EgorServiceApi::suggest`
(`/repo/crates/ego/src/solver/egor_service.rs:121-130`) with the surrogates they train, and of the proposals of an iteration of a
run (`solver_impl.rs:426-453`). `Result.suggest` is the same function with the proposals as input.

Simplifications: those of `Propose`; CoEGO is left out (a run uses groups of variables, `suggest` does not); the state of the
random generator is a parameter, `Xoshiro256Plus::seed_from_u64(seed)` in both cases (`solver_impl.rs:61-65`,
`egor_solver.rs:186-190`): a run draws nothing from it before its first iteration if the initial design is given.
-/

set_option autoImplicit false

namespace Verif.Ask

open Verif Run FindResult MixInt Propose

variable {M C T Z S : Type}

/-- Nothing is kept yet: `vec![None; 1 + n_cstr]` (`solver_impl.rs:66-67`, `egor_solver.rs:247-248`). -/
def fresh (n : ℕ) (g : S) : Kept C T S := ⟨List.replicate n none, List.replicate n none, g⟩

/-- `EgorSolver::suggest` (`solver_impl.rs:56-101`). The function constraints are ignored. -/
def solverSuggest (cfg : Cfg) (env : Env M C T Z S) (portfolio : Bool) (labels : List Pt → List (Option ℕ))
    (order : List (Option ℕ) → List ℕ) (g : S) (x : List (List ℚ)) (y : Mat Flt) : Except Panic (List (List ℚ)) := do
  let c : Mat Flt := ⟨0, List.replicate x.length []⟩
  let b ← findBest y c cfg.tol
  let yb ← row y b
  let cb ← row c b
  let fe ← isFeasible yb cb cfg.tol
  let r ← Propose.selectNextPoints cfg ⟨fun _ => [], []⟩ env portfolio labels order
    ⟨x, y.rows, c.rows, b, fe, true, 0, false⟩ (fresh env.nOut g)
  .ok (r.1.pts.map Pt.x)

/-- `EgorServiceApi::suggest` (`egor_service.rs:121-130`). -/
def suggest (cfg : Cfg) (env : Env M C T Z S) (portfolio : Bool) (labels : List Pt → List (Option ℕ))
    (order : List (Option ℕ) → List ℕ) (g : S) (x : List (List ℚ)) (y : Mat Flt) : Except Panic (List (List ℚ)) := do
  let xs ← x.mapM (toContinuousSpace cfg.xtypes)
  let r ← solverSuggest cfg env portfolio labels order g xs y
  r.mapM (toDiscreteSpace cfg.xtypes)

/-- Proposals of an iteration of a run in state `s` (`solver_impl.rs:427-451`), first attempt. `k` is what the previous
iterations left. -/
def proposals (cfg : Cfg) (P : Prob) (env : Env M C T Z S) (nb : Steps.NbClusters) (portfolio : Bool)
    (labels : List Pt → List (Option ℕ)) (order : List (Option ℕ) → List ℕ) (s : St) (k : Kept C T S) :
    Except Panic (Res Z × Kept C T S) := do
  let re ← Steps.haveToRecluster nb s.added s.prevAdded
  Propose.selectNextPoints cfg P env portfolio labels order
    ⟨s.data.x, s.data.y.rows, s.data.c.rows, s.best, s.feasible, s.iter == 0, s.iter, re⟩ k

end Verif.Ask
