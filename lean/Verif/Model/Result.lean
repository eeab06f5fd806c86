import Verif.Model.Run

/-!
# Result of a run and suggestions

Model of the result of `Egor::run` (`/repo/crates/ego/src/egor.rs:268-297`) and of the ask-and-tell interface
(`/repo/crates/ego/src/solver/egor_service.rs:121-130`, `/repo/crates/ego/src/solver/solver_impl.rs:56-101`).
-/

set_option autoImplicit false

namespace Verif.Result

open Verif FindResult MixInt Run

/-- `OptimResult` (`ego/src/types.rs:11-22`), without the state. -/
structure Optim where
  xOpt : List ℚ
  yOpt : List Flt
  xDoe : List (List ℚ)
  yDoe : Mat Flt

/-- Result of `Egor::run` for a final state (`crates/ego/src/egor.rs:268-297`); `unwrap` of the best values panics if there is
none. -/
def optimResult (cfg : Cfg) (s : St) : Except Panic Optim :=
  match s.bestParam, s.bestCost with
  | some p, some c =>
    if isDiscrete cfg.xtypes then do
      let xs ← s.data.x.mapM (toDiscreteSpace cfg.xtypes)
      let x ← toDiscreteSpace cfg.xtypes p
      .ok ⟨x, c, xs, s.data.y⟩
    else .ok ⟨p, c, s.data.x, s.data.y⟩
  | _, _ => .error .other

/-- `EgorSolver::suggest` (`solver_impl.rs:56-101`): no function constraint; what the surrogates propose is a
parameter. `cfg.tol` is `cstr_tol` or the default. -/
def solverSuggest (cfg : Cfg) (o : ℕ → Option Cand) (x : List (List ℚ)) (y : Mat Flt) :
    Except Panic (List (List ℚ)) := do
  let c : Mat Flt := ⟨0, List.replicate x.length []⟩
  let b ← findBest y c cfg.tol
  let yb ← row y b
  let cb ← row c b
  let _ ← isFeasible yb cb cfg.tol
  let ps ← selectNextPoints cfg ⟨fun _ => [], []⟩ o
  .ok (ps.map Pt.x)

/-- `EgorServiceApi::suggest` (`egor_service.rs:121-130`). -/
def suggest (cfg : Cfg) (o : ℕ → Option Cand) (x : List (List ℚ)) (y : Mat Flt) :
    Except Panic (List (List ℚ)) := do
  let xs ← x.mapM (toContinuousSpace cfg.xtypes)
  let r ← solverSuggest cfg o xs y
  r.mapM (toDiscreteSpace cfg.xtypes)

end Verif.Result
