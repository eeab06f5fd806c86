import Verif.Model.Run

/-!
# Files written at each iteration

Model of `OptimizationObserver` (`/repo/crates/ego/src/egor.rs:332-393`), which the executor of a run calls at the end
of each iteration when `outdir` is given (`/repo/crates/ego/src/egor.rs:260-265`), and of the loop of the executor with
this observer: `next_iter`, `update`, `observe_iter`, `increment_iter`.

Left out: creation of the directory and failures of the file system.
-/

set_option autoImplicit false

namespace Verif.History

open Verif Run

/-- Fields of `OptimizationObserver` (`egor.rs:337-341`), as lists of rows. -/
structure Obs where
  params : Option (List (List ℚ))
  costs : Option (List (List Flt))
deriving DecidableEq

/-- `OptimizationObserver::new` (`egor.rs:344-350`). -/
def Obs.new : Obs := ⟨none, none⟩

/-- `egor_doe.npy` and `egor_history.npy`, as lists of rows; `none` when there is no such file. -/
structure Files where
  doe : Option (List (List Flt))
  history : Option (List (List Flt))
deriving DecidableEq

/-- `concatenate![Axis(1), a, b]`: panics when the numbers of rows differ. -/
def beside (a b : List (List Flt)) : Except Panic (List (List Flt)) :=
  if a.length = b.length then .ok (List.zipWith (· ++ ·) a b) else .error .shape

/-- `Option::unwrap`. -/
def unwrap {α : Type} : Option α → Except Panic α
  | some a => .ok a
  | none => .error .other

/-- `observe_iter` (`egor.rs:354-392`). Simplification: the rows of `best_params`, and those of `best_costs`, being
rows of the same arrays, their numbers of columns are not compared when a row is added. -/
def observe (s : St) (o : Obs) : Except Panic (Obs × Files) := do
  let xy ← beside (s.data.x.map (·.map .fin)) s.data.y.rows
  let doe ← beside xy s.data.c.rows
  let o' : Obs ← (match o.params with
    | none => do
      let t ← update s
      let bp ← unwrap t.bestParam
      let bc ← unwrap t.bestCost
      .ok ⟨some [bp], some [bc]⟩
    | some ps => do
      let bp ← unwrap s.bestParam
      let bc ← unwrap s.bestCost
      let cs ← unwrap o.costs
      .ok ⟨some (ps ++ [bp]), some (cs ++ [bc])⟩)
  let cs ← unwrap o'.costs
  let ps ← unwrap o'.params
  let hist ← beside cs (ps.map (·.map .fin))
  .ok (o', ⟨some doe, some hist⟩)

/-- The executor loop (`Verif.Run.loop`) with the observer: the final state, the observer and the files. -/
def loopObs (cfg : Cfg) (P : Prob) : List Oracle → St → Obs → Files → Except Panic (St × Obs × Files)
  | [], s, o, f => .ok (s, o, f)
  | k :: ks, s, o, f =>
    if stops cfg s then .ok (s, o, f)
    else do
      let s1 ← nextIter cfg P k s
      let s2 ← update s1
      let r ← observe s2 o
      loopObs cfg P ks { s2 with iter := s2.iter + 1 } r.1 r.2

/-- A run with `outdir` (`egor.rs:230-265`): a new observer, the files already there, `init` and the loop. -/
def runObs (cfg : Cfg) (P : Prob) (doe : Doe) (ks : List Oracle) (f : Files) : Except Panic (St × Files) := do
  let s ← init cfg P doe
  let r ← loopObs cfg P ks s Obs.new f
  .ok (r.1, r.2.2)

/-- A run restarted from a checkpoint (`egor.rs:243-265`, `hot_start.rs:112-137`): a new observer, the state of the
checkpoint with its maximum number of iterations extended by `ext`. -/
def resumeObs (cfg : Cfg) (P : Prob) (ext : ℕ) (s : St) (ks : List Oracle) (f : Files) :
    Except Panic (St × Files) := do
  let r ← loopObs cfg P ks { s with maxIters := s.maxIters + ext } Obs.new f
  .ok (r.1, r.2.2)

end Verif.History
