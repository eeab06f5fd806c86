import Verif.Model.Result

/-!
# The initial design of a run

Model of the choice of the initial design by `init` (`/repo/crates/ego/src/solver/egor_solver.rs:210-235`), from the
array given with `EgorConfig::doe` (`/repo/crates/ego/src/solver/egor_config.rs:312-319`) or the one read by a warm
start, or else from a Latin hypercube sampling. `xlimits` has one row per coordinate of the relaxed space
(`as_continuous_limits`, `Verif.MixInt.continuousLimits`).

Simplification: the numbers of a given array are finite.
-/

set_option autoImplicit false

namespace Verif.UserDoe

open Verif MixInt Run

/-- An array given as initial design, split in inputs and outputs (`egor_solver.rs:213-224`); `nlim` is
`self.xlimits.nrows()`. Slicing panics when there are less columns. -/
def readDoe (nlim : ℕ) (m : Mat ℚ) : Except Panic Doe :=
  if m.ncols = nlim then .ok (.points m.rows)
  else if m.ncols < nlim then .error .outOfBounds
  else .ok (.full (m.rows.map (·.take nlim)) ⟨m.ncols - nlim, m.rows.map fun r => (r.drop nlim).map .fin⟩)

/-- Number of points of the sampling (`egor_solver.rs:226-230`). -/
def doeSize (nlim nDoe : ℕ) : ℕ := if nDoe = 0 then max (nlim + 1) 5 else nDoe

/-- Choice of the initial design (`egor_solver.rs:210-235`): the file of a warm start, the array of the configuration,
or a sampling (`lhs n` has `n` points). -/
def chooseDoe (ts : List (XType ℚ)) (file given : Option (Mat ℚ)) (nDoe : ℕ) (lhs : ℕ → List (List ℚ)) :
    Except Panic Doe := do
  let lim ← continuousLimits ts
  match file.or given with
  | some m => readDoe lim.length m
  | none => .ok (.points (lhs (doeSize lim.length nDoe)))

/-- A run with the initial design of the configuration. -/
def runWith (cfg : Cfg) (P : Prob) (file given : Option (Mat ℚ)) (nDoe : ℕ) (lhs : ℕ → List (List ℚ))
    (os : List Oracle) : Except Panic St := do
  let d ← chooseDoe cfg.xtypes file given nDoe lhs
  run cfg P d os

end Verif.UserDoe
