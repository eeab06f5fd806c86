import Verif.Model.Run
import Verif.Model.F64
import Verif.Model.Persist

/-!
# Runs continued from a checkpoint

Model of `/repo/crates/ego/src/egor.rs:229-268` (executor with `HotStartCheckpoint`, saved after each iteration) and of
the numbers of the checkpoint file (`/repo/crates/ego/src/utils/hot_start.rs:91-93, 118-123`). The executor is that of
`argmin` 0.11, known from its documentation: with a checkpoint the solver and the state are those of the file, `init` is
not called again, and the loop goes on. The reading of numbers is that of `serde_json` without its feature
`float_roundtrip`, which is not asked for (`/repo/Cargo.toml:52`, `/repo/crates/ego/Cargo.toml:60`).
-/

set_option autoImplicit false

namespace Verif.Resume

open Verif Run

/-! ## Executor -/

/-- At most `n` iterations of the executor loop. Choices of an iteration are functions of the state, which holds the
random generator, the clusterings and the hyperparameters (`egor_state.rs:85-122`). -/
def exec (cfg : Cfg) (P : Prob) (env : St → Oracle) : ℕ → St → Except Panic St
  | 0, s => .ok s
  | n + 1, s => if stops cfg s then .ok s else turn cfg P (env s) s >>= exec cfg P env n

/-- The executor loop until it stops (it does when the number of iterations is reached). -/
def finish (cfg : Cfg) (P : Prob) (env : St → Oracle) (s : St) : Except Panic St :=
  exec cfg P env (s.maxIters - s.iter) s

/-- A run from its initial design. -/
def start (cfg : Cfg) (P : Prob) (env : St → Oracle) (doe : Doe) : Except Panic St :=
  init cfg P doe >>= finish cfg P env

/-- Numbers of a state read back from the file: `rb` is the effect of writing and reading on a number. Finite numbers
only (the others are not readable, `Persist.decode`). -/
def rbFlt (rb : ℚ → ℚ) : Flt → Flt
  | .fin q => .fin (rb q)
  | v => v

/-- Matrix read back. -/
def rbMat (rb : ℚ → ℚ) (m : Mat Flt) : Mat Flt := ⟨m.ncols, m.rows.map (·.map (rbFlt rb))⟩

/-- Sample of the recorder read back. -/
def rbSample (rb : ℚ → ℚ) (s : Sample) : Sample := ⟨s.loc.map rb, rbFlt rb s.val⟩

/-- The state read back (`hot_start.rs:123`). The ghost field `calls` is kept. -/
def reload (rb : ℚ → ℚ) (s : St) : St :=
  { s with
    data := ⟨s.data.x.map (·.map rb), rbMat rb s.data.y, rbMat rb s.data.c⟩
    sigma := rb s.sigma
    bestParam := s.bestParam.map (·.map rb)
    bestCost := s.bestCost.map (·.map (rbFlt rb))
    initial := s.initial.map (rbSample rb)
    history := s.history.map (·.map (rbSample rb)) }

/-- `load` with its mode (`hot_start.rs:125-131`). -/
def extend (mode : Persist.Mode) (s : St) : St :=
  match mode with
  | .extended n => { s with maxIters := s.maxIters + n }
  | _ => s

/-- A run started with the checkpoint `s` in its directory: nothing of the configuration of the new run is used, except
the mode. -/
def resume (cfg : Cfg) (P : Prob) (env : St → Oracle) (rb : ℚ → ℚ) (mode : Persist.Mode) (s : St) : Except Panic St :=
  finish cfg P env (extend mode (reload rb s))

/-! ## Numbers -/

open F64

/-- Loop of `f64_from_parts` of `serde_json`: the significand is multiplied or divided by a power of ten of a table of
309 numbers. `none`: out of range. -/
noncomputable def scale (f : ℝ) (e : ℤ) : Option ℝ :=
  if _h : e.natAbs ≤ 308 then
    if 0 ≤ e then (if mul f (rnd (10 ^ e.natAbs)) < 2 ^ 1024 then some (mul f (rnd (10 ^ e.natAbs))) else none)
    else some (div f (rnd (10 ^ e.natAbs)))
  else if f = 0 then some 0
  else if _h' : 0 ≤ e then none
  else scale (div f (rnd (10 ^ 308))) (e + 308)
termination_by e.natAbs
decreasing_by omega

/-- Number read for the decimal `sig * 10 ^ e`. Significands of 20 digits or more, never written, are left out. -/
noncomputable def readNum (sig : ℕ) (e : ℤ) : Option ℝ := scale (rnd sig) e

end Verif.Resume
