import Verif.Model.Run
import Mathlib.Data.List.Basic
import Mathlib.Data.List.Infix

/-!
# Files written and read by a run

Model of the warm start (`/repo/crates/ego/src/solver/egor_solver.rs:192-243`, files written by `init` and by
`OptimizationObserver`, `/repo/crates/ego/src/egor.rs:353-363`) and of the hot start checkpoint
(`/repo/crates/ego/src/utils/hot_start.rs`, used in `crates/ego/src/egor.rs:243-258`).
-/

set_option autoImplicit false

namespace Verif.Persist

open Verif

/-! ## Warm start -/

/-- The files of the output directory: `egor_doe.npy` and `egor_initial_doe.npy`. -/
structure Dir where
  doe : Option (Mat Flt)
  initial : Option (Mat Flt)
deriving DecidableEq

/-- Split of the columns in two (`egor_solver.rs:218-223`); slicing panics when there are less columns. -/
def splitCols (nx : ℕ) (m : Mat Flt) : Except Panic (Mat Flt × Mat Flt) :=
  if m.ncols < nx then .error .outOfBounds
  else .ok (⟨nx, m.rows.map (·.take nx)⟩, ⟨m.ncols - nx, m.rows.map (·.drop nx)⟩)

/-- The file used by the warm start (`egor_solver.rs:192-208`). -/
def readDoe (warm : Bool) (dir : Dir) : Option (Mat Flt) := if warm then dir.doe.or dir.initial else none

/-- The inputs and outputs a run starts with (`egor_solver.rs:210-235`). `file` is the design read by the warm start,
`given` the design of the configuration, `fresh` the sample drawn otherwise, `eval` the evaluation of the
objective. -/
def startData (nx : ℕ) (eval : Mat Flt → Mat Flt) (given : Option (Mat Flt)) (fresh : Mat Flt)
    (file : Option (Mat Flt)) : Except Panic (Mat Flt × Mat Flt) :=
  match file.or given with
  | some doe => if doe.ncols = nx then .ok (doe, eval doe) else splitCols nx doe
  | none => .ok (fresh, eval fresh)

/-- Start of a run (`egor_solver.rs:192-243`): the inputs and outputs used, and the directory where they have been
saved. -/
def startRun (nx : ℕ) (eval : Mat Flt → Mat Flt) (given : Option (Mat Flt)) (fresh : Mat Flt) (warm : Bool)
    (dir : Dir) : Except Panic ((Mat Flt × Mat Flt) × Dir) :=
  startData nx eval given fresh (readDoe warm dir) >>= fun xy =>
    Mat.hcat xy.1 xy.2 >>= fun file => .ok (xy, { dir with initial := some file })

/-- End of an iteration (`crates/ego/src/egor.rs:355-363`): inputs, outputs and function constraints are written. -/
def saveIter (dir : Dir) (x y c : Mat Flt) : Except Panic Dir := do
  let xy ← Mat.hcat x y
  let xyc ← Mat.hcat xy c
  .ok { dir with doe := some xyc }

/-! ## Hot start -/

/-- Content of the checkpoint: the maximum number of iterations and all the floating point numbers of the solver and
of the state. Simplification: the other (integer, boolean, text) fields are left out. -/
structure Ckpt where
  maxIters : ℕ
  floats : List Flt
deriving DecidableEq

/-- JSON text as a list of tokens. -/
inductive Tok
  | num (q : ℚ)
  | null
  | nat (n : ℕ)
  | close
deriving DecidableEq

/-- `serde_json` writes `null` for a float which is not finite, and the shortest decimal otherwise. -/
def encFloat : Flt → Tok
  | .fin q => .num q
  | _ => .null

/-- `serde_json::to_vec` (`hot_start.rs:99`). -/
def encode (c : Ckpt) : List Tok := .nat c.maxIters :: (c.floats.map encFloat ++ [.close])

/-- Reading of the floats: `null` is not a valid float, the text must end after the closing token. `parse q` is the number
read for the decimal written for `q`: `serde_json` without its feature `float_roundtrip` (`/repo/Cargo.toml:52`) does not
read every number back (`Resume.readNum`). -/
def decFloats (parse : ℚ → ℚ) : List Tok → Option (List Flt)
  | [.close] => some []
  | .num q :: ts => (decFloats parse ts).map (.fin (parse q) :: ·)
  | _ => none

/-- `serde_json::from_slice` (`hot_start.rs:123`). -/
def decode (parse : ℚ → ℚ) : List Tok → Option Ckpt
  | .nat m :: ts => (decFloats parse ts).map (⟨m, ·⟩)
  | _ => none

/-- `HotStartMode` (`hot_start.rs:15-24`). -/
inductive Mode
  | disabled
  | enabled
  | extended (n : ℕ)
deriving DecidableEq

/-- `From<Option<u64>> for HotStartMode` (`hot_start.rs:26-37`). -/
def Mode.ofOption : Option ℕ → Mode
  | some n => if n = 0 then .enabled else .extended n
  | none => .disabled

/-- The checkpoint file, if any. -/
abbrev Disk := Option (List Tok)

/-- Contents of the file while `save` runs (`hot_start.rs:91-103`): the previous one, empty once the file is created,
then what has been written. -/
def saveStates (d : Disk) (c : Ckpt) : List Disk := d :: (encode c).inits.map some

/-- The file after a complete `save`. -/
def save (_ : Disk) (c : Ckpt) : Disk := some (encode c)

/-- Failure of `load`. -/
inductive LoadErr
  | badText
deriving DecidableEq

/-- `extend_max_iters` (`egor_state.rs:332-334`). Simplification: no overflow of `u64`. -/
def extend (mode : Mode) (c : Ckpt) : Ckpt :=
  match mode with
  | .extended n => { c with maxIters := c.maxIters + n }
  | _ => c

/-- `load` (`hot_start.rs:110-133`). -/
def load (parse : ℚ → ℚ) (mode : Mode) : Disk → Except LoadErr (Option Ckpt)
  | none => .ok none
  | some text =>
    match decode parse text with
    | none => .error .badText
    | some c => .ok (some (extend mode c))

/-- The checkpoint is used by a run only when hot start is not disabled (`crates/ego/src/egor.rs:243-258`). -/
def loadAtStart (parse : ℚ → ℚ) (mode : Mode) (d : Disk) : Except LoadErr (Option Ckpt) :=
  if mode ≠ .disabled then load parse mode d else .ok none

/-- Same condition for saving. -/
def saveInRun (mode : Mode) (d : Disk) (c : Ckpt) : Disk := if mode ≠ .disabled then save d c else d

/-- Successive restarts: each loads the checkpoint, runs (`step`) and saves. -/
def restarts (parse : ℚ → ℚ) (mode : Mode) (step : Ckpt → Ckpt) : ℕ → Disk → Except LoadErr Disk
  | 0, d => .ok d
  | k + 1, d =>
    match loadAtStart parse mode d with
    | .error e => .error e
    | .ok none => .ok d
    | .ok (some c) => restarts parse mode step k (saveInRun mode d (step c))

end Verif.Persist
