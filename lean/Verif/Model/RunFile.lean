import Verif.Model.Run
import Verif.Model.Moe

/-!
# The file of the run recorder

Model of `/repo/crates/ego/src/utils/run_recorder.rs:87-173` and of its uses in
`/repo/crates/ego/src/solver/egor_solver.rs:332-339, 399-415` and `/repo/crates/ego/src/egor.rs:299-318`. Left out: the
texts `team_notes` and `code_reference`, the constant fields, and the JSON text itself (C25 is about reading it).
-/

set_option autoImplicit false

namespace Verif.RunFile

open Verif Verif.Run

/-- The infill criteria (`criteria/ei.rs`, `criteria/wb2.rs`). -/
inductive Infill
  | ei
  | logEi
  | wb2 (scale : Option ℚ)
deriving DecidableEq

/-- `InfillCriterion::name` (`criteria/ei.rs:16-18, 100-102`, `criteria/wb2.rs:15-17`). -/
def Infill.name : Infill → String
  | .ei => "EI"
  | .logEi => "LogEI"
  | .wb2 s => if s = some 1 then "WB2" else "WB2S"

/-- The part of the configuration written in the file, which is not in `Run.Cfg`. -/
structure Meta where
  infill : Infill
  corr : Moe.CorrelationSpec
  /-- `config.seed`, a `u64` -/
  seed : Option ℕ

/-- `EgorRunData` (`run_recorder.rs:87-94`) with `ProblemMetadata` (9-16), `AlgorithmParameters` (43-54), `OrdSample`
(63-68) and `SearchIteration` (75-80). -/
structure RunData where
  testFunction : String
  replication : ℕ
  dimensionality : ℕ
  lower : List ℚ
  upper : List ℚ
  acquisition : String
  kernel : String
  initialSamples : ℕ
  boIterations : ℕ
  totalSamples : ℕ
  batchSize : ℕ
  seed : ℤ
  /-- rank and sample -/
  initial : List (ℕ × Sample)
  /-- rank, size and samples -/
  search : List (ℕ × ℕ × List Sample)

/-- Kernel name (`run_recorder.rs:129-135`). -/
def kernelName (s : Moe.CorrelationSpec) : String :=
  if s = ⟨false, true, false, false⟩ then "Absolute Exponential"
  else if s = ⟨true, false, false, false⟩ then "Squared Exponential"
  else if s = ⟨false, false, true, false⟩ then "Matern 3/2"
  else if s = ⟨false, false, false, true⟩ then "Matern 5/2"
  else "Mixed"

/-- `v as i32` for an unsigned `v`: the low 32 bits, read in two's complement. -/
def asI32 (v : ℕ) : ℤ :=
  let w : ℕ := v % 2 ^ 32
  if w < 2 ^ 31 then (w : ℤ) else (w : ℤ) - 2 ^ 32

/-- `config.seed.map_or(-1, |v| v as i32)` (`run_recorder.rs:140`). -/
def seedField : Option ℕ → ℤ
  | none => -1
  | some v => asI32 v

/-- `init_run_info` (`run_recorder.rs:96-149`); `lims` is `xlimits`, `ini` the samples of the initial design
(`Run.samples`). -/
def initRunInfo (lims : List (ℚ × ℚ)) (cfg : Cfg) (m : Meta) (ini : List Sample) : RunData where
  testFunction := ""
  replication := 0
  dimensionality := lims.length
  lower := lims.map (·.1)
  upper := lims.map (·.2)
  acquisition := m.infill.name
  kernel := kernelName m.corr
  initialSamples := ini.length
  boIterations := cfg.maxIters
  totalSamples := ini.length
  batchSize := cfg.qPoints
  seed := seedField m.seed
  initial := ini.mapIdx fun i s => (i + 1, s)
  search := []

/-- `update_run_info` (`run_recorder.rs:151-173`). -/
def updateRunInfo (f : RunData) (nIter : ℕ) (batch : List Sample) : RunData :=
  { f with
    search := f.search ++ [(f.search.length + 1, batch.length, batch)]
    boIterations := nIter
    totalSamples := f.totalSamples + batch.length }

/-- Recording at the end of the iteration of rank `iter` (from zero) (`egor_solver.rs:399-415`): `take_run_data().unwrap()`
panics when the state has none. `on` tells whether the environment variable is set. -/
def recordStep (on : Bool) (iter : ℕ) (batch : List Sample) (f : Option RunData) : Except Panic (Option RunData) :=
  if on then
    match f with
    | none => .error .other
    | some g => .ok (some (updateRunInfo g (iter + 1) batch))
  else .ok f

/-- The iterations of a run, from the one of rank `iter`; each comes with its batch. -/
def recordLoop (on : Bool) (iter : ℕ) : List (List Sample) → Option RunData → Except Panic (Option RunData)
  | [], f => .ok f
  | b :: bs, f => recordStep on iter b f >>= recordLoop on (iter + 1) bs

/-- The file written at the end of a run (`egor.rs:299-318`): `info` is the name and number given to `run_info`.
`res.state.run_data.as_ref().unwrap()` panics when the state has none. -/
def saveRun (on : Bool) (info : Option (String × ℕ)) (f : Option RunData) : Except Panic (Option RunData) :=
  if on then
    match f with
    | none => .error .other
    | some g => .ok (some { g with
        testFunction := (info.getD ("", 0)).1
        replication := (info.getD ("", 0)).2 })
  else .ok none

/-- A whole run without checkpoint: `init` (`egor_solver.rs:332-339`), the iterations, and the file. `s` is the final
state of the run (`Model/Run.lean`), which has the initial samples and the batch recorded at each iteration. -/
def fileOfRun (lims : List (ℚ × ℚ)) (cfg : Cfg) (m : Meta) (info : Option (String × ℕ)) (s : St) :
    Except Panic (Option RunData) :=
  recordLoop cfg.recorder 0 s.history (if cfg.recorder then some (initRunInfo lims cfg m s.initial) else none) >>=
    saveRun cfg.recorder info

end Verif.RunFile
