import Verif.Model.PyGp
import Verif.Model.Persist
import Verif.Model.Criteria
import Verif.Model.Steps

/-!
# Python options of the optimizer

Model of the configuration of the optimizer: `/repo/crates/ego/src/solver/egor_config.rs` (all the fields and setters),
`/repo/crates/ego/src/egor.rs:150-213`, `/repo/crates/ego/src/solver/egor_service.rs:57-107` (builders) and
`/repo/python/src/egor.rs:125-562` (options of the class `Egor`, `apply_config`). The conversion of Python objects (`xspecs` and
arrays) is done before. Directories and file names are strings.
-/

set_option autoImplicit false

namespace Verif.PyEgor

open Verif Criteria Steps

/-- `InfillOptimizer` (`ego/src/types.rs:48-53`). -/
inductive Optimizer
  | cobyla
  | slsqp
deriving DecidableEq, Repr

/-- `ConstraintStrategy` (`ego/src/types.rs:39-44`). -/
inductive CstrStrategy
  | mean
  | upperTrustBound
deriving DecidableEq, Repr

/-- `TregoConfig` (`egor_config.rs:119-128`). -/
structure Trego where
  activated : Bool
  nLocalSteps : ℕ
  d : ℚ × ℚ
  beta : ℚ
  gamma : ℚ
  sigma0 : ℚ
deriving DecidableEq, Repr

/-- `CoegoConfig` (`egor_config.rs:155-159`). -/
structure Coego where
  activated : Bool
  nCoop : ℕ
deriving DecidableEq, Repr

/-- `CoegoStatus` (`egor_config.rs:144-150`). -/
inductive CoegoStatus
  | disabled
  | enabled (n : ℕ)
deriving DecidableEq, Repr

/-- `ValidEgorConfig` (`egor_config.rs:175-230`), which `EgorConfig` wraps. -/
structure EgorConfig where
  maxIters : ℕ
  nStart : ℕ
  nDoe : ℕ
  nCstr : ℕ
  cstrTol : Option (List Flt)
  doe : Option (Mat Flt)
  qEi : QEi
  qOptmod : ℕ
  qPoints : ℕ
  gp : PyGp.Options
  criterion : Crit
  optimizer : Optimizer
  target : Flt
  outdir : Option String
  warmStart : Bool
  hotStart : Persist.Mode
  xtypes : List (MixInt.XType ℝ)
  seed : Option ℕ
  trego : Trego
  coego : Coego
  cstrInfill : Bool
  cstrStrategy : CstrStrategy

/-- `GpConfig::default` (`egor_config.rs:40-53`). -/
noncomputable def gpDefault : PyGp.Options :=
  ⟨⟨true, false, false⟩, ⟨true, false, false, false⟩, none, .fixed 1, .smooth (some 1), .dflt, 10, 50⟩

/-- `f64::MIN`. -/
def minF64 : Flt := .fin (-(2 ^ 1024 - 2 ^ 971))

/-- `ValidEgorConfig::default` (`egor_config.rs:232-259`) with the defaults of TREGO and CoEGO (`egor_config.rs:130-141, 161-168`). -/
noncomputable def EgorConfig.dflt : EgorConfig where
  maxIters := 20
  nStart := 20
  nDoe := 0
  nCstr := 0
  cstrTol := none
  doe := none
  qEi := .kb
  qOptmod := 1
  qPoints := 1
  gp := gpDefault
  criterion := .logEi
  optimizer := .slsqp
  target := minF64
  outdir := none
  warmStart := false
  hotStart := .disabled
  xtypes := []
  seed := none
  trego := ⟨false, 4, (1 / 1000000, 1), 9 / 10, 10 / 9, 1 / 10⟩
  coego := ⟨false, 5⟩
  cstrInfill := false
  cstrStrategy := .mean

/-! ### Setters (`egor_config.rs:272-441`) -/

namespace EgorConfig

/-- `max_iters` (`egor_config.rs:280-283`). -/
def setMaxIters (c : EgorConfig) (v : ℕ) : EgorConfig := { c with maxIters := v }

/-- `n_start` (`egor_config.rs:286-289`). -/
def setNStart (c : EgorConfig) (v : ℕ) : EgorConfig := { c with nStart := v }

/-- `n_doe` (`egor_config.rs:295-298`). -/
def setNDoe (c : EgorConfig) (v : ℕ) : EgorConfig := { c with nDoe := v }

/-- `n_cstr` (`egor_config.rs:301-304`). -/
def setNCstr (c : EgorConfig) (v : ℕ) : EgorConfig := { c with nCstr := v }

/-- `cstr_tol` (`egor_config.rs:307-310`). -/
def setCstrTol (c : EgorConfig) (v : List Flt) : EgorConfig := { c with cstrTol := some v }

/-- `doe` (`egor_config.rs:316-319`). -/
def setDoe (c : EgorConfig) (v : Mat Flt) : EgorConfig := { c with doe := some v }

/-- `qei_strategy` (`egor_config.rs:331-334`). -/
def setQei (c : EgorConfig) (v : QEi) : EgorConfig := { c with qEi := v }

/-- `q_optmod` (`egor_config.rs:338-341`). -/
def setQOptmod (c : EgorConfig) (v : ℕ) : EgorConfig := { c with qOptmod := v }

/-- `q_points` (`egor_config.rs:344-347`). -/
def setQPoints (c : EgorConfig) (v : ℕ) : EgorConfig := { c with qPoints := v }

/-- `infill_optimizer` (`egor_config.rs:360-363`). -/
def setOptimizer (c : EgorConfig) (v : Optimizer) : EgorConfig := { c with optimizer := v }

/-- `configure_gp` (`egor_config.rs:366-369`). -/
def setGp (c : EgorConfig) (v : PyGp.Options) : EgorConfig := { c with gp := v }

/-- `target` (`egor_config.rs:372-375`). -/
def setTarget (c : EgorConfig) (v : Flt) : EgorConfig := { c with target := v }

/-- `outdir` (`egor_config.rs:378-381`). -/
def setOutdir (c : EgorConfig) (v : String) : EgorConfig := { c with outdir := some v }

/-- `warm_start` (`egor_config.rs:389-392`). -/
def setWarmStart (c : EgorConfig) (v : Bool) : EgorConfig := { c with warmStart := v }

/-- `hot_start` (`egor_config.rs:395-398`). -/
def setHotStart (c : EgorConfig) (v : Persist.Mode) : EgorConfig := { c with hotStart := v }

/-- `seed` (`egor_config.rs:402-405`). -/
def setSeed (c : EgorConfig) (v : ℕ) : EgorConfig := { c with seed := some v }

/-- `xtypes` (`egor_config.rs:408-411`). -/
def setXtypes (c : EgorConfig) (v : List (MixInt.XType ℝ)) : EgorConfig := { c with xtypes := v }

/-- `trego` (`egor_config.rs:414-417`). -/
def setTrego (c : EgorConfig) (v : Bool) : EgorConfig := { c with trego := { c.trego with activated := v } }

/-- `coego` (`egor_config.rs:420-429`): the number of groups is kept when CoEGO is disabled. -/
def setCoego (c : EgorConfig) : CoegoStatus → EgorConfig
  | .disabled => { c with coego := { c.coego with activated := false } }
  | .enabled n => { c with coego := ⟨true, n⟩ }

/-- `cstr_infill` (`egor_config.rs:432-435`). -/
def setCstrInfill (c : EgorConfig) (v : Bool) : EgorConfig := { c with cstrInfill := v }

/-- `cstr_strategy` (`egor_config.rs:438-441`). -/
def setCstrStrategy (c : EgorConfig) (v : CstrStrategy) : EgorConfig := { c with cstrStrategy := v }

end EgorConfig

/-- `InfillStrategy` of Python (`python/src/types.rs:61-66`) and of Rust (`ego/src/types.rs:26-36`). -/
inductive Infill
  | ei
  | wb2
  | wb2s
  | logEi
deriving DecidableEq, Repr

/-- `infill_strategy` (`egor_config.rs:349-357`, `wb2.rs:90-93`). -/
noncomputable def EgorConfig.setInfill (c : EgorConfig) (v : Infill) : EgorConfig :=
  { c with criterion := match v with
    | .ei => .ei
    | .logEi => .logEi
    | .wb2 => .wb2 (some 1)
    | .wb2s => .wb2 none }

/-- `check` (`egor_config.rs:444-466`), see `Config.check`. -/
def EgorConfig.check (c : EgorConfig) : Except Config.CfgError EgorConfig :=
  (Config.check ⟨c.nCstr, c.cstrTol, c.coego.activated, c.gp.kplsDim⟩).map fun _ => c

/-! ### Python class -/

/-- The Python class `Egor` (`python/src/egor.rs:128-152`) without `xspecs`. The enumerations of Python are those of Rust under
other names (`python/src/egor.rs:436-466`). -/
structure Py where
  gp : PyGp.GpConfig
  nCstr : ℕ
  cstrTol : Option (List Flt)
  nStart : ℕ
  nDoe : ℕ
  doe : Option (Mat Flt)
  infill : Infill
  cstrInfill : Bool
  cstrStrategy : CstrStrategy
  qPoints : ℕ
  qInfill : QEi
  optimizer : Optimizer
  trego : Bool
  coegoNCoop : ℕ
  qOptmod : ℕ
  target : Flt
  outdir : Option String
  warmStart : Bool
  hotStart : Option ℕ
  seed : Option ℕ

/-- Default values of the arguments (`python/src/egor.rs:158-180`). -/
def Py.dflt : Py :=
  ⟨.dflt, 0, none, 20, 0, none, .logEi, false, .mean, 1, .kb, .cobyla, false, 0, 1, minF64, none, false, none, none⟩

/-- `Egor::cstr_tol` (`python/src/egor.rs:470-476`). -/
def Py.tol (p : Py) (nFcstr : ℕ) : List Flt :=
  p.cstrTol.getD (List.replicate (p.nCstr + nFcstr) Config.defaultTol)

/-- `apply_config` (`python/src/egor.rs:502-562`). The options of Gaussian processes are all set (`PyGp.egorOptions`). -/
noncomputable def Py.applyConfig (p : Py) (c : EgorConfig) (maxIters : Option ℕ) (nFcstr : ℕ) (doe : Option (Mat Flt)) :
    Except Panic EgorConfig := do
  let gp ← PyGp.egorOptions p.gp
  let c := (c.setNCstr p.nCstr).setMaxIters (maxIters.getD 1)
  let c := ((c.setNStart p.nStart).setNDoe p.nDoe).setCstrTol (p.tol nFcstr)
  let c := c.setGp gp
  let c := ((c.setInfill p.infill).setCstrInfill p.cstrInfill).setCstrStrategy p.cstrStrategy
  let c := ((c.setQPoints p.qPoints).setQei p.qInfill).setOptimizer p.optimizer
  let c := (c.setTrego p.trego).setCoego (if p.coegoNCoop = 0 then .disabled else .enabled p.coegoNCoop)
  let c := (c.setQOptmod p.qOptmod).setTarget p.target
  let c := (c.setWarmStart p.warmStart).setHotStart (.ofOption p.hotStart)
  let c := match doe with
    | some d => c.setDoe d
    | none => c
  let c := match p.outdir with
    | some o => c.setOutdir o
    | none => c
  .ok (match p.seed with
    | some s => c.setSeed s
    | none => c)

/-- `check` followed by `.expect("Egor configured")`. -/
def expectValid (c : EgorConfig) : Except Panic EgorConfig :=
  match c.check with
  | .ok c => .ok c
  | .error _ => .error .other

/-- Configuration of the run of `minimize` (`python/src/egor.rs:300-308`, `crates/ego/src/egor.rs:155-213`). -/
noncomputable def Py.minimize (p : Py) (xtypes : List (MixInt.XType ℝ)) (nFcstr maxIters : ℕ) : Except Panic EgorConfig := do
  let c ← p.applyConfig EgorConfig.dflt (some maxIters) nFcstr p.doe
  expectValid (c.setXtypes xtypes)

/-- `concatenate(Axis(1), &[x, y]).unwrap()` of two arrays. -/
def hcat (x y : Mat Flt) : Except Panic (Mat Flt) :=
  if x.rows.length = y.rows.length then .ok ⟨x.ncols + y.ncols, List.zipWith (· ++ ·) x.rows y.rows⟩ else .error .other

/-- Configuration used by `suggest` (`python/src/egor.rs:349-367`, `egor_service.rs:68-107`). -/
noncomputable def Py.suggest (p : Py) (xtypes : List (MixInt.XType ℝ)) (x y : Mat Flt) : Except Panic EgorConfig := do
  let d ← hcat x y
  let c ← p.applyConfig EgorConfig.dflt (some 1) 0 (some d)
  expectValid (c.setXtypes xtypes)

end Verif.PyEgor
