import Verif.Model.Tuning
import Verif.Model.Sparse
import Verif.Model.Train
import Verif.Model.PyEgor

/-!
# Settings of models and of the optimizer

Model of the builders of `/repo/crates/gp/src/parameters.rs`, `/repo/crates/gp/src/sparse_parameters.rs`,
`/repo/crates/moe/src/parameters.rs` and `/repo/crates/ego/src/solver/egor_config.rs`: a program gives a sequence of settings.
-/

set_option autoImplicit false

namespace Verif.Options

open Verif Tuning

/-! ## Gaussian processes -/

/-- `GpValidParams` (`gp/src/parameters.rs:90-105`). `M`, `C`: trends and kernels. -/
structure GpParams (M C : Type) extends Tuning.Params where
  mean : M
  corr : C
  nugget : ℝ

/-- `GpParams::new` (`gp/src/parameters.rs:110-120, 170-176`). -/
noncomputable def GpParams.new {M C : Type} (mean : M) (corr : C) : GpParams M C :=
  { Tuning.Params.dflt with mean := mean, corr := corr, nugget := 100 * 2 ^ (-52 : ℤ) }

/-- Settings of a Gaussian process (`gp/src/parameters.rs:183-272`). -/
inductive GpSet (M C : Type)
  | mean (v : M)
  | corr (v : C)
  | kplsDim (v : Option ℕ)
  | thetaInit (v : List ℝ)
  | thetaBounds (v : List (ℝ × ℝ))
  | thetaTuning (v : ThetaTuning)
  | nStart (v : ℕ)
  | maxEval (v : ℕ)
  | nugget (v : ℝ)

/-- One setting (`gp/src/parameters.rs:183-272`). -/
def GpParams.apply {M C : Type} (p : GpParams M C) : GpSet M C → GpParams M C
  | .mean v => { p with mean := v }
  | .corr v => { p with corr := v }
  | .kplsDim v => { p with kpls := v }
  | .thetaInit v => { p with toParams := p.toParams.thetaInit v }
  | .thetaBounds v => { p with toParams := p.toParams.thetaBounds v }
  | .thetaTuning v => { p with tuning := v }
  | .nStart v => { p with nStart := v }
  | .maxEval v => { p with toParams := p.toParams.setMaxEval v }
  | .nugget v => { p with nugget := v }

/-- A sequence of settings. -/
def GpParams.build {M C : Type} (p : GpParams M C) (l : List (GpSet M C)) : GpParams M C := l.foldl GpParams.apply p

/-! ## Sparse Gaussian processes -/

/-- `SgpValidParams` (`gp/src/sparse_parameters.rs:71-82`). `X`: points. -/
structure SgpParams (C X : Type) where
  gp : GpParams Unit C
  noise : Sparse.ParamTuning
  z : Sparse.Inducings X
  method : Sparse.Method
  seed : Option ℕ

/-- `SgpParams::new` (`gp/src/sparse_parameters.rs:84-94, 154-170`). -/
noncomputable def SgpParams.new {C X : Type} (corr : C) (z : Sparse.Inducings X) : SgpParams C X where
  gp := { GpParams.new () corr with tuning := .full [defaultInit] [(defaultBounds.1, 100)] }
  noise := .optimized (1 / 100) (100 * 2 ^ (-52 : ℤ)) (10 ^ 10)
  z := z
  method := .fitc
  seed := none

/-- Settings of a sparse Gaussian process (`gp/src/sparse_parameters.rs:177-283`). -/
inductive SgpSet (C X : Type)
  | corr (v : C)
  | thetaInit (v : List ℝ)
  | thetaBounds (v : List (ℝ × ℝ))
  | thetaTuning (v : ThetaTuning)
  | kplsDim (v : Option ℕ)
  | nStart (v : ℕ)
  | maxEval (v : ℕ)
  | nugget (v : ℝ)
  | sparseMethod (v : Sparse.Method)
  | inducings (v : List X)
  | nInducings (v : ℕ)
  | noiseVariance (v : Sparse.ParamTuning)
  | seed (v : Option ℕ)

/-- One setting (`gp/src/sparse_parameters.rs:177-283`). The code of the settings shared with `GpParams` is the same. -/
def SgpParams.apply {C X : Type} (p : SgpParams C X) : SgpSet C X → SgpParams C X
  | .corr v => { p with gp := p.gp.apply (.corr v) }
  | .thetaInit v => { p with gp := p.gp.apply (.thetaInit v) }
  | .thetaBounds v => { p with gp := p.gp.apply (.thetaBounds v) }
  | .thetaTuning v => { p with gp := p.gp.apply (.thetaTuning v) }
  | .kplsDim v => { p with gp := p.gp.apply (.kplsDim v) }
  | .nStart v => { p with gp := p.gp.apply (.nStart v) }
  | .maxEval v => { p with gp := p.gp.apply (.maxEval v) }
  | .nugget v => { p with gp := p.gp.apply (.nugget v) }
  | .sparseMethod v => { p with method := v }
  | .inducings v => { p with z := .located v }
  | .nInducings v => { p with z := .randomized v }
  | .noiseVariance v => { p with noise := v }
  | .seed v => { p with seed := v }

/-- A sequence of settings. -/
def SgpParams.build {C X : Type} (p : SgpParams C X) (l : List (SgpSet C X)) : SgpParams C X := l.foldl SgpParams.apply p

/-! ## Mixtures -/

/-- `GpMixtureValidParams` (`moe/src/parameters.rs:115-143`) without the unused `gmm`. `G`, `R`: Gaussian mixtures and random
generators. -/
structure MoeParams (G R : Type) extends Train.Params G ThetaTuning where
  nStart : ℕ
  maxEval : ℕ
  rng : R

/-- Settings of a mixture (`moe/src/parameters.rs:253-343`); the Gaussian mixture is constructed before. -/
inductive MoeSet (G R : Type)
  | gpType (v : Moe.GpType)
  | nClusters (v : Moe.NbClusters)
  | recombination (v : Train.Recombination)
  | regressionSpec (v : Moe.RegressionSpec)
  | correlationSpec (v : Moe.CorrelationSpec)
  | kplsDim (v : Option ℕ)
  | thetaTunings (v : List ThetaTuning)
  | nStart (v : ℕ)
  | maxEval (v : ℕ)
  | gmx (v : G)
  | withRng (v : R)

/-- One setting (`moe/src/parameters.rs:253-343`). -/
def MoeParams.apply {G R : Type} (p : MoeParams G R) : MoeSet G R → MoeParams G R
  | .gpType v => { p with gpType := v }
  | .nClusters v => { p with nClusters := v }
  | .recombination v => { p with recombination := v }
  | .regressionSpec v => { p with regression := v }
  | .correlationSpec v => { p with correlation := v }
  | .kplsDim v => { p with kplsDim := v }
  | .thetaTunings v => { p with tunings := v }
  | .nStart v => { p with nStart := v }
  | .maxEval v => { p with maxEval := v }
  | .gmx v => { p with gmx := some v }
  | .withRng v => { p with rng := v }

/-- A sequence of settings. -/
def MoeParams.build {G R : Type} (p : MoeParams G R) (l : List (MoeSet G R)) : MoeParams G R := l.foldl MoeParams.apply p

/-! ## Optimizer -/

/-- Settings of the surrogates of the optimizer (`egor_config.rs:55-117`). -/
inductive GpCfgSet
  | regressionSpec (v : Moe.RegressionSpec)
  | correlationSpec (v : Moe.CorrelationSpec)
  | kplsDim (v : Option ℕ)
  | kpls (v : ℕ)
  | noKpls
  | nClusters (v : Moe.NbClusters)
  | recombination (v : PyGp.Recombination)
  | thetaTuning (v : ThetaTuning)
  | nStart (v : ℕ)
  | maxEval (v : ℕ)

/-- One setting (`egor_config.rs:55-117`). -/
def gpApply (p : PyGp.Options) : GpCfgSet → PyGp.Options
  | .regressionSpec v => { p with regr := v }
  | .correlationSpec v => { p with corr := v }
  | .kplsDim v => { p with kplsDim := v }
  | .kpls v => { p with kplsDim := some v }
  | .noKpls => { p with kplsDim := none }
  | .nClusters v => { p with nClusters := v }
  | .recombination v => { p with recombination := v }
  | .thetaTuning v => { p with tuning := v }
  | .nStart v => { p with nStart := v }
  | .maxEval v => { p with maxEval := v }

/-- Settings of the optimizer (`egor_config.rs:272-441`). -/
inductive EgorSet
  | infillCriterion (v : Criteria.Crit)
  | maxIters (v : ℕ)
  | nStart (v : ℕ)
  | nDoe (v : ℕ)
  | nCstr (v : ℕ)
  | cstrTol (v : List Flt)
  | doe (v : Mat Flt)
  | defaultDoe
  | qeiStrategy (v : Steps.QEi)
  | qOptmod (v : ℕ)
  | qPoints (v : ℕ)
  | infillStrategy (v : PyEgor.Infill)
  | infillOptimizer (v : PyEgor.Optimizer)
  | configureGp (l : List GpCfgSet)
  | target (v : Flt)
  | outdir (v : String)
  | noOutdir
  | warmStart (v : Bool)
  | hotStart (v : Persist.Mode)
  | seed (v : ℕ)
  | xtypes (v : List (MixInt.XType ℝ))
  | trego (v : Bool)
  | coego (v : PyEgor.CoegoStatus)
  | cstrInfill (v : Bool)
  | cstrStrategy (v : PyEgor.CstrStrategy)

/-- One setting (`egor_config.rs:272-441`). -/
noncomputable def egorApply (c : PyEgor.EgorConfig) : EgorSet → PyEgor.EgorConfig
  | .infillCriterion v => { c with criterion := v }
  | .maxIters v => c.setMaxIters v
  | .nStart v => c.setNStart v
  | .nDoe v => c.setNDoe v
  | .nCstr v => c.setNCstr v
  | .cstrTol v => c.setCstrTol v
  | .doe v => c.setDoe v
  | .defaultDoe => { c with doe := none }
  | .qeiStrategy v => c.setQei v
  | .qOptmod v => c.setQOptmod v
  | .qPoints v => c.setQPoints v
  | .infillStrategy v => c.setInfill v
  | .infillOptimizer v => c.setOptimizer v
  | .configureGp l => c.setGp (l.foldl gpApply c.gp)
  | .target v => c.setTarget v
  | .outdir v => c.setOutdir v
  | .noOutdir => { c with outdir := none }
  | .warmStart v => c.setWarmStart v
  | .hotStart v => c.setHotStart v
  | .seed v => c.setSeed v
  | .xtypes v => c.setXtypes v
  | .trego v => c.setTrego v
  | .coego v => c.setCoego v
  | .cstrInfill v => c.setCstrInfill v
  | .cstrStrategy v => c.setCstrStrategy v

/-- A sequence of settings. -/
noncomputable def egorBuild (c : PyEgor.EgorConfig) (l : List EgorSet) : PyEgor.EgorConfig := l.foldl egorApply c

end Verif.Options
