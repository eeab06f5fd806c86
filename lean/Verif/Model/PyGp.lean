import Verif.Model.Config
import Verif.Model.Tuning

/-!
# Python options of Gaussian processes

Model of `/repo/python/src/gp_config.rs` and of its use by `Egor` (`/repo/python/src/egor.rs:428-434, 478-530`) and by
`GpMix` (`/repo/python/src/gp_mix.rs:171-233`).
-/

set_option autoImplicit false

namespace Verif.PyGp

open Verif Tuning

/-- Python `GpConfig` (`gp_config.rs:8-66`); `recombination` is `true` for `Smooth`. -/
structure GpConfig where
  regrSpec : ℕ
  corrSpec : ℕ
  kplsDim : Option ℕ
  nClusters : ℤ
  smooth : Bool
  thetaInit : Option (List ℝ)
  thetaBounds : Option (List (List ℝ))
  nStart : ℤ
  maxEval : ℕ

/-- `GpConfig::default` (`gp_config.rs:69-81`, `egor_config.rs:13-15`). -/
def GpConfig.dflt : GpConfig := ⟨1, 1, none, 1, false, none, none, 10, 50⟩

/-- Recombination; the factor of a smooth one is optimized when it is `none`. -/
inductive Recombination where
  | hard
  | smooth (factor : Option ℝ)

/-- What is given to the Rust library. -/
structure Options where
  regr : Moe.RegressionSpec
  corr : Moe.CorrelationSpec
  kplsDim : Option ℕ
  nClusters : Moe.NbClusters
  recombination : Recombination
  tuning : ThetaTuning
  nStart : ℕ
  maxEval : ℕ

/-- `n_clusters` (`python/src/egor.rs:428-434`, `gp_mix.rs:197-201`). -/
def clusters (n : ℤ) : Moe.NbClusters :=
  if 0 < n then .fixed n.toNat else if n = 0 then .auto none else .auto (some (-n).toNat)

/-- `|v| (v[0], v[1])`. -/
def boundPair : List ℝ → Except Panic (ℝ × ℝ)
  | a :: b :: _ => .ok (a, b)
  | _ => .error .outOfBounds

/-- Initial value (`python/src/egor.rs:486-493`, `gp_mix.rs:183-189`). -/
noncomputable def tuningInit (c : GpConfig) : ThetaTuning :=
  match c.thetaInit with
  | none => .dflt
  | some init => .full init [defaultBounds]

/-- `theta_tuning` (`python/src/egor.rs:485-500`, `gp_mix.rs:183-208`). -/
noncomputable def tuning (c : GpConfig) : Except Panic ThetaTuning :=
  match c.thetaBounds with
  | none => .ok (tuningInit c)
  | some bounds => bounds.mapM boundPair >>= fun bs => .ok (.full (tuningInit c).init bs)

/-- `from_bits(..).unwrap()`. -/
def unwrap {α : Type} : Option α → Except Panic α
  | none => .error .other
  | some v => .ok v

/-- Configuration of `Egor` (`python/src/egor.rs:502-530`). -/
noncomputable def egorOptions (c : GpConfig) : Except Panic Options := do
  let regr ← unwrap (Config.regrFromBits c.regrSpec)
  let corr ← unwrap (Config.corrFromBits c.corrSpec)
  let t ← tuning c
  .ok ⟨regr, corr, c.kplsDim, clusters c.nClusters, if c.smooth then .smooth (some 1) else .hard, t,
    (max c.nStart 0).toNat, c.maxEval⟩

/-- Configuration of `GpMix` (`gp_mix.rs:171-233`). The maximum number of evaluations is not set: it keeps its default
value (`moe/src/parameters.rs:153`). -/
noncomputable def gpmixOptions (c : GpConfig) : Except Panic Options := do
  let t ← tuning c
  let regr ← unwrap (Config.regrFromBits c.regrSpec)
  let corr ← unwrap (Config.corrFromBits c.corrSpec)
  .ok ⟨regr, corr, c.kplsDim, clusters c.nClusters, if c.smooth then .smooth none else .hard,
    if c.nStart < 0 then .fixed t.init else t, if c.nStart < 0 then 0 else c.nStart.toNat, maxEvalDefault⟩

end Verif.PyGp
