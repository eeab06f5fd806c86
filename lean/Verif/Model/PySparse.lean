import Verif.Model.PyGp
import Verif.Model.Sparse

/-!
# Python class `SparseGpMix`

Model of `/repo/python/src/sparse_gp_mix.rs:64-218`: options, and training of the only expert of the mixture
(`/repo/crates/moe/src/algorithm.rs:306-339`, `/repo/crates/gp/src/sparse_algorithm.rs:421-622`).

Simplifications: the choice between several kernels is that of C59 and is not repeated here; the weights of the partial
least squares are in the environment, only their number matters.
-/

set_option autoImplicit false

namespace Verif.PySparse

open Verif Tuning Sparse

/-- `SparseGpMix` (`sparse_gp_mix.rs:64-74`), for inputs of type `α`; the seed is the subject of C111. -/
structure SparseConfig (α : Type) where
  corrSpec : ℕ
  thetaInit : Option (List ℝ)
  thetaBounds : Option (List (List ℝ))
  kplsDim : Option ℕ
  nStart : ℕ
  nz : Option ℕ
  z : Option (List α)
  method : Sparse.Method

/-- Default values of the constructor (`sparse_gp_mix.rs:80-90`). -/
def SparseConfig.dflt (α : Type) : SparseConfig α := ⟨1, none, none, none, 10, none, none, .fitc⟩

/-- What is given to `GpMixture` (`sparse_gp_mix.rs:201-215`). -/
structure SparseOptions (α : Type) where
  method : Sparse.Method
  inducings : Inducings α
  corr : Moe.CorrelationSpec
  tuning : ThetaTuning
  kplsDim : Option ℕ
  nStart : ℕ

/-- Inducing points (`sparse_gp_mix.rs:169-175`). -/
def inducings {α : Type} (c : SparseConfig α) : Except Panic (Inducings α) :=
  match c.z, c.nz with
  | some z, _ => .ok (.located z)
  | none, some nz => .ok (.randomized nz)
  | none, none => .error .other

/-- Tuning before the bounds (`sparse_gp_mix.rs:182-188`). -/
noncomputable def tuningInit {α : Type} (c : SparseConfig α) : ThetaTuning :=
  match c.thetaInit with
  | none => .dflt
  | some init => .full init [defaultBounds]

/-- `theta_tuning` (`sparse_gp_mix.rs:182-194`). -/
noncomputable def tuning {α : Type} (c : SparseConfig α) : Except Panic ThetaTuning :=
  match c.thetaBounds with
  | none => .ok (tuningInit c)
  | some bounds => bounds.mapM PyGp.boundPair >>= fun bs => .ok (.full (tuningInit c).init bs)

/-- Options of the mixture (`sparse_gp_mix.rs:169-215`). -/
noncomputable def options {α : Type} (c : SparseConfig α) : Except Panic (SparseOptions α) := do
  let i ← inducings c
  let t ← tuning c
  let corr ← PyGp.unwrap (Config.corrFromBits c.corrSpec)
  .ok ⟨c.method, i, corr, t, c.kplsDim, c.nStart⟩

/-- Checks of the number of components: `moe/src/parameters.rs:343-349`, `gp/src/sparse_parameters.rs:305-323`,
`gp/src/sparse_algorithm.rs:429-438`. All errors become panics (`expect`, `sparse_gp_mix.rs:215`). The result is the
number of components of `theta`. -/
def checkKpls (kpls : Option ℕ) (initLen nx : ℕ) : Except Panic ℕ :=
  match kpls with
  | none => .ok nx
  | some d =>
    if d = 0 then .error .other
    else if 1 < initLen ∧ initLen < d then .error .other
    else if nx < d then .error .other
    else .ok d

/-- Default tuning of the noise (`gp/src/sparse_parameters.rs:25-32`); `eps` is the precision of the numbers. -/
noncomputable def dfltNoise (eps : ℝ) : ParamTuning := .optimized (1 / 100) (100 * eps) (10 ^ 10)

/-- Default tuning of sparse processes outside of mixtures (`gp/src/sparse_parameters.rs:155-170`). -/
noncomputable def sgpTuning : ThetaTuning := .full [defaultInit] [(defaultBounds.1, 100)]

/-- The trained expert. -/
structure Trained (α : Type) where
  method : Sparse.Method
  corr : Moe.CorrelationSpec
  points : List α
  theta : List ℝ
  sigma2 : ℝ
  noise : ℝ

/-- `SparseGpMix::fit` (`sparse_gp_mix.rs:124-218`): `nx` inputs, `sigma20` variance of the outputs, `shuffled` the rows of
the training points in random order. The maximum number of evaluations is the default one. -/
noncomputable def fit {α : Type} (env : Sparse.Env) (eps : ℝ) (c : SparseConfig α) (nx : ℕ) (xt : List α)
    (shuffled : List ℕ) (sigma20 : ℝ) : Except Panic (Trained α) := do
  let o ← options c
  let dim ← checkKpls o.kplsDim o.tuning.init.length nx
  let z ← inducingPoints o.inducings xt shuffled
  let r ← fitParams env dim o.nStart maxEvalDefault o.tuning (dfltNoise eps) sigma20
  .ok ⟨o.method, o.corr, z, r.1, r.2.1, r.2.2⟩

end Verif.PySparse
