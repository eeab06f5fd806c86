import Verif.Model.Moe

/-!
# Training of mixtures of experts

Model of `GpMixtureValidParams::{train, train_on_clusters, find_best_expert}` (`/repo/crates/moe/src/algorithm.rs:70-347`):
the order of the steps, the data given to each of them and the training done a second time. Fitting a Gaussian mixture,
cross validation, fitting a Gaussian process and predicting are parameters.
-/

set_option autoImplicit false

namespace Verif.Train

open Verif Moe

/-- Ways to fail: a panic or an error returned to the caller. -/
inductive Fail
  | panic (p : Panic)
  | err (e : MoeErr)
deriving DecidableEq, Repr

/-- A computation that may panic. -/
def liftP {α : Type} : Except Panic α → Except Fail α
  | .ok a => .ok a
  | .error p => .error (.panic p)

/-- A computation that may return an error (`?`). -/
def liftE {α : Type} : Except MoeErr α → Except Fail α
  | .ok a => .ok a
  | .error e => .error (.err e)

/-- A computation that may panic or return an error. -/
def liftPE {α : Type} : Except Panic (Except MoeErr α) → Except Fail α
  | .ok r => liftE r
  | .error p => .error (.panic p)

/-- `Recombination` (`moe/src/types.rs:20-28`). -/
inductive Recombination
  | hard
  | smooth (factor : Option ℚ)
deriving DecidableEq, Repr

/-- `GpMixtureValidParams` (`moe/src/parameters.rs:108-137`); `gmm` is not read by the functions below, the number of
starts and of evaluations are part of the parameter `fit` of `Env`. -/
structure Params (G T : Type) where
  gpType : GpType
  nClusters : NbClusters
  recombination : Recombination
  regression : RegressionSpec
  correlation : CorrelationSpec
  tunings : List T
  kplsDim : Option ℕ
  gmx : Option G

/-- What training calls. A row of data is the inputs followed by the output. -/
structure Env (R G T E : Type) where
  /-- fit of a Gaussian mixture with a number of clusters on rows of data, restricted to the inputs
  (`moe/src/algorithm.rs:120-128`); the generator is cloned, hence a function -/
  fitGmm : ℕ → List (List R) → Except MoeErr G
  /-- `heaviside_factor` -/
  scale : G → ℚ → G
  nClusters : G → ℕ
  /-- `gmx.predict`: cluster of a point -/
  assign : G → List R → ℕ
  /-- results of cross validations for the automatic number of clusters -/
  tries : List (List R) → ℕ → Try
  /-- mean cross validation error of a pair of models on the data of a cluster -/
  cv : List (List R) → MeanKind → CorrKind → Except Panic Flt
  /-- fit of a Gaussian process -/
  fit : GpType → MeanKind → CorrKind → T → List (List R) → Except MoeErr E
  /-- prediction of an expert -/
  predict : E → List R → R
  /-- error of the smooth prediction of the experts with a heaviside factor at rows of data
  (`moe/src/algorithm.rs:364-369`) -/
  error : List E → G → ℚ → List (List R) → Flt

variable {R G T E : Type}

/-- `find_best_expert` (`moe/src/algorithm.rs:209-347`) for cluster `nc`. -/
def findExpert (env : Env R G T E) (p : Params G T) (nx nc : ℕ) (cluster : List (List R)) : Except Fail E := do
  let k ← liftPE (findBestExpert p.gpType p.regression p.correlation cluster.length nx (env.cv cluster))
  let t ← liftP (match p.gpType with
    | .full => tuningOf p.tunings nc
    | .sparse => row p.tunings 0)
  liftE (env.fit p.gpType k.1 k.2 t cluster)

/-- The loop on clusters (`moe/src/algorithm.rs:160-177`); `nb` is the number of clusters. -/
def trainExperts (env : Env R G T E) (p : Params G T) (nx nb : ℕ) : ℕ → List (List (List R)) → Except Fail (List E)
  | _, [] => .ok []
  | nc, c :: cs =>
    if nb > 1 ∧ c.length < 3 then .error (.err .clustering)
    else do
      let e ← findExpert env p nx nc c
      let es ← trainExperts env p nx nb (nc + 1) cs
      .ok (e :: es)

/-- `GpMixture` (`moe/src/algorithm.rs:430-443`). -/
structure Mixture (R G T E : Type) where
  recombination : Recombination
  experts : List E
  gmx : G
  data : List (List R)
  params : Params G T

/-- `train_on_clusters` (`moe/src/algorithm.rs:144-205`); `again` is `train`. -/
def trainOnClusters (env : Env R G T E) (again : Params G T → Except Fail (Mixture R G T E)) (p : Params G T) (nx : ℕ)
    (data : List (List R)) (g : G) (r : Recombination) : Except Fail (Mixture R G T E) := do
  let clusters ← liftP (sortByCluster (env.nClusters g) data (data.map fun z => env.assign g (z.take nx)))
  liftE (checkNumberOfPoints (clusters.map fun c => ⟨nx + 1, c⟩) nx p.regression)
  let experts ← trainExperts env p nx clusters.length 0 clusters
  if r = .smooth none ∧ p.nClusters.isMulti = true then
    let parts ← liftP (extractPart data 5)
    let f ← liftP (optimizeHeavisideFactor (decide (p.recombination = .hard)) p.nClusters
      fun f => env.error experts g f parts.1)
    liftPE (checkParams p.kplsDim (.fixed (env.nClusters g)) p.tunings.length)
    again { p with nClusters := .fixed (env.nClusters g), recombination := .smooth (some f) }
  else .ok ⟨r, experts, g, data, p⟩

/-- Recombination found by the automatic search (`moe/src/clustering.rs:371-385`). -/
def ofRecomb : Recomb → Recombination
  | .hard => .hard
  | .smoothNone => .smooth none

/-- Number of clusters and recombination (`moe/src/algorithm.rs:84-102`). -/
def resolve (env : Env R G T E) (p : Params G T) (data : List (List R)) : Except Fail (ℕ × Recombination) :=
  match p.nClusters with
  | .auto max => do
    let c ← liftP (findBestNumberOfClusters (env.tries data) data.length (max.getD (data.length / 10 + 1)))
    .ok (c.1, ofRecomb c.2)
  | .fixed nb => .ok (nb, p.recombination)

/-- `factor` (`moe/src/algorithm.rs:129-133`). -/
def factorOf : Recombination → ℚ
  | .smooth (some f) => f
  | .smooth none => 1
  | .hard => 1

/-- Rows used to fit the Gaussian mixture (`moe/src/algorithm.rs:107-114`). -/
def gmmData (p : Params G T) (r : Recombination) (data : List (List R)) : Except Fail (List (List R)) :=
  if r = .smooth none ∧ p.nClusters.isMulti = true then do
    let parts ← liftP (extractPart data 5)
    .ok parts.2
  else .ok data

/-- `gmx` (`moe/src/algorithm.rs:117-135`). -/
def makeGmx (env : Env R G T E) (p : Params G T) (n : ℕ) (r : Recombination) (training : List (List R)) : Except Fail G :=
  match p.gmx with
  | some g => .ok g
  | none => do
    let g ← liftE (env.fitGmm n training)
    .ok (env.scale g (factorOf r))

/-- `train` (`moe/src/algorithm.rs:72-140`). It calls itself through `train_on_clusters`: the first argument bounds the
number of nested calls, exceeding it is an endless recursion (`other`). -/
def train (env : Env R G T E) : ℕ → Params G T → ℕ → List (List R) → Except Fail (Mixture R G T E)
  | 0, _, _, _ => .error (.panic .other)
  | fuel + 1, p, nx, data => do
    let c ← resolve env p data
    let training ← gmmData p c.2 data
    let g ← makeGmx env p c.1 c.2 training
    trainOnClusters env (fun p' => train env fuel p' nx data) p nx data g c.2

/-- `predict_hard` (`moe/src/algorithm.rs:879-888`) at a point. -/
def predictHard (env : Env R G T E) (m : Mixture R G T E) (x : List R) : Except Panic R := do
  let e ← row m.experts (env.assign m.gmx x)
  .ok (env.predict e x)

end Verif.Train
