import Verif.Model.FindResult
import Mathlib.Data.List.Sort

/-!
# Mixture of experts: discrete part

Splitting of data by clusters, checks, selection of experts, automatic choice of the number of clusters,
choice of the heaviside factor (`/repo/crates/moe/src`).

Gaussian mixture training, Gaussian process training and predictions are parameters.
-/

set_option autoImplicit false

namespace Verif.Moe

open Verif

/-- `ClusteringError` and `ExpertError` of `errors.rs`. -/
inductive MoeErr
  | clustering
  | expert
  | invalid
deriving DecidableEq, Repr

/-! ## Splitting data -/

section Split
variable {α : Type}

/-- `dataset_clustering.iter().enumerate().filter_map(|(k, i)| if *i == n {Some(k)} else {None})`
(`moe/src/clustering.rs:41-45`). -/
def indicesOf (n : ℕ) (labels : List ℕ) : List ℕ :=
  (labels.zipIdx).filterMap fun p => if p.1 = n then some p.2 else none

/-- `data.row(k)`: panics when out of bounds. -/
def row (data : List α) (k : ℕ) : Except Panic α :=
  match data[k]? with
  | some r => .ok r
  | none => .error .outOfBounds

/-- `sort_by_cluster` (`moe/src/clustering.rs:33-56`); a row of data is any value of `α`. -/
def sortByCluster (nClusters : ℕ) (data : List α) (labels : List ℕ) : Except Panic (List (List α)) :=
  (List.range nClusters).mapM fun n => (indicesOf n labels).mapM (row data)

/-- Indices of the test part (`moe/src/algorithm.rs:1117`): `Array1::range(0., n as f32, q as f32)` has
`ceil(n / q)` elements `0, q, 2q, ...`; a null step panics. Simplification: `f32` is exact (true below
2^24 samples). -/
def testIndices (n q : ℕ) : Except Panic (List ℕ) :=
  if q = 0 then .error .other else .ok ((List.range ((n + q - 1) / q)).map (· * q))

/-- `extract_part` (`moe/src/algorithm.rs:1111-1121`). -/
def extractPart (data : List α) (q : ℕ) : Except Panic (List α × List α) := do
  let ti ← testIndices data.length q
  let test ← ti.mapM (row data)
  let train ← ((List.range data.length).filter fun i => i % q ≠ 0).mapM (row data)
  .ok (test, train)

end Split

/-! ## Specifications -/

/-- Mean models, in the order of `find_best_expert` (`moe/src/algorithm.rs:220-222`). -/
inductive MeanKind
  | constant
  | linear
  | quadratic
deriving DecidableEq, Repr

/-- Correlation models, in the order of `find_best_expert` (`moe/src/algorithm.rs:225-238`). -/
inductive CorrKind
  | squaredExponential
  | absoluteExponential
  | matern32
  | matern52
deriving DecidableEq, Repr

/-- Bit flags `RegressionSpec` (`moe/src/types.rs:43-64`): one boolean per bit. -/
structure RegressionSpec where
  constant : Bool
  linear : Bool
  quadratic : Bool
deriving DecidableEq, Repr

/-- Bit flags `CorrelationSpec` (`moe/src/types.rs:66-91`): one boolean per bit. -/
structure CorrelationSpec where
  squaredExponential : Bool
  absoluteExponential : Bool
  matern32 : Bool
  matern52 : Bool
deriving DecidableEq, Repr

/-- `contains` of the flag of a mean model. -/
def RegressionSpec.contains (s : RegressionSpec) : MeanKind → Bool
  | .constant => s.constant
  | .linear => s.linear
  | .quadratic => s.quadratic

/-- `contains` of the flag of a correlation model. -/
def CorrelationSpec.contains (s : CorrelationSpec) : CorrKind → Bool
  | .squaredExponential => s.squaredExponential
  | .absoluteExponential => s.absoluteExponential
  | .matern32 => s.matern32
  | .matern52 => s.matern52

/-- `allowed_means` (`moe/src/algorithm.rs:219-222`). -/
def allowedMeans (s : RegressionSpec) : List MeanKind :=
  [MeanKind.constant, .linear, .quadratic].filter s.contains

/-- `allowed_corrs` (`moe/src/algorithm.rs:224-238`). -/
def allowedCorrs (s : CorrelationSpec) : List CorrKind :=
  [CorrKind.squaredExponential, .absoluteExponential, .matern32, .matern52].filter s.contains

/-! ## Number of points -/

/-- Required number of points (`moe/src/algorithm.rs:387-393`). -/
def minNumberPoint (dim : ℕ) (regr : RegressionSpec) : ℕ :=
  if regr.quadratic then (dim + 1) * (dim + 2) / 2
  else if regr.linear then dim + 1
  else 1

/-- `check_number_of_points` (`moe/src/algorithm.rs:381-405`). `cluster.len()` is the number of elements of the
array, that is number of rows times number of columns. -/
def checkNumberOfPoints {α : Type} (clusters : List (Mat α)) (dim : ℕ) (regr : RegressionSpec) :
    Except MoeErr Unit :=
  if clusters.length > 1 then
    if clusters.any fun c => decide (c.rows.length * c.ncols < minNumberPoint dim regr) then
      .error .clustering
    else .ok ()
  else .ok ()

/-- The check made before training each expert (`moe/src/algorithm.rs:162-168`), for all clusters. Simplification:
in the code the experts of preceding clusters are trained before the check of a cluster. -/
def checkThree {α : Type} (clusters : List (Mat α)) : Except MoeErr Unit :=
  if clusters.any fun c => decide (clusters.length > 1) && decide (c.rows.length < 3) then .error .clustering
  else .ok ()

/-- Both checks of `train_on_clusters` (`moe/src/algorithm.rs:155-168`). -/
def checkClusters {α : Type} (clusters : List (Mat α)) (dim : ℕ) (regr : RegressionSpec) :
    Except MoeErr Unit := do
  checkNumberOfPoints clusters dim regr
  checkThree clusters

/-! ## Selection of experts -/

/-- `Iterator::min_by(|a, b| a.partial_cmp(b).unwrap_or(Equal))` on indexed errors
(`moe/src/algorithm.rs:247-252`): the current one is replaced only when it compares `Greater`. -/
def minByLoop (cur : Flt) (ci i : ℕ) : List Flt → ℕ
  | [] => ci
  | e :: es => if Flt.gt cur e then minByLoop e i (i + 1) es else minByLoop cur ci (i + 1) es

/-- As above, `None` when there are no elements. -/
def minBy : List Flt → Option ℕ
  | [] => none
  | e :: es => some (minByLoop e 0 1 es)

/-- `compute_error!` (`expertise_macros.rs:14-51`): `cv` is the mean cross validation error, a parameter
which may panic (`fit(..).unwrap()`). -/
def computeError (nsamples dim : ℕ) (cv : MeanKind → CorrKind → Except Panic Flt) (m : MeanKind)
    (c : CorrKind) : Except Panic Flt :=
  let nFold := min nsamples 5
  if nFold < 4 * dim ∧ m = .quadratic then .ok .pinf
  else if nFold < 3 * dim ∧ m = .linear then .ok .pinf
  else cv m c

/-- Combinations in the order in which `compute_errors!` pushes them (`expertise_macros.rs:53-130`). -/
def combos (means : List MeanKind) (corrs : List CorrKind) : List (MeanKind × CorrKind) :=
  means.flatMap fun m => corrs.map fun c => (m, c)

/-- `map_error[argmin].0` (`moe/src/algorithm.rs:247-253`). -/
def pick (cs : List (MeanKind × CorrKind)) (errs : List Flt) : Except Panic (MeanKind × CorrKind) :=
  match minBy errs with
  | none => .error .emptyReduction
  | some i => row cs i

/-- Name of the best expert (`moe/src/algorithm.rs:240-254`). -/
def bestExpert (rs : RegressionSpec) (cs : CorrelationSpec) (nsamples dim : ℕ)
    (cv : MeanKind → CorrKind → Except Panic Flt) : Except Panic (MeanKind × CorrKind) :=
  match allowedMeans rs, allowedCorrs cs with
  | [m], [c] => .ok (m, c)
  | ms, ks => do
    let errs ← (combos ms ks).mapM fun p => computeError nsamples dim cv p.1 p.2
    pick (combos ms ks) errs

/-- `GpType` (`moe/src/parameters.rs`). -/
inductive GpType
  | full
  | sparse
deriving DecidableEq, Repr

/-- Dispatch on the type of GP (`moe/src/algorithm.rs:257-335`): sparse GP only knows the constant mean. -/
def dispatchExpert (g : GpType) (p : MeanKind × CorrKind) : Except MoeErr (MeanKind × CorrKind) :=
  match g with
  | .full => .ok p
  | .sparse => if p.1 = .constant then .ok p else .error .expert

/-- Which mean and correlation models `find_best_expert` trains (`moe/src/algorithm.rs:209-347`). -/
def findBestExpert (g : GpType) (rs : RegressionSpec) (cs : CorrelationSpec) (nsamples dim : ℕ)
    (cv : MeanKind → CorrKind → Except Panic Flt) :
    Except Panic (Except MoeErr (MeanKind × CorrKind)) := do
  let p ← bestExpert rs cs nsamples dim cv
  .ok (dispatchExpert g p)

/-- Hyperparameter tuning given to the expert of cluster `nc` (`moe/src/algorithm.rs:297-302`). -/
def tuningOf {T : Type} (tunings : List T) (nc : ℕ) : Except Panic T :=
  if nc > 0 ∧ tunings.length = 1 then row tunings 0 else row tunings nc

/-! ## Number of clusters -/

/-- `NbClusters` (`moe/src/parameters.rs:26-38`). -/
inductive NbClusters
  | fixed (nb : ℕ)
  | auto (max : Option ℕ)
deriving DecidableEq, Repr

/-- `is_mono` (`moe/src/parameters.rs:75-83`). -/
def NbClusters.isMono : NbClusters → Bool
  | .fixed nb => nb == 1
  | .auto _ => false

/-- `is_multi` (`moe/src/parameters.rs:84-92`). -/
def NbClusters.isMulti : NbClusters → Bool
  | .fixed nb => decide (nb > 1)
  | .auto _ => false

/-- `GpMixtureParams::check_ref` (`moe/src/parameters.rs:342-362`). -/
def checkParams (kplsDim : Option ℕ) (n : NbClusters) (nTunings : ℕ) : Except Panic (Except MoeErr Unit) :=
  if kplsDim = some 0 then .ok (.error .invalid)
  else if n.isMulti && nTunings == 1 then .ok (.ok ())
  else match n with
    | .fixed nb => if nb ≠ nTunings then .error .other else .ok (.ok ())
    | .auto _ => .ok (.ok ())

/-! ## Automatic number of clusters -/

/-- `Recombination` (`moe/src/types.rs:20-28`), the factor being irrelevant here except its absence. -/
inductive Recomb
  | hard
  | smoothNone
deriving DecidableEq, Repr

/-- Division by a positive number of elements. -/
def divNat (a : Flt) (n : ℕ) : Flt :=
  match a with
  | .fin q => .fin (q / n)
  | x => x

/-- Quotient of two `f64` (no rounding) when the denominator is non negative. -/
def divFlt (a b : Flt) : Flt :=
  match a, b with
  | .nan, _ => .nan
  | _, .nan => .nan
  | .fin _, .pinf => .fin 0
  | .fin _, .ninf => .fin 0
  | .fin a, .fin b => if b = 0 then (if a = 0 then .nan else if 0 < a then .pinf else .ninf) else .fin (a / b)
  | .pinf, .fin _ => .pinf
  | .ninf, .fin _ => .ninf
  | _, _ => .nan

/-- Sum of floats. -/
def sumFlt (l : List Flt) : Flt := l.foldl Flt.add .zero

/-- The order used to sort: the one of `partial_cmp` where it is defined. -/
def leFlt (a b : Flt) : Bool := a == .nan || (b != .nan && (Flt.lt a b || Flt.feq a b))

/-- `median` (`moe/src/clustering.rs:19-29`): sorting panics on NaN (as soon as there is something to compare), an
empty list panics. -/
def median (v : List Flt) : Except Panic Flt :=
  if 2 ≤ v.length ∧ Flt.nan ∈ v then .error .undefinedOrder
  else
    let s := v.insertionSort fun a b => leFlt a b = true
    if s.length % 2 = 0 then
      match s[s.length / 2 - 1]?, s[s.length / 2]? with
      | some a, some b => .ok (divNat (Flt.add (Flt.add .zero a) b) 2)
      | _, _ => .error .outOfBounds
    else row s (s.length / 2)

/-- One fold of the cross validation with a given number of clusters. -/
inductive Fold
  /-- `fit` returned an error -/
  | fitFailed
  /-- number of elements of each cluster of the training part; actual values; predictions with hard and
  smooth recombination (`none`: `predict` returned an error) -/
  | fitted (clusterLens : List ℕ) (actual : List Flt) (hard smooth : Option (List Flt))

/-- A try with a given number of clusters: the Gaussian mixture could not be trained, or the folds. -/
inductive Try
  | gmmFailed
  | folds (l : List Fold)

/-- `Σ |pred - actual|`. -/
def absErr (pred actual : List Flt) : Flt := sumFlt (List.zipWith (fun p a => Flt.abs (Flt.sub p a)) pred actual)

/-- Infinite value. -/
def isInf (a : Flt) : Bool := a == .pinf || a == .ninf

/-- Hard error and whether this try remains possible (`moe/src/clustering.rs:165-194`). -/
def hardError (pred : Option (List Flt)) (actual : List Flt) : Flt × Bool :=
  match pred with
  | none => (.fin 1, false)
  | some p =>
    if p.any isInf then (.fin 1, true)
    else if p.any (· == .nan) then (.fin 1, false)
    else (divFlt (absErr p actual) (sumFlt (actual.map Flt.abs)), true)

/-- Smooth error (`moe/src/clustering.rs:196-221`): not divided by the sum of absolute actual values. -/
def smoothError (pred : Option (List Flt)) (actual : List Flt) : Flt × Bool :=
  match pred with
  | none => (.fin 1, false)
  | some p =>
    if p.any isInf then (.fin 1, true)
    else if p.any (· == .nan) then (.fin 1, false)
    else (absErr p actual, true)

/-- `h_error`, `s_error` and `ok` of a fold with `n` clusters (`moe/src/clustering.rs:143-230`). -/
def foldErrors : Fold → Flt × Flt × Bool
  | .fitFailed => (.fin 1, .fin 1, false)
  | .fitted lens actual hard smooth =>
    ((hardError hard actual).1, (smoothError smooth actual).1,
      lens.all (fun l => decide (l > 3)) && (hardError hard actual).2 && (smoothError smooth actual).2)

/-- Hard errors, smooth errors and `ok` of a try (`moe/src/clustering.rs:107-245`). -/
def tryErrors : Try → List Flt × List Flt × Bool
  | .gmmFailed => ([], [], true)
  | .folds l =>
    (l.map fun f => (foldErrors f).1, l.map fun f => (foldErrors f).2.1, l.all fun f => (foldErrors f).2.2)

/-- State of the search: median errors and possible numbers (minus one). -/
structure SearchState where
  medH : List Flt
  medS : List Flt
  oks : List ℕ
deriving DecidableEq, Repr

/-- `a >= b`. -/
def geFlt (a b : Flt) : Bool := Flt.gt a b || Flt.feq a b

/-- The stopping rule (`moe/src/clustering.rs:276-287`): `stop` computed from the medians overwrites the one
computed from the failures (`moe/src/clustering.rs:270-275`), hence the latter is not modelled. -/
def stops (i : ℕ) (medH medS : List Flt) : Bool :=
  decide (i > 3) &&
    (geFlt (medH.getD (i - 1) .nan) (medH.getD (i - 2) .nan) &&
      geFlt (medS.getD (i - 1) .nan) (medS.getD (i - 2) .nan) &&
      geFlt (medH.getD i .nan) (medH.getD (i - 1) .nan) &&
      geFlt (medS.getD i .nan) (medS.getD (i - 1) .nan))

/-- One pass of the loop (`moe/src/clustering.rs:99-301`). -/
def searchStep (t : Try) (i : ℕ) (s : SearchState) : Except Panic SearchState := do
  let e := tryErrors t
  let ms ← median e.2.1
  let mh ← median e.1
  .ok ⟨s.medH ++ [mh], s.medS ++ [ms],
    if e.2.2 && !e.2.1.isEmpty && !e.1.isEmpty then s.oks ++ [i] else s.oks⟩

/-- The loop `while i < max_nb_clusters && !stop` with `fuel = max_nb_clusters - i`. `tries i` is the
result of the try with `i + 1` clusters. -/
def searchLoop (tries : ℕ → Try) : ℕ → ℕ → SearchState → Except Panic SearchState
  | 0, _, s => .ok s
  | fuel + 1, i, s => do
    let s' ← searchStep (tries i) i s
    if stops i s'.medH s'.medS then .ok s' else searchLoop tries fuel (i + 1) s'

/-- The minimization loop (`moe/src/clustering.rs:329-349`) for one of the errors. -/
def minLoop (med : List Flt) (minErr : Flt) (best : ℕ) : List ℕ → ℕ
  | [] => best
  | k :: ks =>
    if Flt.gt minErr (med.getD k .nan) then minLoop med (med.getD k .nan) (k + 1) ks
    else minLoop med minErr best ks

/-- Final choice (`moe/src/clustering.rs:302-385`). -/
def choose (s : SearchState) : ℕ × Recomb :=
  match s.oks with
  | [] => (1, .smoothNone)
  | k0 :: ks =>
    let h := minLoop s.medH (s.medH.getD k0 .nan) 1 (k0 :: ks)
    let sm := minLoop s.medS (s.medS.getD k0 .nan) 1 (k0 :: ks)
    if Flt.lt (s.medH.getD (h - 1) .nan) (s.medS.getD (sm - 1) .nan) then (h, .hard)
    else (sm, .smoothNone)

/-- `max_nb_clusters` (`moe/src/clustering.rs:69-73`). -/
def maxClusters (nrows max : ℕ) : ℕ := if max = 0 then nrows / 10 + 1 else max

/-- `find_best_number_of_clusters` (`moe/src/clustering.rs:59-386`). -/
def findBestNumberOfClusters (tries : ℕ → Try) (nrows max : ℕ) : Except Panic (ℕ × Recomb) := do
  let s ← searchLoop tries (maxClusters nrows max) 0 ⟨[], [], []⟩
  .ok (choose s)

/-! ## Heaviside factor -/

/-- `Array1::linspace(0.1, 2.1, 20)` (`moe/src/algorithm.rs:363`). -/
def scaleFactors : List ℚ := (List.range 20).map fun k : ℕ => (1 / 10 + (k : ℚ) * (2 / 19) : ℚ)

/-- `errors.max().unwrap()`: a float, an error on NaN. -/
def maxLoop (cur : Flt) : List Flt → Except Panic Flt
  | [] => .ok cur
  | e :: es =>
    match Flt.cmp e cur with
    | none => .error .undefinedOrder
    | some .gt => maxLoop e es
    | some _ => maxLoop cur es

/-- `max` of `ndarray_stats`. -/
def maxFlt : List Flt → Except Panic Flt
  | [] => .error .emptyReduction
  | e :: es => maxLoop e (e :: es)

/-- The end of `optimize_heaviside_factor` (`moe/src/algorithm.rs:371-376`). -/
def chooseFactor (i : ℕ) (mx : Flt) : Except Panic ℚ :=
  if Flt.lt mx (.fin (1 / 1000000)) then .ok 1 else row scaleFactors i

/-- `optimize_heaviside_factor` (`moe/src/algorithm.rs:353-378`). `err` is the error for a factor. -/
def optimizeHeavisideFactor (hard : Bool) (n : NbClusters) (err : ℚ → Flt) : Except Panic ℚ :=
  if hard || n.isMono then .ok 1
  else do
    let i ← FindResult.argmin (scaleFactors.map err)
    let mx ← maxFlt (scaleFactors.map err)
    chooseFactor i mx

end Verif.Moe
