import Verif.Model.Coego
import Verif.Model.Doe
import Mathlib.Analysis.SpecialFunctions.Log.Base

/-!
# Tuning of the hyperparameters

Model of `/repo/crates/gp/src/parameters.rs`, `/repo/crates/gp/src/optimization.rs` and of the part of
`GpValidParams::fit` that determines `theta` (`/repo/crates/gp/src/algorithm.rs:786-970`), of
`/repo/crates/ego/src/utils/bounds.rs`, of `set_partial_theta_tuning` (`/repo/crates/ego/src/solver/coego.rs:98-126`)
and of the tunings built by `make_clustered_surrogate` (`/repo/crates/ego/src/solver/solver_impl.rs:142-244`).

Conventions. Hyperparameters are real numbers, bounds are positive. The negative likelihood is an arbitrary
function with values in `Flt`, the optimizer an arbitrary function, the random generator a parameter.
-/

set_option autoImplicit false

namespace Verif.Tuning

open Verif

/-- `ThetaTuning` (`gp/src/parameters.rs:14-33`). -/
inductive ThetaTuning where
  | fixed (init : List ℝ)
  | full (init : List ℝ) (bounds : List (ℝ × ℝ))
  | part (init : List ℝ) (bounds : List (ℝ × ℝ)) (active : List ℕ)

/-- `ThetaTuning::DEFAULT_INIT` (`gp/src/parameters.rs:49`). -/
noncomputable def defaultInit : ℝ := 1 / 10

/-- `ThetaTuning::DEFAULT_BOUNDS` (`gp/src/parameters.rs:51`). -/
noncomputable def defaultBounds : ℝ × ℝ := (1 / 100, 10)

/-- `ThetaTuning::default` (`gp/src/parameters.rs:36-44`). -/
noncomputable def ThetaTuning.dflt : ThetaTuning := .full [defaultInit] [defaultBounds]

/-- `ThetaTuning::init` (`gp/src/parameters.rs:54-64`). -/
def ThetaTuning.init : ThetaTuning → List ℝ
  | .fixed i => i
  | .full i _ => i
  | .part i _ _ => i

/-- `ThetaTuning::bounds` (`gp/src/parameters.rs:67-77`). -/
def ThetaTuning.bounds : ThetaTuning → Option (List (ℝ × ℝ))
  | .fixed _ => none
  | .full _ b => some b
  | .part _ b _ => some b

/-- `GP_COBYLA_MIN_EVAL` (`gp/src/algorithm.rs:35`). -/
def minEval : ℕ := 25

/-- `GP_COBYLA_MAX_EVAL` (`gp/src/algorithm.rs:37`). -/
def maxEvalDefault : ℕ := 1000

/-- `GpParams`, the fields used here (`gp/src/parameters.rs:90-105, 163-166`). -/
structure Params where
  tuning : ThetaTuning
  kpls : Option ℕ
  nStart : ℕ
  maxEval : ℕ

/-- `GpValidParams::default` (`gp/src/parameters.rs:110-120`). -/
noncomputable def Params.dflt : Params := ⟨.dflt, none, 10, maxEvalDefault⟩

/-- `GpParams::theta_init` (`gp/src/parameters.rs:205-224`). -/
def Params.thetaInit (p : Params) (init : List ℝ) : Params :=
  { p with tuning := match p.tuning with
    | .full _ b => .full init b
    | .part _ b _ => .full init b
    | .fixed _ => .fixed init }

/-- `GpParams::theta_bounds` (`gp/src/parameters.rs:227-244`). -/
def Params.thetaBounds (p : Params) (bounds : List (ℝ × ℝ)) : Params :=
  { p with tuning := match p.tuning with
    | .full i _ => .full i bounds
    | .part i _ _ => .full i bounds
    | .fixed f => .fixed f }

/-- `GpParams::max_eval` (`gp/src/parameters.rs:261-264`). -/
def Params.setMaxEval (p : Params) (v : ℕ) : Params := { p with maxEval := max minEval v }

/-- `GpParams::check_ref` (`gp/src/parameters.rs:289-307`): `false` is `Err(InvalidValueError)`. -/
def Params.check (p : Params) : Bool :=
  match p.kpls with
  | none => true
  | some d =>
    if d = 0 then false
    else !(decide (1 < p.tuning.init.length) && decide (p.tuning.init.length < d))

variable {α : Type}

/-- One value for all components or one value per component (`gp/src/algorithm.rs:830-838, 901-912`). -/
def expand (dim : ℕ) (l : List α) : Except Panic (List α) :=
  match l with
  | [v] => .ok (List.replicate dim v)
  | l => if l.length = dim then .ok l else .error .other

/-- `theta0.select(Axis(0), &active)` (`gp/src/algorithm.rs:923`). -/
def select (l : List α) : List ℕ → Except Panic (List α)
  | [] => .ok []
  | i :: is => match l[i]? with
    | none => .error .outOfBounds
    | some v => select l is >>= fun r => .ok (v :: r)

/-- Selection of the bounds (`gp/src/algorithm.rs:915-920`): in increasing order of the index. -/
def activeBounds (bounds : List α) (active : List ℕ) : List α :=
  ((bounds.zip (List.range bounds.length)).filter fun p => active.contains p.2).map Prod.fst

/-- `log10`. -/
noncomputable def log10 (v : ℝ) : ℝ := Real.logb 10 v

/-- `base.powf(v)` with `base = 10`. -/
noncomputable def pow10 (v : ℝ) : ℝ := (10 : ℝ) ^ v

/-- `row.assign(&values)` on a row of length `n`: a single value is broadcast. -/
def assignRow (n : ℕ) (values : List α) : Except Panic (List α) :=
  if values.length = n then .ok values
  else match values with
    | [v] => .ok (List.replicate n v)
    | _ => .error .shape

/-- The random generators: numbers of `[0, 1)` for `gen_range` and the designs drawn by the maximin LHS. -/
structure Rng where
  unit : ℕ → ℝ
  first : (ns nx : ℕ) → Doe.Draw ns nx
  others : (ns nx : ℕ) → List (Doe.Draw ns nx)

/-- `rng.gen_range(a..b)`: panics on an empty range. -/
noncomputable def genRange (u : ℝ) (b : ℝ × ℝ) : Except Panic ℝ :=
  if b.1 < b.2 then .ok (u * (b.2 - b.1) + b.1) else .error .other

/-- `Lhs::new(&xlimits).kind(Maximin).sample(n_start)` as a list of rows (`optimization.rs:60-63`). -/
noncomputable def lhsRows (rng : Rng) (n : ℕ) (bounds : List (ℝ × ℝ)) : Except Panic (List (List ℝ)) :=
  Doe.lhsSample (.maximin (rng.first n bounds.length) (rng.others n bounds.length)) >>= fun x =>
    .ok (List.ofFn fun i => List.ofFn
      (Doe.sample (fun j => (bounds.get j).1) (fun j => (bounds.get j).2) x i))

/-- The starting points after the first one (`optimization.rs:41-69`). -/
noncomputable def otherStarts (rng : Rng) (nStart n : ℕ) (bounds : List (ℝ × ℝ)) :
    Except Panic (List (List ℝ)) :=
  match nStart with
  | 0 => .ok []
  | 1 => do
    let vals ← (bounds.zip (List.range bounds.length)).mapM fun p => genRange (rng.unit p.2) p.1
    let row ← assignRow n vals
    .ok [row]
  | k + 2 => do
    let seeds ← lhsRows rng (k + 2) bounds
    seeds.mapM (assignRow n)

/-- `prepare_multistart` (`optimization.rs:26-71`): the starting points and the bounds, on the log10 scale. -/
noncomputable def prepareMultistart (rng : Rng) (nStart : ℕ) (theta0 : List ℝ) (bounds : List (ℝ × ℝ)) :
    Except Panic (List (List ℝ) × List (ℝ × ℝ)) :=
  let bounds := bounds.map fun b => (log10 b.1, log10 b.2)
  otherStarts rng nStart theta0.length bounds >>= fun rows => .ok (theta0.map log10 :: rows, bounds)

/-- The values of a vector if none is NaN (`none`). -/
def allSome : List (Option α) → Option (List α)
  | [] => some []
  | none :: _ => none
  | some v :: r => (allSome r).map (v :: ·)

/-- The function minimized (`gp/src/algorithm.rs:880-897`). `nll` is the negative likelihood, `+inf` if it cannot be
computed; a NaN of the optimizer is `none`. -/
noncomputable def objective (nll : List ℝ → Flt) (theta0 : List ℝ) (active : List ℕ) (x : List (Option ℝ)) :
    Except Panic Flt :=
  Coego.assign (theta0.map some) (active.zip (x.map (Option.map pow10))) >>= fun theta =>
    match allSome theta with
    | none => .ok .pinf
    | some t => .ok (nll t)

/-- `cobyla::minimize`: the function, the start, the bounds and the number of evaluations give a value (`none`
for a failure status) and a point. Its panics are those of the function. -/
abbrev Optimizer := (List (Option ℝ) → Except Panic Flt) → List ℝ → List (ℝ × ℝ) → ℕ → Option Flt × List ℝ

/-- The value kept by `optimize_params` (`optimization.rs:155-167`). -/
def optValue : Option Flt → Flt
  | none => .pinf
  | some .nan => .pinf
  | some v => v

/-- `optimize_params` (`optimization.rs:122-169`). -/
def optimizeParams (opt : Optimizer) (f : List (Option ℝ) → Except Panic Flt) (x0 : List ℝ)
    (bounds : List (ℝ × ℝ)) (maxeval : ℕ) : Flt × List ℝ :=
  (optValue (opt f x0 bounds maxeval).1, (opt f x0 bounds maxeval).2)

/-- `(10 * ncols).clamp(GP_COBYLA_MIN_EVAL, max_eval)` (`gp/src/algorithm.rs:936-937`): panics if the limits are in the
wrong order. -/
def evalLimit (ncols maxEval : ℕ) : Except Panic ℕ :=
  if minEval ≤ maxEval then .ok (max minEval (min (10 * ncols) maxEval)) else .error .other

/-- What the code depends on outside of it: likelihood, optimizer, random numbers, distribution of the starts
among threads. -/
structure Env where
  nll : List ℝ → Flt
  opt : Optimizer
  rng : Rng
  split : List (Flt × List ℝ) → Coego.Split (Flt × List ℝ)

/-- The optimization of the active components (`gp/src/algorithm.rs:879-947`). -/
noncomputable def optimizeActive (env : Env) (dim nStart maxEval : ℕ) (theta0 : List ℝ)
    (bounds : List (ℝ × ℝ)) (active : List ℕ) : Except Panic (List ℝ) := do
  let bounds ← expand dim bounds
  let init ← select theta0 active
  let ms ← prepareMultistart env.rng nStart init (activeBounds bounds active)
  let limit ← evalLimit init.length maxEval
  let results := ms.1.map fun x0 =>
    optimizeParams env.opt (objective env.nll theta0 active) x0 ms.2 limit
  let best := (env.split results).reduce (List.replicate init.length 1)
  .ok (best.2.map pow10)

/-- `theta` of the fitted model (`gp/src/algorithm.rs:815-970`) for `dim` hyperparameters. -/
noncomputable def fitTheta (env : Env) (dim nStart maxEval : ℕ) : ThetaTuning → Except Panic (List ℝ)
  | .fixed init => expand dim init >>= fun _ => .ok init
  | .full init bounds => do
    let theta0 ← expand dim init
    optimizeActive env dim nStart maxEval theta0 bounds (List.range dim)
  | .part init bounds active => do
    let theta0 ← expand dim init
    let opt ← optimizeActive env dim nStart maxEval theta0 bounds active
    Coego.assign init (active.zip opt)

/-- Number of hyperparameters (`gp/src/algorithm.rs:798-813`): `none` is `Err(InvalidValueError)`. -/
def fitDim (kpls : Option ℕ) (ncols : ℕ) : Option ℕ :=
  match kpls with
  | none => some ncols
  | some d => if ncols < d then none else some d

/-- `fit` of `GpParams` (check, then fit) as far as `theta` is concerned; `none` is an `Err`. -/
noncomputable def fit (env : Env) (p : Params) (ncols : ℕ) : Except Panic (Option (List ℝ)) :=
  if p.check then
    match fitDim p.kpls ncols with
    | none => .ok none
    | some dim => fitTheta env dim p.nStart p.maxEval p.tuning >>= fun t => .ok (some t)
  else .ok none

/-! ## Tunings used by the optimizer -/

/-- The flags of `CorrelationSpec`. -/
structure CorrSpec where
  squaredExponential : Bool
  absoluteExponential : Bool
  matern32 : Bool
  matern52 : Bool

/-- `theta_influence_factors` (`correlation_models.rs:143-145, 235-237, 314-316, 485-487`). -/
noncomputable def influenceSe : ℝ × ℝ := (29 / 100, 196 / 100)
noncomputable def influenceAbs : ℝ × ℝ := (15 / 100, 376 / 100)
noncomputable def influenceM32 : ℝ × ℝ := (21 / 100, 274 / 100)

/-- One of the successive updates of `special_bounds` (`bounds.rs:39-62`). -/
noncomputable def widen (c : Bool) (influence b : ℝ × ℝ) : ℝ × ℝ :=
  if c then (min b.1 influence.1, max b.2 influence.2) else b

/-- `special_bounds` (`bounds.rs:34-85`); the flag of Matern 3/2 is tested twice, the one of Matern 5/2 is
not. -/
noncomputable def specialBounds (dim : ℕ) (spec : CorrSpec) : ℝ × ℝ :=
  let f := widen spec.squaredExponential influenceSe defaultBounds
  let f := widen spec.absoluteExponential influenceAbs f
  let f := widen spec.matern32 influenceM32 f
  let f := widen spec.matern32 influenceM32 f
  if dim < 10 then defaultBounds
  else
    let d : ℝ := dim
    let s := 1 / √12
    let k : ℝ := 9 / 5
    let interval := 196 / 100 * √(2 * (k + 1) * d)
    let rmin := √(2 * d - interval)
    let rmax := √(2 * d + interval)
    (1 / (s * rmax * f.2), 1 / (s * rmin * f.1))

open Classical in
/-- `theta_bounds` (`bounds.rs:5-30`). -/
noncomputable def egorBounds (tuning : ThetaTuning) (dim : ℕ) (spec : CorrSpec) : List (ℝ × ℝ) :=
  match tuning.bounds with
  | some [b] => if b = defaultBounds then [specialBounds dim spec] else [b]
  | some bs => bs
  | none => [specialBounds dim spec]

/-- `set_partial_theta_tuning` (`coego.rs:98-126`), for one tuning. -/
noncomputable def partialTuning (active : List ℕ) : ThetaTuning → ThetaTuning
  | .fixed init => .part init (List.replicate init.length defaultBounds) (Coego.strip active init.length)
  | .full init bounds => .part init bounds (Coego.strip active init.length)
  | .part init bounds _ => .part init bounds (Coego.strip active init.length)

/-- The tuning of one expert in `make_clustered_surrogate` with a fixed number of clusters
(`solver_impl.rs:162-244`): `init` is the row of `best_theta_inits` of the expert. -/
noncomputable def egorTuning (user : ThetaTuning) (dim : ℕ) (spec : CorrSpec) (makeClustering optimizeTheta coego : Bool)
    (active : List ℕ) (init : List ℝ) : ThetaTuning :=
  let bounds := egorBounds user dim spec
  if makeClustering then .part init bounds (Coego.strip active init.length)
  else if optimizeTheta then
    if coego then partialTuning active (.full init bounds) else .full init bounds
  else .fixed init

/-- The same for any number of clusters: with an automatic number of clusters, the tunings of the builder, which are
the default ones (`moe/src/parameters.rs:150`), are left when clustering is done (`solver_impl.rs:165-170`). -/
noncomputable def egorTuningAny (auto : Bool) (user : ThetaTuning) (dim : ℕ) (spec : CorrSpec)
    (makeClustering optimizeTheta coego : Bool) (active : List ℕ) (init : List ℝ) : ThetaTuning :=
  if auto && makeClustering then ThetaTuning.dflt
  else egorTuning user dim spec makeClustering optimizeTheta coego active init

/-- First row of `best_theta_inits` when there is no previous value (`solver_impl.rs:144-154`): `assign` on a row
of length `dim`. -/
def egorInit (user : ThetaTuning) (dim : ℕ) : Except Panic (List ℝ) := assignRow dim user.init

end Verif.Tuning
