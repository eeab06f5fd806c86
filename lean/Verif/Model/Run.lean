import Verif.Model.FindResult
import Verif.Model.MixInt
import Mathlib.Data.Rat.Floor

/-!
# The optimization run

Model of the data and bookkeeping side of a run: `/repo/crates/ego/src/utils/misc.rs` (`update_data`),
`/repo/crates/ego/src/solver/solver_impl.rs` (`ego_step`, `select_next_points`),
`/repo/crates/ego/src/solver/trego.rs` (`trego_step`), `/repo/crates/ego/src/solver/egor_solver.rs`
(`init`, `next_iter`, `ego_iteration`, `trego_iteration`), `/repo/crates/ego/src/solver/egor_state.rs`
(`update`) and of the loop of `argmin::core::Executor::run` which drives them.

What the surrogates and the inner optimizers propose (points, predicted outputs, scaling factors) is an
arbitrary input (`Oracle`), one per iteration. Inputs are exact rationals, outputs are `Flt`.
Simplifications: the user's objective is a function of one point (the code calls it on batches of
points); surrogates, clusterings, theta, random generators and infill values kept in the state are left
out; best indices are `ℕ` and not `Option<usize>` (always `Some` after `init`).
-/

set_option autoImplicit false

namespace Verif

/-- `a / b` on `f64`, without rounding. Simplification: a zero divisor is `+0`. -/
def Flt.div : Flt → Flt → Flt
  | nan, _ => nan
  | _, nan => nan
  | fin a, fin b =>
    if b = 0 then (if a = 0 then nan else if a < 0 then ninf else pinf) else fin (a / b)
  | fin _, _ => fin 0
  | pinf, fin b => if b < 0 then ninf else pinf
  | ninf, fin b => if b < 0 then pinf else ninf
  | _, _ => nan

namespace Run

open FindResult MixInt

/-! ## Data -/

/-- Data of the state: inputs, outputs (objective then constraints), values of the function constraints
(`egor_state.rs`, `data: Option<(Array2, Array2, Array2)>`). -/
structure Data where
  x : List (List ℚ)
  y : Mat Flt
  c : Mat Flt

/-- One row of candidate inputs, outputs and function constraint values. -/
structure Pt where
  x : List ℚ
  y : List Flt
  c : List Flt

/-- `100. * f64::EPSILON` (`misc.rs:49`). -/
def minDist : ℚ := 100 / 2 ^ 52

/-- `row.l1_dist(x_new).unwrap()` (`misc.rs:49`): `ndarray_stats` fails on empty or different shapes. -/
def l1dist (a b : List ℚ) : Except Panic ℚ :=
  if a = [] then .error .emptyReduction
  else if a.length ≠ b.length then .error .shape
  else .ok (List.zipWith (fun u v => |u - v|) a b).sum

/-- `is_update_ok` (`misc.rs:44-54`). -/
def isUpdateOk (x : List ℚ) : List (List ℚ) → Except Panic Bool
  | [] => .ok true
  | r :: rs => do
    let d ← l1dist r x
    if d < minDist then .ok false else isUpdateOk x rs

/-- `concatenate![Axis(0), m, row]` (`misc.rs:76-78`). -/
def pushRow (m : Mat Flt) (r : List Flt) : Except Panic (Mat Flt) :=
  if r.length = m.ncols then .ok ⟨m.ncols, m.rows ++ [r]⟩ else .error .shape

/-- `update_data` (`misc.rs:59-83`). `idx` is the running index of the `Zip`. Simplification: candidates
are triples, so that the three matrices of candidates have the same number of rows. -/
def updateData (d : Data) (idx : ℕ) : List Pt → Except Panic (Data × List ℕ)
  | [] => .ok (d, [])
  | p :: ps => do
    let ok ← isUpdateOk p.x d.x
    if ok then do
      let y ← pushRow d.y p.y
      let c ← pushRow d.c p.c
      let r ← updateData ⟨d.x ++ [p.x], y, c⟩ (idx + 1) ps
      .ok (r.1, idx :: r.2)
    else updateData d (idx + 1) ps

/-! ## Problem, configuration, state -/

/-- The user's problem: objective (with output constraints) and function constraints. -/
structure Prob where
  f : List ℚ → List Flt
  g : List (List ℚ → Flt)

/-- Part of `ValidEgorConfig` used here, with the tolerances of the state (`egor_solver.rs:269-272`)
and the environment variable `EGOR_USE_MAX_PROBA_OF_FEASIBILITY`. -/
structure Cfg where
  xtypes : List (XType ℚ)
  qPoints : ℕ
  nOut : ℕ
  tol : List Flt
  maxIters : ℕ
  target : Flt
  usePof : Bool
  trego : Bool
  nLocalSteps : ℕ
  gamma : ℚ
  beta : ℚ
  recorder : Bool

/-- `discrete` (`misc.rs:85-89`). -/
def isDiscrete (ts : List (XType ℚ)) : Bool :=
  ts.any fun t => match t with
    | .float _ _ => false
    | _ => true

/-- One sample of the run recorder (`run_recorder.rs:83-86`). -/
structure Sample where
  loc : List ℚ
  val : Flt
deriving DecidableEq

/-- `EgorState`. `initial` and `history` are the initial samples and the search iterations of the run
recorder; `calls` is a ghost field: the inputs given to the user's objective so far, in order. -/
structure St where
  data : Data
  best : ℕ
  prevBest : ℕ
  feasible : Bool
  added : ℕ
  prevAdded : ℕ
  retries : ℕ
  doeSize : ℕ
  iter : ℕ
  maxIters : ℕ
  lastBestIter : ℕ
  sigma : ℚ
  prevStepEgo : Bool
  converged : Bool
  bestParam : Option (List ℚ)
  bestCost : Option (List Flt)
  initial : List Sample
  history : List (List Sample)
  calls : List (List ℚ)

/-- `MAX_POINT_ADDITION_RETRY` (`egor_state.rs`). -/
def maxRetry : ℕ := 3

/-! ## Evaluation of the user's functions -/

/-- Input given to the user's objective for a point of the relaxed space (`solver_computations.rs:483-490`). -/
def userInput (cfg : Cfg) (x : List ℚ) : Except Panic (List ℚ) :=
  if isDiscrete cfg.xtypes then toDiscreteSpace cfg.xtypes x else .ok x

/-- `eval_obj` (`solver_computations.rs:478-493`), with the inputs given to the user's function. -/
def evalObj (cfg : Cfg) (P : Prob) (xs : List (List ℚ)) : Except Panic (List (List ℚ) × List (List Flt)) := do
  let us ← xs.mapM (userInput cfg)
  .ok (us, us.map P.f)

/-- Function constraints at one point (`solver_computations.rs:507-524`): in the discrete case
`to_discrete_space` is computed, its result is dropped and the constraint gets the relaxed point. -/
def evalFcstr (cfg : Cfg) (P : Prob) (x : List ℚ) : Except Panic (List Flt) := do
  let _ ← userInput cfg x
  .ok (P.g.map fun g => g x)

/-- Scaled function constraints at a selected point (`solver_impl.rs:716-741, 769-772`); same remark on
the discrete case (`solver_impl.rs:725-738`). `scale_fcstr[i]` panics if there is no such factor. -/
def scaledFcstr (cfg : Cfg) (P : Prob) (x : List ℚ) (scale : List Flt) : Except Panic (List Flt) := do
  if scale.length < P.g.length then .error .outOfBounds
  else do
    let _ ← userInput cfg x
    .ok (List.zipWith (fun g s => Flt.div (g x) s) P.g scale)

/-! ## EGO step -/

/-- What the optimizer returns for one point of a batch: the point, its predicted outputs
(`compute_virtual_point`) and the scaling factors of the function constraints (`compute_scaling`). -/
structure Cand where
  x : List ℚ
  y : List Flt
  scale : List Flt

/-- Loop on the points of a batch (`solver_impl.rs:622-791`): it stops at the first point without
prediction (`none`). -/
def batchLoop (cfg : Cfg) (P : Prob) (o : ℕ → Option Cand) (i : ℕ) : ℕ → Except Panic (List Pt)
  | 0 => .ok []
  | n + 1 =>
    match o i with
    | none => .ok []
    | some k => do
      let c ← scaledFcstr cfg P k.x k.scale
      let r ← batchLoop cfg P o (i + 1) n
      .ok (⟨k.x, k.y, c⟩ :: r)

/-- `select_next_points` (`solver_impl.rs:562-807`) without portfolio (`EGOR_USE_GP_VAR_PORTFOLIO` unset). -/
def selectNextPoints (cfg : Cfg) (P : Prob) (o : ℕ → Option Cand) : Except Panic (List Pt) :=
  batchLoop cfg P o 0 cfg.qPoints

/-- Result of the loop of `ego_step`. -/
inductive LoopRes
  /-- some points were added: data, number of added points -/
  | added (d : Data) (n : ℕ)
  /-- no more point to add -/
  | noMore (d : Data)

/-- Loop of `ego_step` (`solver_impl.rs:426-516`). `k` numbers the attempts, the last argument is
`no_point_added_retries` (an `i32` in the code, reset to 3 after each successful step, see
`Verif.Lemmas.Run`: it is 3 whenever the loop is entered; a loop entered with 0 is not modelled).
An empty proposal panics on `x_dat.row(0)` (line 471). -/
def egoLoop (cfg : Cfg) (P : Prob) (sel : ℕ → ℕ → Option Cand) (d : Data) (k : ℕ) :
    ℕ → Except Panic LoopRes
  | 0 => .error .other
  | r + 1 => do
    let ps ← selectNextPoints cfg P (sel k)
    let u ← updateData d 0 ps
    if ps.isEmpty then .error .outOfBounds
    else if ps.length - u.2.length = ps.length then
      if r = 0 then .ok (.noMore u.1) else egoLoop cfg P sel u.1 (k + 1) r
    else .ok (.added u.1 (ps.length - (ps.length - u.2.length)))

/-- `y.assign(&val)` of rows (`solver_impl.rs:535-537`): `ndarray` broadcasts a row of length 1. -/
def assignRow (ncols : ℕ) (v : List Flt) : Except Panic (List Flt) :=
  if v.length = ncols then .ok v
  else match v with
    | [a] => .ok (List.replicate ncols a)
    | _ => .error .shape

/-- Outcome of an iteration step. -/
inductive StepRes
  | ok (s : St)
  /-- `NoMorePointToAddError` -/
  | noMore (s : St)

/-- Row of the concatenated outputs; indexing panics. -/
def row (m : Mat Flt) (i : ℕ) : Except Panic (List Flt) :=
  match m.rows[i]? with
  | some r => .ok r
  | none => .error .outOfBounds

/-- Feasibility flag (`solver_impl.rs:548-553`, `trego.rs:189-194`), short-circuit `||`. -/
def updFeasible (old : Bool) (d : Data) (i : ℕ) (tol : List Flt) : Except Panic Bool := do
  if old then .ok true
  else do
    let y ← row d.y i
    let c ← row d.c i
    isFeasible y c tol

/-- `ego_step` (`solver_impl.rs:398-555`). -/
def egoStep (cfg : Cfg) (P : Prob) (sel : ℕ → ℕ → Option Cand) (s : St) : Except Panic StepRes := do
  let l ← egoLoop cfg P sel s.data 0 s.retries
  match l with
  | .noMore d => .ok (.noMore { s with data := d, retries := 0 })
  | .added d n => do
    let xe := d.x.drop (d.x.length - n)
    let ev ← evalObj cfg P xe
    let vals ← ev.2.mapM (assignRow d.y.ncols)
    let d' : Data := { d with y := ⟨d.y.ncols, d.y.rows.take (d.y.rows.length - n) ++ vals⟩ }
    let b ← findBestFrom s.best (d'.y.rows.length - n) d'.y d'.c cfg.tol
    let fe ← updFeasible s.feasible d' b cfg.tol
    .ok (.ok { s with
      data := d', prevBest := s.best, best := b, feasible := fe,
      prevAdded := s.added, added := s.added + n, retries := maxRetry,
      calls := s.calls ++ ev.1 })

/-! ## TREGO step -/

/-- `trego_step` (`trego.rs:84-200`); `x` is the point given by the local optimization. The point is
evaluated before it is known whether it is kept. -/
def tregoStep (cfg : Cfg) (P : Prob) (x : List ℚ) (s : St) : Except Panic St := do
  let ev ← evalObj cfg P [x]
  let c ← evalFcstr cfg P x
  let u ← updateData s.data 0 (ev.2.map fun y => ⟨x, y, c⟩)
  if u.1.y.rows.length = 0 then .error .other
  else do
    let b ← findBestFrom s.best (u.1.y.rows.length - 1) u.1.y u.1.c cfg.tol
    let fe ← updFeasible s.feasible u.1 b cfg.tol
    .ok { s with
      data := u.1, prevBest := s.best, best := b, feasible := fe,
      prevAdded := s.added, added := s.added + u.2.length,
      calls := s.calls ++ ev.1 }

/-- Choices made by the environment during one iteration: batch proposals (attempt, index in batch) and
the TREGO local point. -/
structure Oracle where
  sel : ℕ → ℕ → Option Cand
  loc : List ℚ

/-- `ego_iteration` (`egor_solver.rs:436-451`). -/
def egoIteration (cfg : Cfg) (P : Prob) (o : Oracle) (s : St) : Except Panic St := do
  let r ← egoStep cfg P o.sel s
  match r with
  | .ok s' => .ok s'
  | .noMore s' => .ok { s' with converged := true }

/-- `y[best] < y[prev_best] - sigma²` (`egor_solver.rs:467-468`). -/
def lastIterSuccess (s : St) : Except Panic Bool := do
  let yb ← row s.data.y s.best
  let yp ← row s.data.y s.prevBest
  match yb, yp with
  | a :: _, b :: _ => .ok (Flt.lt a (Flt.sub b (.fin (s.sigma * s.sigma))))
  | _, _ => .error .outOfBounds

/-- Trust region update (`egor_solver.rs:477-507`). -/
def nextSigma (cfg : Cfg) (success : Bool) (s : St) : ℚ :=
  if !s.prevStepEgo && s.iter ≠ 0 then
    if success then s.sigma * cfg.gamma else s.sigma * cfg.beta
  else if s.iter ≠ 0 then
    if success then s.sigma * cfg.gamma else s.sigma
  else s.sigma

/-- Global or local phase (`egor_solver.rs:509-512`). -/
def isGlobalPhase (cfg : Cfg) (success : Bool) (s : St) : Bool :=
  (success && s.prevStepEgo) || s.iter % (1 + cfg.nLocalSteps) == 0

/-- `trego_iteration` (`egor_solver.rs:454-529`). -/
def tregoIteration (cfg : Cfg) (P : Prob) (o : Oracle) (s : St) : Except Panic St := do
  let success ← lastIterSuccess s
  let s1 := { s with sigma := nextSigma cfg success s }
  if isGlobalPhase cfg success s then do
    let s2 ← egoIteration cfg P o s1
    .ok { s2 with prevStepEgo := true }
  else do
    let s2 ← tregoStep cfg P o.loc s1
    .ok { s2 with prevStepEgo := false }

/-- Samples of the recorder for rows of data (`run_recorder.rs:110-117, 158-163`); `y[0]` panics on an
empty row. -/
def samples (xs : List (List ℚ)) (ys : List (List Flt)) : List Sample :=
  List.zipWith (fun x y => ⟨x, y.headD .nan⟩) xs ys

/-- Recording of an iteration (`egor_solver.rs:399-415`). -/
def record (cfg : Cfg) (s : St) : Except Panic St :=
  if cfg.recorder then
    let n := s.added - s.prevAdded
    if s.added < s.prevAdded ∨ s.data.x.length < n then .error .outOfBounds
    else .ok { s with history := s.history ++
      [samples (s.data.x.drop (s.data.x.length - n)) (s.data.y.rows.drop (s.data.x.length - n))] }
  else .ok s

/-- `next_iter` (`egor_solver.rs:351-418`). Cooperative activity is left out. -/
def nextIter (cfg : Cfg) (P : Prob) (o : Oracle) (s : St) : Except Panic St :=
  (if cfg.trego then tregoIteration cfg P o s else egoIteration cfg P o s) >>= record cfg

/-- `EgorState::update` (`egor_state.rs:447-471`). -/
def update (s : St) : Except Panic St := do
  let cost ← row s.data.y s.best
  match s.data.x[s.best]? with
  | none => .error .outOfBounds
  | some p =>
    .ok { s with
      bestParam := some p
      bestCost := some cost
      lastBestIter :=
        if s.best > s.doeSize then
          (if s.best ≠ s.prevBest then s.iter + 1 else s.lastBestIter)
        else s.lastBestIter }

/-- One turn of the loop of the `argmin` executor: `next_iter`, `update`, `increment_iter`. -/
def turn (cfg : Cfg) (P : Prob) (o : Oracle) (s : St) : Except Panic St := do
  let s1 ← nextIter cfg P o s
  let s2 ← update s1
  .ok { s2 with iter := s2.iter + 1 }

/-- Termination test of the `argmin` executor: already terminated, iteration budget, target reached
(`best_cost <= target_cost`). -/
def stops (cfg : Cfg) (s : St) : Bool :=
  s.converged || s.iter ≥ s.maxIters ||
    (match s.bestCost with
     | some (a :: _) => Flt.lt a cfg.target || Flt.feq a cfg.target
     | _ => Flt.lt .pinf cfg.target || Flt.feq .pinf cfg.target)

/-- The executor loop, given the choices of the environment for (at least) as many iterations as wanted:
it ends when the termination test holds or when the list of choices is exhausted (an interruption). -/
def loop (cfg : Cfg) (P : Prob) : List Oracle → St → Except Panic St
  | [], s => .ok s
  | o :: os, s => if stops cfg s then .ok s else turn cfg P o s >>= loop cfg P os

/-! ## Initialization -/

/-- Initial design: points to evaluate (LHS or user's inputs) or inputs given with outputs. -/
inductive Doe
  | points (x : List (List ℚ))
  | full (x : List (List ℚ)) (y : Mat Flt)

/-- `init` (`egor_solver.rs:181-349`), first `update` of the executor included. The user's function
returns `nOut` columns. -/
def init (cfg : Cfg) (P : Prob) (doe : Doe) : Except Panic St := do
  let (x, y, calls) ← (match doe with
    | .points x => do
      let ev ← evalObj cfg P x
      if ev.2.all (fun r => r.length = cfg.nOut) then
        .ok (x, (⟨cfg.nOut, ev.2⟩ : Mat Flt), ev.1)
      else .error .shape
    | .full x y => if x.length = y.rows.length then .ok (x, y, []) else .error .shape)
  let c ← x.mapM (evalFcstr cfg P)
  let d : Data := ⟨x, y, ⟨P.g.length, c⟩⟩
  let b ← findBest d.y d.c cfg.tol
  let fe ← updFeasible (!cfg.usePof) d b cfg.tol
  update {
    data := d, best := b, prevBest := b, feasible := fe, added := x.length, prevAdded := 0,
    retries := maxRetry, doeSize := x.length, iter := 0, maxIters := cfg.maxIters, lastBestIter := 0,
    sigma := 1 / 10, prevStepEgo := false, converged := false, bestParam := none, bestCost := none,
    initial := if cfg.recorder then samples x y.rows else [], history := [], calls := calls }

/-- A whole run. -/
def run (cfg : Cfg) (P : Prob) (doe : Doe) (os : List Oracle) : Except Panic St :=
  init cfg P doe >>= loop cfg P os

end Run

end Verif
