import Verif.Model.Doe
import Verif.Model.Coego
import Mathlib.Data.List.Sort
import Mathlib.Data.Real.Basic

/-!
# Start points, TREGO, schedules, portfolio, virtual points

Model of `/repo/crates/ego/src/utils/start_points.rs`, `utils/portfolio.rs`, `solver/trego.rs:53-75`,
`solver/egor_solver.rs:454-529`, `solver/solver_impl.rs:110-113, 643-645`,
`solver/solver_computations.rs:60-113, 261-292`.
-/

set_option autoImplicit false

namespace Verif.Steps

open Verif Verif.Doe

variable {n d : ℕ}

/-! ## Start points -/

/-- Distance scaled by the ranges of the variables (`start_points.rs:21-23, 41-44, 53, 63-66`). -/
noncomputable def scaledDist (range a b : Fin d → ℝ) : ℝ := Real.sqrt (∑ j, ((a j - b j) / range j) ^ 2)

/-- `(xi + xj) / 2` (`start_points.rs:38`). -/
noncomputable def middle (a b : Fin d → ℝ) : Fin d → ℝ := fun j => (a j + b j) / 2

/-- All pairs `(i, j)`, `j < i` (`start_points.rs:18-26`). -/
def startPairs (n : ℕ) : List (Fin n × Fin n) :=
  (List.finRange n).flatMap fun i => ((List.finRange n).filter (fun j => j < i)).map fun j => (i, j)

/-- Pairs sorted by distance (`start_points.rs:29`); the sort is stable. -/
noncomputable def sortedPairs (x : Design n d) (range : Fin d → ℝ) : List (Fin n × Fin n) :=
  (startPairs n).mergeSort fun a b =>
    decide (scaledDist range (x a.1) (x a.2) ≤ scaledDist range (x b.1) (x b.2))

/-- The checks on a midpoint (`start_points.rs:46-71`): no other data point and no start already picked
strictly closer than the points of the pair. -/
def isGood (x : Design n d) (range : Fin d → ℝ) (starts : List (Fin d → ℝ)) (i j : Fin n) : Prop :=
  (∀ k, k ≠ i → k ≠ j →
    ¬ scaledDist range (x k) (middle (x i) (x j)) < scaledDist range (x i) (middle (x i) (x j))) ∧
  ∀ s ∈ starts, ¬ scaledDist range s (middle (x i) (x j)) < scaledDist range (x i) (middle (x i) (x j))

open Classical in
/-- The loop on the pairs (`start_points.rs:34-83`). -/
noncomputable def startLoop (x : Design n d) (range : Fin d → ℝ) (nMax : Option ℕ) :
    List (Fin n × Fin n) → List (Fin d → ℝ) → List (Fin d → ℝ)
  | [], starts => starts
  | (i, j) :: ps, starts =>
    let starts' := if isGood x range starts i j then starts ++ [middle (x i) (x j)] else starts
    if ∃ m, nMax = some m ∧ starts'.length ≥ m then starts' else startLoop x range nMax ps starts'

/-- `start_points` (`start_points.rs:7-91`). -/
noncomputable def startPoints (x : Design n d) (xl xu : Fin d → ℝ) (nMax : Option ℕ) : List (Fin d → ℝ) :=
  let range := fun j => xu j - xl j
  startLoop x range nMax (sortedPairs x range) []

/-- `MiddlePickerMultiStarter::multistart` (`solver_computations.rs:65-113`), default branch. `x` holds the
active columns of the selected training points, `xl`, `xu` the limits of the active variables. `lhs` gives the
random choices of the (maximin) LHS with a given number of points. -/
noncomputable def multistart (x : Design n d) (xl xu : Fin d → ℝ) (nStart : ℕ)
    (lhs : (m : ℕ) → Draw m d × List (Draw m d)) : Except Panic (List (Fin d → ℝ)) :=
  let mids := startPoints x xl xu (some nStart)
  if nStart ≤ mids.length then .ok mids
  else
    let missing := nStart - mids.length
    let m := max missing 3
    lhsSample (.maximin (lhs m).1 (lhs m).2) >>= fun z =>
      .ok (mids ++ (List.ofFn (sample xl xu z)).take missing)

/-! ## TREGO -/

/-- Bounds of the local area for one variable (`trego.rs:60-69`); `x` is the best point, `dist` is
`config.trego.d`. -/
noncomputable def localBox (lims dist : ℝ × ℝ) (x : ℝ) : ℝ × ℝ := (max lims.1 (x - dist.1), min lims.2 (x + dist.2))

/-- The local step (`trego.rs:117-130`): the starts are an LHS of the local area (`trego.rs:56-75`), then each start
is given to the optimizer `opt` with the bounds of the *whole* design space
(`solver_infill_optim.rs:207, 218-232`), and the best result is kept. Simplification: one group of variables, all
the attempts but the first are left out. -/
noncomputable def localStep (opt : (Fin d → ℝ × ℝ) → (Fin d → ℝ) → Flt × (Fin d → ℝ)) (lims : Fin d → ℝ × ℝ)
    (dist : ℝ × ℝ) (best : Fin d → ℝ) (z : Design n d) : Flt × (Fin d → ℝ) :=
  let lo := fun j => (localBox (lims j) dist (best j)).1
  let up := fun j => (localBox (lims j) dist (best j)).2
  (List.ofFn fun i => opt lims (sample lo up z i)).foldl Coego.pick (.pinf, best)

/-- Variables of the state read and written by `trego_iteration`. -/
structure TregoSt where
  iter : ℕ
  sigma : ℝ
  prevStepEgo : Bool

/-- Configuration of TREGO. -/
structure TregoCfg where
  nLocal : ℕ
  beta : ℝ
  gamma : ℝ

/-- `last_iter_success` (`egor_solver.rs:467-468`): `y`, `yPrev` are the objectives at the best and previous
best indices. -/
def success (sigma y yPrev : ℝ) : Prop := y < yPrev - sigma * sigma

open Classical in
/-- Update of the size of the trust region (`egor_solver.rs:478-507`). -/
noncomputable def nextSigma (cfg : TregoCfg) (s : TregoSt) (y yPrev : ℝ) : ℝ :=
  if s.prevStepEgo = false ∧ s.iter ≠ 0 then
    if success s.sigma y yPrev then s.sigma * cfg.gamma else s.sigma * cfg.beta
  else if s.iter ≠ 0 then
    if success s.sigma y yPrev then s.sigma * cfg.gamma else s.sigma
  else s.sigma

/-- `is_global_phase` (`egor_solver.rs:509-512`). -/
def isGlobal (cfg : TregoCfg) (s : TregoSt) (y yPrev : ℝ) : Prop :=
  (success s.sigma y yPrev ∧ s.prevStepEgo = true) ∨ (1 + cfg.nLocal) ∣ s.iter

open Classical in
/-- `trego_iteration` (`egor_solver.rs:454-529`) followed by the increment of the iteration counter. -/
noncomputable def tregoNext (cfg : TregoCfg) (s : TregoSt) (y yPrev : ℝ) : TregoSt :=
  ⟨s.iter + 1, nextSigma cfg s y yPrev, decide (isGlobal cfg s y yPrev)⟩

/-- States of a run: `ys t` are the objectives at the best and previous best indices before iteration `t`. -/
noncomputable def tregoRun (cfg : TregoCfg) (s0 : TregoSt) (ys : ℕ → ℝ × ℝ) : ℕ → TregoSt
  | 0 => s0
  | t + 1 => tregoNext cfg (tregoRun cfg s0 ys t) (ys t).1 (ys t).2

/-! ## Schedules -/

/-- `NbClusters` (`moe/src/parameters.rs:26-38`). -/
inductive NbClusters
  | fixed (nb : ℕ)
  | auto (max : Option ℕ)
deriving DecidableEq

/-- `is_auto` (`moe/src/parameters.rs:72-74`). -/
def NbClusters.isAuto : NbClusters → Bool
  | .auto _ => true
  | _ => false

/-- `have_to_recluster` (`solver_impl.rs:110-113`). The subtraction panics (debug build) if `added` is less
than `prev`; `&&` does not evaluate it if the previous conditions fail. -/
def haveToRecluster (c : NbClusters) (added prev : ℕ) : Except Panic Bool :=
  if c.isAuto ∧ added ≠ 0 ∧ added % 10 = 0 then
    if added < prev then .error .other else .ok (decide (added - prev > 0))
  else .ok false

/-- Reclustering at each iteration (`solver_impl.rs:427, 530-531`, `trego.rs:174-175`): `added` is the number of
points before the iteration, `prev` this number one iteration earlier, and each iteration adds the given number
of points. -/
def reclusterings (c : NbClusters) : ℕ → ℕ → List ℕ → Except Panic (List Bool)
  | _, _, [] => .ok []
  | added, prev, k :: ks =>
    haveToRecluster c added prev >>= fun b => reclusterings c (added + k) added ks >>= fun bs => .ok (b :: bs)

/-- `usize::is_multiple_of`. -/
def isMultipleOf (a b : ℕ) : Bool := if b = 0 then a == 0 else a % b == 0

/-- `optimize_theta` (`solver_impl.rs:643-645`) for the point `i` of the batch of an iteration and the `j`-th
member of the portfolio. -/
def optimizeTheta (qPoints qOptmod iter i j : ℕ) : Bool := isMultipleOf (iter * qPoints + i) qOptmod && j == 0

/-! ## Portfolio -/

/-- `cluster_as_indices` (`portfolio.rs:25-43`). `labels` is the result of DBSCAN, `order` the order in which
the hash map enumerates its keys. -/
def clusterIndices (labels : List (Option ℕ)) (order : List ℕ) : List ℕ :=
  order.map fun l => labels.findIdx (· == some l)

/-- `select_from_portfolio` (`portfolio.rs:47-96`) on the first rows `(x, y, c)` of the members.
Simplification: members have at least one row. Panics on an empty portfolio (`portfolio[0]`). -/
def selectFromPortfolio {α : Type} (rows : List α) (labels : List (Option ℕ)) (order : List ℕ) :
    Except Panic (List α) :=
  match rows with
  | [] => .error .outOfBounds
  | r :: _ =>
    let indices := clusterIndices labels order
    if indices.length > 1 then
      indices.mapM fun i => match rows[i]? with
        | some a => .ok a
        | none => .error .outOfBounds
    else .ok [r]

/-! ## Virtual points -/

/-- `QEiStrategy` (`ego/src/types.rs:59-68`). -/
inductive QEi
  | kb | kblb | kbub | clmin
deriving DecidableEq

/-- The objective of a row of outputs (`y_data.slice(s![.., 0])`). -/
def objective : List ℝ → Except Panic ℝ
  | [] => .error .outOfBounds
  | o :: _ => .ok o

/-- `compute_virtual_point` (`solver_computations.rs:261-292`). `y` are the rows of the training outputs
`[objective, constraints...]`; `pred`, `var` is the prediction of the objective, `cpred` the predictions of
the constraints. The number of constraints is `cpred.length`. -/
noncomputable def virtualPoint (q : QEi) (y : List (List ℝ)) (pred var : ℝ) (cpred : List ℝ) :
    Except Panic (List ℝ) :=
  match q with
  | .clmin => do
    let objs ← y.mapM objective
    let i ← MixInt.argmin objs
    match y[i]? with
    | none => .error .outOfBounds
    | some r => if cpred.length + 1 ≤ r.length then .ok (r.take (cpred.length + 1)) else .error .outOfBounds
  | .kb => .ok ((pred + 0 * Real.sqrt var) :: cpred)
  | .kblb => .ok ((pred + -3 * Real.sqrt var) :: cpred)
  | .kbub => .ok ((pred + 3 * Real.sqrt var) :: cpred)

end Verif.Steps
