import Verif.Model.Run
import Verif.Model.Steps

/-!
# Proposals of an iteration

Model of the whole of `select_next_points` (`/repo/crates/ego/src/solver/solver_impl.rs:562-807`), of `refresh_surrogates` and
`refresh_infill_data` (`solver_impl.rs:299-391`): which data the surrogates are trained with, what is kept from one training to
the next, what the inner optimizer is given. `Run.selectNextPoints` is the same function with the proposals as input.

Training a surrogate, scaling, the optimization of the infill criterion and the prediction of a virtual point are parameters.
Simplifications: trainings are done one after the other (`into_par_iter` collects in order); the recording of surrogates in a
file is left out; random numbers are numbered from the state of the generator.
-/

set_option autoImplicit false

namespace Verif.Propose

open Verif Run FindResult

/-- Indexing, panics out of bounds. -/
def at' {α : Type} (l : List α) (i : ℕ) : Except Panic α :=
  match l[i]? with
  | some a => .ok a
  | none => .error .outOfBounds

/-- `y.slice(s![.., k])`. -/
def column (y : List (List Flt)) (k : ℕ) : Except Panic (List Flt) := y.mapM fun r => at' r k

/-- Rows `(x, y, c)` of the best point, scaling factors of the criterion (`Z`) and of function constraints, feasibility, weight
of the standard deviation: `InfillObjData` (`solver_impl.rs:706-714`) and what is given beside it. -/
structure Infill (Z : Type) where
  fmin : Flt
  xbest : List ℚ
  scaling : Z
  scaleFcstr : List Flt
  feasibility : Bool
  weight : ℚ

/-- What is called. `M`: surrogates, `C`: clusterings, `T`: hyperparameters, `Z`: scaling factors, `S`: random generator. -/
structure Env (M C T Z S : Type) where
  /-- `1 + n_cstr` -/
  nOut : ℕ
  qOptmod : ℕ
  /-- `make_clustered_surrogate` (`solver_impl.rs:121-296`): index of the output, inputs, outputs, `make_clustering`,
  `optimize_theta`, previous clustering, previous hyperparameters -/
  train : ℕ → List (List ℚ) → List Flt → Bool → Bool → Option C → Option T → Except Panic (M × T)
  toClustering : M → C
  /-- `rng.gen()` -/
  gen : S → ℕ × S
  /-- `compute_scaling`: seed, surrogates, `fmin`, weight; factors of the criterion and of function constraints -/
  scaling : ℕ → List M → Flt → ℚ → Except Panic (Z × List Flt)
  /-- `optimize_infill_criterion`: surrogates, infill data, inputs for the starting points, seed, rows of the best point;
  objective reached and point -/
  optimize : List M → Infill Z → List (List ℚ) → ℕ → List ℚ × List Flt × List Flt → Except Panic (Flt × List ℚ)
  /-- `compute_virtual_point`: point, outputs of the data, surrogates; `none` is an error -/
  virtual : List ℚ → List (List Flt) → List M → Option (List Flt)

/-- What is kept between trainings. -/
structure Kept (C T S : Type) where
  clusterings : List (Option C)
  thetas : List (Option T)
  rng : S

/-- Arguments of `select_next_points` that do not change: evaluated data, best index, feasibility, `init`, `iter`,
`recluster`. -/
structure Args where
  x : List (List ℚ)
  y : List (List Flt)
  c : List (List Flt)
  best : ℕ
  feasibility : Bool
  init : Bool
  iter : ℕ
  recluster : Bool

/-- Result for one weight: points, infill value, infill data. -/
structure Res (Z : Type) where
  pts : List Pt
  value : Flt
  infill : Option (Infill Z)

variable {M C T Z S : Type}

/-- Training of the surrogates (`solver_impl.rs:636-656`): output `k` is trained on column `k`. -/
def trainAll (env : Env M C T Z S) (x : List (List ℚ)) (y : List (List Flt)) (cluster opt : Bool) (s : Kept C T S) :
    Except Panic (List (M × T)) :=
  (List.range env.nOut).mapM fun k => do
    let col ← column y k
    let c ← at' s.clusterings k
    let t ← at' s.thetas k
    env.train k x col cluster opt c t

/-- Writing of the first entries (`solver_impl.rs:676-679`). -/
def keep (env : Env M C T Z S) (ms : List (M × T)) (s : Kept C T S) : Kept C T S :=
  { s with
    clusterings := ms.map (fun m => some (env.toClustering m.1)) ++ s.clusterings.drop ms.length
    thetas := ms.map (fun m => some m.2) ++ s.thetas.drop ms.length }

/-- Outcome of one point. -/
inductive One (Z : Type)
  | point (p : Pt) (value : Flt) (infill : Infill Z)
  | failed (infill : Infill Z)

/-- Body of the loop on the points (`solver_impl.rs:622-790`): `pre` are the points already proposed in this batch. -/
def onePoint (cfg : Cfg) (P : Prob) (env : Env M C T Z S) (a : Args) (j : ℕ) (w : ℚ) (i : ℕ) (pre : List Pt)
    (s : Kept C T S) : Except Panic (One Z × Kept C T S) := do
  let xt := if i = 0 then a.x else a.x ++ pre.map Pt.x
  let yt := if i = 0 then a.y else a.y ++ pre.map Pt.y
  let ms ← trainAll env xt yt ((a.init && i == 0) || a.recluster)
    (Steps.optimizeTheta cfg.qPoints env.qOptmod a.iter i j) s
  let s := keep env ms s
  let models := ms.map Prod.fst
  let ybest ← at' a.y a.best
  let fmin ← at' ybest 0
  let xbest ← at' a.x a.best
  let cbest ← at' a.c a.best
  let r1 := env.gen s.rng
  let z ← env.scaling r1.1 models fmin w
  let infill : Infill Z := ⟨fmin, xbest, z.1, z.2, a.feasibility, w⟩
  let r2 := env.gen r1.2
  let s := { s with rng := r2.2 }
  let o ← env.optimize models infill a.x r2.1 (xbest, ybest, cbest)
  match env.virtual o.2 a.y models with
  | none => .ok (.failed infill, s)
  | some yk =>
    if yk.length ≠ env.nOut then .error .shape
    else do
      let ck ← scaledFcstr cfg P o.2 z.2
      .ok (.point ⟨o.2, yk, ck⟩ (Flt.neg o.1) infill, s)

/-- Loop on the points of a batch (`solver_impl.rs:622-791`); the last argument is the number of points left. -/
def batch (cfg : Cfg) (P : Prob) (env : Env M C T Z S) (a : Args) (j : ℕ) (w : ℚ) (i : ℕ) (acc : Res Z) (s : Kept C T S) :
    ℕ → Except Panic (Res Z × Kept C T S)
  | 0 => .ok (acc, s)
  | n + 1 => do
    let r ← onePoint cfg P env a j w i acc.pts s
    match r.1 with
    | .failed infill => .ok ({ acc with infill := some infill }, r.2)
    | .point p v infill => batch cfg P env a j w (i + 1) ⟨acc.pts ++ [p], v, some infill⟩ r.2 n

/-- `sigma_weights` (`solver_impl.rs:590-615`). -/
def weights (portfolio : Bool) (q : ℕ) : List ℚ :=
  if portfolio ∧ q = 1 then
    [1, 0.1, 0.1778279410038923, 0.31622776601683794, 0.5623413251903491, 1.7782794100389228, 3.1622776601683795,
      5.623413251903491, 10, 17.78279410038923, 31.622776601683793, 56.23413251903491, 100]
  else [1]

/-- Loop on the weights (`solver_impl.rs:617-793`). -/
def members (cfg : Cfg) (P : Prob) (env : Env M C T Z S) (a : Args) (j : ℕ) (s : Kept C T S) :
    List ℚ → Except Panic (List (Res Z) × Kept C T S)
  | [] => .ok ([], s)
  | w :: ws => do
    let r ← batch cfg P env a j w 0 ⟨[], .pinf, none⟩ s cfg.qPoints
    let rs ← members cfg P env a (j + 1) r.2 ws
    .ok (r.1 :: rs.1, rs.2)

/-- First point of a member of the portfolio; `row(0)` panics (`portfolio.rs:64-67`). -/
def firstPoint (r : Res Z) : Except Panic Pt := at' r.pts 0

/-- `select_next_points` (`solver_impl.rs:562-807`). `labels` and `order` are the result of the clustering of the portfolio and
the order of the hash map. -/
def selectNextPoints (cfg : Cfg) (P : Prob) (env : Env M C T Z S) (portfolio : Bool) (labels : List Pt → List (Option ℕ))
    (order : List (Option ℕ) → List ℕ) (a : Args) (s : Kept C T S) : Except Panic (Res Z × Kept C T S) := do
  let r ← members cfg P env a 0 s (weights portfolio cfg.qPoints)
  if r.1.length > 1 then do
    let first ← at' r.1 0
    let rows ← r.1.mapM firstPoint
    let sel ← Steps.selectFromPortfolio rows (labels rows) (order (labels rows))
    .ok (⟨sel, first.value, first.infill⟩, r.2)
  else do
    let first ← at' r.1 0
    .ok (first, r.2)

/-- `refresh_surrogates` (`solver_impl.rs:356-391`): surrogates of a local step of TREGO. `clusterings[k]` and
`theta_inits[k]` are options and the clustering is unwrapped by the training. -/
def refresh (env : Env M C T Z S) (x : List (List ℚ)) (y : List (List Flt)) (s : Kept C T S) : Except Panic (List M) := do
  let ms ← trainAll env x y false true s
  .ok (ms.map Prod.fst)

end Verif.Propose
