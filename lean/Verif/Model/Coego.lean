import Verif.Model.Flt
import Mathlib.Data.List.Basic

/-!
# Cooperative activity and infill optimization

Model of `/repo/crates/ego/src/solver/coego.rs:23-136` and of
`/repo/crates/ego/src/solver/solver_infill_optim.rs:45-272`.
-/

set_option autoImplicit false

namespace Verif.Coego

open Verif

/-! ## Activity groups -/

/-- `Array2::from_shape_vec((nr, nc), l)`: rows of a row-major array; panics on a size mismatch. -/
def reshape (l : List ℕ) (nr nc : ℕ) : Except Panic (List (List ℕ)) :=
  if l.length = nr * nc then .ok ((List.range nr).map fun i => (l.drop (i * nc)).take nc)
  else .error .shape

/-- `get_random_activity` (`coego.rs:55-84`). `idx` is the result of the shuffle of `0..xdim`. `xdim % 0`
panics. -/
def randomActivity (xdim nCoop : ℕ) (idx : List ℕ) : Except Panic (List (List ℕ)) :=
  let gNb := min nCoop xdim
  if gNb = 0 then .error .other
  else
    let remainder := xdim % gNb
    if remainder = 0 then reshape idx gNb (xdim / gNb)
    else do
      let gSize := xdim / gNb + 1
      let cut := gNb * (gSize - 1)
      let fill ← reshape (idx.take cut) gNb (gSize - 1)
      let lastVals := idx.drop cut
      -- `assign` of the last values on `remainder` cells
      if lastVals.length = remainder then
        .ok ((List.range gNb).map fun i =>
          fill.getD i [] ++ [if i < remainder then lastVals.getD i xdim else xdim])
      else .error .shape

/-- `full_activity` (`coego.rs:89-95`). -/
def fullActivity (xdim : ℕ) : List (List ℕ) := [List.range xdim]

/-- `strip` (`coego.rs:134-136`), also the filter of `get_active_x` (`coego.rs:37-42`). -/
def strip (active : List ℕ) (dim : ℕ) : List ℕ := active.filter (· < dim)

variable {α : Type}

/-- The assignments of `set_active_x` (`coego.rs:27`), one by one. -/
def assign (x : List α) : List (ℕ × α) → Except Panic (List α)
  | [] => .ok x
  | (i, v) :: r => if i < x.length then assign (x.set i v) r else .error .outOfBounds

/-- `set_active_x` (`coego.rs:26-28`): `active[..values.len()]` panics if there are more values than
indices. -/
def setActive (x : List α) (active : List ℕ) (values : List α) : Except Panic (List α) :=
  if values.length ≤ active.length then assign x ((active.take values.length).zip values)
  else .error .outOfBounds

/-- `get_active_x` (`coego.rs:32-44`) along an axis, `x` being the list of the entries along this axis. -/
def getActive (x : List α) (active : List ℕ) : List α :=
  (strip active x.length).filterMap fun i => x[i]?

/-- Components of the gradient given to the optimizer (`solver_infill_optim.rs:115-121`,
`solver_computations.rs:211-217, 248-254`): components whose index is active, in increasing order. -/
def gradActive (g : List α) (active : List ℕ) : List α :=
  ((g.zip (List.range g.length)).filter fun p => active.contains p.2).map Prod.fst

/-! ## Parallel reduction -/

/-- `|a, b| if b.0 < a.0 { b } else { a }` (`solver_infill_optim.rs:231`, `gp/src/algorithm.rs:944`,
`gp/src/sparse_algorithm.rs:608`). -/
def pick (a b : Flt × α) : Flt × α := if Flt.lt b.1 a.1 then b else a

/-- A way to split the items among the tasks of `rayon`: a task folds its items one after another starting
from the identity, and the results of two neighbour tasks are combined. -/
inductive Split (α : Type)
  | task (items : List α)
  | join (l r : Split α)

/-- The items, in order. -/
def Split.items {β : Type} : Split β → List β
  | .task l => l
  | .join l r => l.items ++ r.items

/-- `reduce(|| (f64::INFINITY, dflt), pick)`. -/
def Split.reduce (dflt : α) : Split (Flt × α) → Flt × α
  | .task l => l.foldl pick (.pinf, dflt)
  | .join l r => pick (l.reduce dflt) (r.reduce dflt)

/-! ## Optimization of the infill criterion -/

/-- Variables of `optimize_infill_criterion` (`solver_infill_optim.rs:62-65`): `best_point`,
`current_best_point.0`, `infill_data.xbest`. -/
structure InfillSt (α : Type) where
  bestVal : Flt
  bestX : List α
  curX : List α
  xbest : List α

/-- `is_nan() || is_infinite()` is false. -/
def isFinite : Flt → Bool
  | .fin _ => true
  | _ => false

/-- The external optimizers: result of the `attempt`-th parallel multistart for a group of active variables,
the other variables being those of `xbest`. -/
abbrev Minimizer (α : Type) := (xbest : List α) → (active : List ℕ) → (attempt : ℕ) → Flt × List α

/-- The attempts for one group (`solver_infill_optim.rs:217-269`), with `COEGO_IMPROVEMENT_CHECK = false`:
`left` attempts remain, `n` have been made. -/
def attempts (opt : Minimizer α) (active : List ℕ) (s : InfillSt α) (n : ℕ) :
    (left : ℕ) → Except Panic (InfillSt α)
  | 0 => .ok s
  | left + 1 =>
    let res := opt s.xbest active n
    if isFinite res.1 then
      setActive s.curX active res.2 >>= fun x => .ok ⟨res.1, x, x, x⟩
    else attempts opt active s (n + 1) left

/-- The loop on the groups (`solver_infill_optim.rs:67-270`), at most three attempts per group. -/
def groups (opt : Minimizer α) (s : InfillSt α) : List (List ℕ) → Except Panic (InfillSt α)
  | [] => .ok s
  | a :: as => attempts opt a s 1 3 >>= fun s' => groups opt s' as

/-- `optimize_infill_criterion` (`solver_infill_optim.rs:45-272`): the value and the point returned.
`ybest`, `xbest` are the current best objective and point, `xdata` is `infill_data.xbest`. -/
def optimizeInfill (opt : Minimizer α) (actives : List (List ℕ)) (ybest : Flt) (xbest xdata : List α) :
    Except Panic (Flt × List α) :=
  groups opt ⟨ybest, xbest, xbest, xdata⟩ actives >>= fun s => .ok (s.bestVal, s.bestX)

/-! ## Function constraints within the infill optimization -/

/-- A function constraint given to the optimizer (`solver_impl.rs:716-741`, continuous case; the optimizer calls
it as it is, `solver_infill_optim.rs:198-204`): value and gradient at the values of the active variables. The
value is divided by the scale, the gradient is the one written by the user's function. -/
def fcstrCall {K : Type} [Div K] (g : List K → K) (dg : List K → List K) (scale : K) (values : List K) :
    K × List K :=
  (g values / scale, dg values)

/-- A surrogate of a constraint given to the optimizer (`solver_infill_optim.rs:154-184`): it is evaluated at
the point where the inactive variables are those of `xbest`. -/
def surrogateCall {K : Type} [Div K] (g : List K → K) (dg : List K → List K) (scale : K) (xbest : List K)
    (active : List ℕ) (values : List K) : Except Panic (K × List K) := do
  let x ← setActive xbest active values
  .ok (g x / scale, gradActive ((dg x).map (· / scale)) active)

end Verif.Coego
