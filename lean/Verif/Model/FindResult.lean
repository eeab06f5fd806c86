import Verif.Model.Flt

/-!
# Best result selection

Model of `/repo/crates/ego/src/utils/find_result.rs`. A row is `[obj, cstr_1, ..., cstr_n]`.
-/

set_option autoImplicit false

namespace Verif.FindResult

open Verif

/-- Loop of `cstr_sum` (`find_result.rs:10-16`): `cstr_tol[i]` is read for every constraint by the
`filter` closure, hence panics when there are fewer tolerances than constraints. -/
def cstrSumLoop (acc : Flt) : List Flt → List Flt → Except Panic Flt
  | [], _ => .ok acc
  | _ :: _, [] => .error .outOfBounds
  | c :: cs, t :: ts =>
    if Flt.gt c t then cstrSumLoop (Flt.add acc (Flt.abs (Flt.sub c t))) cs ts
    else cstrSumLoop acc cs ts

/-- `cstr_sum` (`find_result.rs:10-16`). `y.slice(s![1..])` panics on an empty row. -/
def cstrSum (y : List Flt) (tol : List Flt) : Except Panic Flt :=
  match y with
  | [] => .error .outOfBounds
  | _ :: cs => cstrSumLoop Flt.zero cs tol

/-- `y1[0].partial_cmp(&y2[0]).unwrap()` (`find_result.rs:31,39`). -/
def objCmp (y1 y2 : List Flt) : Except Panic Ordering :=
  match y1, y2 with
  | a :: _, b :: _ =>
    match Flt.cmp a b with
    | some o => .ok o
    | none => .error .undefinedOrder
  | _, _ => .error .outOfBounds

/-- `cstr_min` (`find_result.rs:20-41`); the row indices of the couples are not used by the code. -/
def cstrMin (y1 y2 tol : List Flt) : Except Panic Ordering :=
  if y1.length > 1 then do
    let s1 ← cstrSum y1 tol
    let s2 ← cstrSum y2 tol
    if Flt.gt s1 .zero && Flt.gt s2 .zero then
      match Flt.cmp s1 s2 with
      | some o => .ok o
      | none => .error .undefinedOrder
    else if Flt.feq s1 .zero && Flt.feq s2 .zero then objCmp y1 y2
    else if Flt.feq s1 .zero then .ok .lt
    else .ok .gt
  else objCmp y1 y2

/-- The fold of `find_best_result_index_from` (`find_result.rs:59-64`).
`std::cmp::min_by(a, b, f)` returns `a` unless `f(a, b)` is `Greater`. The index `usize::MAX` of the
initial accumulator is `none`; `i` is the running `enumerate` index. -/
def minFold (tol : List Flt) (acc : Option ℕ × List Flt) (i : ℕ) :
    List (List Flt) → Except Panic (Option ℕ × List Flt)
  | [] => .ok acc
  | r :: rs => do
    let o ← cstrMin acc.2 r tol
    match o with
    | .gt => minFold tol (some i, r) (i + 1) rs
    | _ => minFold tol acc (i + 1) rs

/-- `find_best_result_index_from` (`find_result.rs:48-69`). -/
def findBestFrom (current offset : ℕ) (y c : Mat Flt) (tol : List Flt) : Except Panic ℕ := do
  let all ← Mat.hcat y c
  if offset > all.rows.length then .error .outOfBounds
  else
    match all.rows[current]? with
    | none => .error .outOfBounds
    | some best => do
      let m ← minFold tol (none, best) 0 (all.rows.drop offset)
      match m.1 with
      | none => .ok current
      | some i => .ok (offset + i)

/-- `ndarray_stats::QuantileExt::argmin`: loop with current minimum `cur` at index `ci`. -/
def argminLoop (cur : Flt) (ci i : ℕ) : List Flt → Except Panic ℕ
  | [] => .ok ci
  | e :: es =>
    match Flt.cmp e cur with
    | none => .error .undefinedOrder
    | some .lt => argminLoop e i (i + 1) es
    | some _ => argminLoop cur ci (i + 1) es

/-- `ndarray_stats::QuantileExt::argmin`: first index of the minimum, an error when empty or when
some comparison is undefined (NaN). -/
def argmin (l : List Flt) : Except Panic ℕ :=
  match l with
  | [] => .error .emptyReduction
  | e :: _ => argminLoop e 0 0 l

/-- Sum of violations of `find_best_result_index` (`find_result.rs:95-97`): unlike `cstr_sum` it zips,
hence silently ignores constraints without tolerance. -/
def csumZip (acc : Flt) : List Flt → List Flt → Flt
  | c :: cs, t :: ts =>
    if Flt.gt c t then csumZip (Flt.add acc (Flt.abs (Flt.sub c t))) cs ts
    else csumZip acc cs ts
  | _, _ => acc

/-- Scan of feasible rows (`find_result.rs:108-116`). -/
def scanFeasible (best : Flt) (bi i : ℕ) : List (Flt × Flt) → ℕ
  | [] => bi
  | (s, o) :: rest =>
    if Flt.feq s .zero && Flt.lt o best then scanFeasible o i (i + 1) rest
    else scanFeasible best bi (i + 1) rest

/-- All constraints strictly below tolerance (`find_result.rs:128-129`). -/
def strictlyBelow : List Flt → List Flt → Bool
  | c :: cs, t :: ts => Flt.lt c t && strictlyBelow cs ts
  | _, _ => true

/-- Fallback when the sums of violations are not comparable (`find_result.rs:118-137`): stable sort on
the objective, then the first row strictly below tolerances (or the first of the sorted rows).
Simplification: the stable sort of `sort_axis_by` is `List.mergeSort`. -/
def fallback (rows : List (List Flt)) (tol : List Flt) : Except Panic ℕ :=
  let idx := rows.zipIdx.mergeSort (fun a b => !(Flt.lt (b.1.headD .nan) (a.1.headD .nan)))
  match idx.find? (fun p => strictlyBelow (p.1.drop 1) tol) with
  | some p => .ok p.2
  | none =>
    match idx with
    | [] => .error .outOfBounds
    | p :: _ => .ok p.2

/-- `find_best_result_index` (`find_result.rs:77-142`). Matrix rows are never empty in the
constrained branch since the total number of columns is positive: `headD` is never used there
on a well-formed matrix. -/
def findBest (y c : Mat Flt) (tol : List Flt) : Except Panic ℕ :=
  if y.ncols > 1 ∨ c.ncols > 0 then do
    let all ← Mat.hcat y c
    let cobj := all.rows.map fun r => (csumZip .zero (r.drop 1) tol, r.headD .nan)
    match argmin (cobj.map Prod.fst) with
    | .ok mi =>
      match cobj[mi]? with
      | none => .error .outOfBounds
      | some p => if Flt.gt p.1 .zero then .ok mi else .ok (scanFeasible .pinf 0 0 cobj)
    | .error _ => fallback all.rows tol
  else if y.ncols = 0 then .error .outOfBounds
  else argmin (y.rows.map fun r => r.headD .nan)

/-- `is_feasible` (`find_result.rs:146-158`). -/
def isFeasible (y c tol : List Flt) : Except Panic Bool :=
  let yc := y ++ c
  if yc.length > 1 then do
    let s ← cstrSum yc tol
    .ok (Flt.feq s .zero)
  else .ok true

end Verif.FindResult
