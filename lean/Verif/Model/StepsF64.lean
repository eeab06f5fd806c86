import Verif.Model.DoeF64
import Verif.Model.Steps

/-!
# Starts of the optimization of the infill criterion in `f64`

The functions of `Model/Steps.lean` with the arithmetic of `f64`. Sums of squares and square roots are not modelled: the
order of the pairs and the comparisons of distances are parameters.
-/

set_option autoImplicit false

namespace Verif.StepsF64

open Verif F64 Doe

variable {n d : ℕ}

/-- `(xi + xj) / 2.0` (`start_points.rs:38`). -/
noncomputable def middle (a b : Fin d → ℝ) : Fin d → ℝ := fun j => div (add (a j) (b j)) 2

open Classical in
/-- The loop on the pairs (`start_points.rs:34-83`); `good starts i j` is the result of the comparisons of distances
(`start_points.rs:46-71`). -/
noncomputable def startLoop (x : Design n d) (good : List (Fin d → ℝ) → Fin n → Fin n → Bool) (nMax : Option ℕ) :
    List (Fin n × Fin n) → List (Fin d → ℝ) → List (Fin d → ℝ)
  | [], starts => starts
  | (i, j) :: ps, starts =>
    let starts' := if good starts i j then starts ++ [middle (x i) (x j)] else starts
    if ∃ m, nMax = some m ∧ starts'.length ≥ m then starts' else startLoop x good nMax ps starts'

/-- `start_points` (`start_points.rs:7-91`); `sort` gives the pairs sorted by distance (`start_points.rs:29`). -/
noncomputable def startPoints (x : Design n d) (good : List (Fin d → ℝ) → Fin n → Fin n → Bool)
    (sort : List (Fin n × Fin n) → List (Fin n × Fin n)) (nMax : Option ℕ) : List (Fin d → ℝ) :=
  startLoop x good nMax (sort (Steps.startPairs n)) []

/-- `MiddlePickerMultiStarter::multistart` (`solver_computations.rs:65-113`), default branch; `lhs m` is the Latin
hypercube of `m` points. -/
noncomputable def multistart (x : Design n d) (good : List (Fin d → ℝ) → Fin n → Fin n → Bool)
    (sort : List (Fin n × Fin n) → List (Fin n × Fin n)) (xl xu : Fin d → ℝ) (nStart : ℕ)
    (lhs : (m : ℕ) → DoeF64.LhsCall m d) : List (Fin d → ℝ) :=
  let mids := startPoints x good sort (some nStart)
  if nStart ≤ mids.length then mids
  else
    let missing := nStart - mids.length
    let m := max missing 3
    mids ++ (List.ofFn (DoeF64.sample xl xu (DoeF64.lhsSample (lhs m)))).take missing

/-- Bounds of the local area for one variable (`trego.rs:60-69`). -/
noncomputable def localBox (lims dist : ℝ × ℝ) (x : ℝ) : ℝ × ℝ :=
  (max lims.1 (sub x dist.1), min lims.2 (add x dist.2))

/-- `LocalLhsMultiStarter::multistart` (`trego.rs:53-75`). -/
noncomputable def localStarts (lims : Fin d → ℝ × ℝ) (dist : ℝ × ℝ) (best : Fin d → ℝ) {m : ℕ}
    (call : DoeF64.LhsCall m d) : Design m d :=
  DoeF64.sample (fun j => (localBox (lims j) dist (best j)).1) (fun j => (localBox (lims j) dist (best j)).2)
    (DoeF64.lhsSample call)

end Verif.StepsF64
