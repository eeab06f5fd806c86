import Verif.Model.DoeF64
import Verif.Model.MixIntModel

/-!
# Mixed-integer variables in `f64`

The functions of `Model/MixInt.lean` with the arithmetic of `f64`. Comparisons, absolute values, `round` and the limits of
the relaxed space are exact: the only operations which round are the differences of `take_closest` and the scaling of
samples.
-/

set_option autoImplicit false

namespace Verif.MixIntF64

open Verif F64 MixInt

/-- `take_closest` (`mixint.rs:156-162`). -/
noncomputable def takeClosest (vs : List ℝ) (v : ℝ) : Except Panic ℝ := do
  let i ← argmin (vs.map fun r => |sub v r|)
  match vs[i]? with
  | some r => .ok r
  | none => .error .outOfBounds

/-- `cast_to_discrete_values_mut` (`mixint.rs:167-201`) on one row, as `MixInt.castRow`. -/
noncomputable def castRow : List (XType ℝ) → List ℝ → Except Panic (List ℝ)
  | [], xs => .ok xs
  | .float _ _ :: ts, [] => castRow ts []
  | .float _ _ :: ts, x :: xs => do
    let r ← castRow ts xs
    .ok (x :: r)
  | .int _ _ :: _, [] => .error .outOfBounds
  | .int _ _ :: ts, x :: xs => do
    let r ← castRow ts xs
    .ok ((roundHalfAway x : ℝ) :: r)
  | .ord _ :: _, [] => .error .outOfBounds
  | .ord vs :: ts, x :: xs => do
    let c ← takeClosest vs x
    let r ← castRow ts xs
    .ok (c :: r)
  | .enum v :: ts, xs =>
    if v ≤ xs.length then do
      let m ← argmax (xs.take v)
      let r ← castRow ts (xs.drop v)
      .ok (oneHot v m ++ r)
    else .error .outOfBounds

/-- `MixintSampling::sample` (`mixint.rs:278-286`) on one row of the normalized sample, scaled by
`SamplingMethod::sample` to the limits of the relaxed space (`mixint.rs:38-67`, `traits.rs:40-45`). -/
noncomputable def sampleRow (ts : List (XType ℝ)) (folded : Bool) (v : List ℝ) : Except Panic (List ℝ) := do
  let lim ← continuousLimits ts
  let d ← castRow ts (DoeF64.sampleRow lim v)
  if folded then fold ts d else .ok d

/-- `MixintSampling::sample` (`mixint.rs:278-286`) on a normalized sample. -/
noncomputable def sample (ts : List (XType ℝ)) (folded : Bool) (rows : List (List ℝ)) : Except Panic (List (List ℝ)) :=
  rows.mapM (sampleRow ts folded)

end Verif.MixIntF64
