import Verif.Model.MixInt

/-!
# Mixed-integer sampling and surrogates

Model of `MixintSampling` and `MixintGpMixture` (`/repo/crates/ego/src/gpmix/mixint.rs:234-287, 344-396, 577-762`).
The continuous sampling and the continuous surrogate are parameters: rows given by the sampling method, a training
function that gives a prediction (value, variance, gradients, sample paths: any function of a point).
-/

set_option autoImplicit false
set_option linter.unusedSectionVars false

namespace Verif.MixInt

open Verif

variable {K : Type} [Field K] [LinearOrder K] [IsStrictOrderedRing K] [FloorRing K]

/-- `MixintSampling::sample` (`mixint.rs:278-286`) for the rows given by the continuous method. -/
def mixintSample (ts : List (XType K)) (folded : Bool) (rows : List (List K)) : Except Panic (List (List K)) :=
  rows.mapM (mixintSampleRow ts folded)

/-- The point given to the continuous surrogate (`mixint.rs:350-355, 376-381, 590-595` and the same lines in each
prediction method). -/
def surrogateInput (ts : List (XType K)) (folded : Bool) (x : List K) : Except Panic (List K) := do
  let u ← if folded then toContinuousSpace ts x else .ok x
  castRow ts u

/-- `MixintGpMixture`: the continuous surrogate, and the training data as they were given (`mixint.rs:356-366`). -/
structure Mixint (K V : Type) where
  moe : List K → V
  xtypes : List (XType K)
  folded : Bool
  trainingX : List (List K)
  trainingY : List K

/-- `_train`, `_train_on_clusters` (`mixint.rs:345-395`). -/
def mixintTrain {V : Type} (train : List (List K) → List K → Except Panic (List K → V)) (ts : List (XType K))
    (folded : Bool) (x : List (List K)) (y : List K) : Except Panic (Mixint K V) := do
  let xs ← x.mapM (surrogateInput ts folded)
  let m ← train xs y
  .ok ⟨m, ts, folded, x, y⟩

/-- `predict`, `predict_var`, `predict_valvar`, `predict_gradients`, `predict_var_gradients`,
`predict_valvar_gradients`, `sample` (`mixint.rs:589-620, 656-697`): the same code but for the last call. -/
def Mixint.predict {V : Type} (m : Mixint K V) (x : List K) : Except Panic V := do
  let u ← surrogateInput m.xtypes m.folded x
  .ok (m.moe u)

/-- `PredictInplace::predict_inplace` (`mixint.rs:749-758`), used by the `predict` of `linfa`. -/
def Mixint.linfaPredict {V : Type} (m : Mixint K V) (x : List K) : V := m.moe x

end Verif.MixInt
