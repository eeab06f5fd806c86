import Verif.Model.Flt
import Mathlib.Analysis.SpecialFunctions.Log.Basic
import Mathlib.Analysis.SpecialFunctions.Sqrt

/-!
# Quality metrics

Model over `ℝ` of `/repo/crates/gp/src/metrics.rs` and `/repo/crates/moe/src/metrics.rs`. A row is an input and an
output; a fit gives a prediction and a variance at an input, and may fail (`none`).
-/

set_option autoImplicit false

namespace Verif.Metrics

open Verif

variable {X : Type}

/-- `linfa::Dataset::fold(k)`: chunks of `n / k` rows; fold `i` validates chunk `i` and trains on the concatenation
of the other chunks. The rows of the last, shorter chunk are only used for training. Panics on `k = 0` (division),
`k > n` (chunks of size zero) and `k = 1` (concatenation of no array). -/
def fold (rows : List (X × ℝ)) (k : ℕ) : Except Panic (List (List (X × ℝ) × List (X × ℝ))) :=
  if k = 0 then .error .other
  else
    let s := rows.length / k
    if s = 0 then .error .other
    else if k = 1 then .error .emptyReduction
    else .ok ((List.range k).map fun i => (rows.take (i * s) ++ rows.drop ((i + 1) * s), (rows.drop (i * s)).take s))

/-- A fitted model: prediction and variance. -/
structure Fitted (X : Type) where
  predict : X → ℝ
  var : X → ℝ

/-- `params.fit(&train).expect(..)` -/
def fitted (fit : List (X × ℝ) → Option (Fitted X)) (train : List (X × ℝ)) : Except Panic (Fitted X) :=
  match fit train with
  | some m => .ok m
  | none => .error .other

/-- A fold with its model. -/
def withModel (fit : List (X × ℝ) → Option (Fitted X)) (f : List (X × ℝ) × List (X × ℝ)) :
    Except Panic (Fitted X × List (X × ℝ)) := do
  let m ← fitted fit f.1
  .ok (m, f.2)

/-- `yt.mean().unwrap()` -/
noncomputable def mean (rows : List (X × ℝ)) : Except Panic ℝ :=
  if rows = [] then .error .emptyReduction else .ok ((rows.map Prod.snd).sum / rows.length)

/-- `q2_k_score` (`moe/src/metrics.rs:32-50`), `q2_score` (`gp/src/metrics.rs:34-52`). The inner `none` stands for the
NaN or infinite value of a division by zero. -/
noncomputable def q2KScore (fit : List (X × ℝ) → Option (Fitted X)) (rows : List (X × ℝ)) (k : ℕ) :
    Except Panic (Option ℝ) := do
  let ytMean ← mean rows
  let folds ← fold rows k
  let models ← folds.mapM (withModel fit)
  let press : ℝ := models.foldl (fun (acc : ℝ) f => acc + (f.2.map fun r => (r.2 - f.1.predict r.1) * (r.2 - f.1.predict r.1)).sum) 0
  let tss : ℝ := models.foldl (fun (acc : ℝ) f => acc + (f.2.map fun r => (r.2 - ytMean) * (r.2 - ytMean)).sum) 0
  .ok (if tss = 0 then none else some (1 - press / tss))

/-- `q2_score` (`moe/src/metrics.rs:53-55`), `looq2_score` (`gp/src/metrics.rs:55-57`). -/
noncomputable def q2Score (fit : List (X × ℝ) → Option (Fitted X)) (rows : List (X × ℝ)) :
    Except Panic (Option ℝ) := q2KScore fit rows rows.length

/-- `pva_k_score` (`moe/src/metrics.rs:58-75`). The inner `none` stands for NaN or infinite values (a variance is zero,
logarithm of a number which is not positive). -/
noncomputable def pvaKScore (fit : List (X × ℝ) → Option (Fitted X)) (rows : List (X × ℝ)) (k : ℕ) :
    Except Panic (Option ℝ) := do
  let folds ← fold rows k
  let models ← folds.mapM (withModel fit)
  let varss : ℝ := models.foldl (fun (acc : ℝ) f =>
    acc + (f.2.map fun r => (r.2 - f.1.predict r.1) * (r.2 - f.1.predict r.1) / f.1.var r.1).sum) 0
  let n : ℕ := models.foldl (fun (acc : ℕ) f => acc + f.2.length) 0
  let finite := models.all fun f => f.2.all fun r => decide (f.1.var r.1 ≠ 0)
  .ok (if finite ∧ 0 < varss / n then some |Real.log (varss / n)| else none)

/-- `pva_score` (`moe/src/metrics.rs:78-80`). -/
noncomputable def pvaScore (fit : List (X × ℝ) → Option (Fitted X)) (rows : List (X × ℝ)) :
    Except Panic (Option ℝ) := pvaKScore fit rows rows.length

/-- `Array1::linspace(0.02, 0.98, 20)` (`moe/src/metrics.rs:87-88`). -/
noncomputable def alphas : List ℝ := (List.range 20).map fun (i : ℕ) => 0.02 + (i : ℝ) * ((0.98 - 0.02) / 19)

open Classical in
/-- `empirical_coverage` and the confidence intervals (`moe/src/metrics.rs:160-184, 198-220`) for one `alpha`; `ppf` is
`Normal(0, 1).inverse_cdf`. -/
noncomputable def coverage (ppf : ℝ → ℝ) (m : Fitted X) (valid : List (X × ℝ)) (alpha : ℝ) : ℝ :=
  let q := ppf (1 - alpha / 2)
  (valid.countP fun r =>
    decide (m.predict r.1 - √(m.var r.1) * q ≤ r.2 ∧ r.2 ≤ m.predict r.1 + √(m.var r.1) * q) : ℝ) / valid.length

/-- `iae_alpha` (`moe/src/metrics.rs:146-195`). -/
noncomputable def iaeAlpha (ppf : ℝ → ℝ) (m : Fitted X) (valid : List (X × ℝ)) (alphas : List ℝ) : ℝ × List ℝ :=
  let deltas := alphas.map (coverage ppf m valid)
  (((List.zipWith (fun delta alpha => |delta - (1 - alpha)|) deltas alphas).foldl (· + ·) 0) / alphas.length, deltas)

/-- `iae_alpha_k_score` (`moe/src/metrics.rs:83-138`): the score, and the `alphas` and `deltas` of the plot data. -/
noncomputable def iaeAlphaKScore (ppf : ℝ → ℝ) (fit : List (X × ℝ) → Option (Fitted X)) (rows : List (X × ℝ)) (k : ℕ) :
    Except Panic (ℝ × List ℝ × List ℝ) := do
  let folds ← fold rows k
  let models ← folds.mapM (withModel fit)
  let iaes := models.map fun f => iaeAlpha ppf f.1 f.2 alphas
  let score : ℝ := (iaes.foldl (fun (acc : ℝ) i => acc + i.1) 0) / iaes.length
  let deltas := (iaes.foldl (fun (acc : List ℝ) i => List.zipWith (· + ·) acc i.2) (List.replicate 20 0)).map
    (· / (iaes.length : ℝ))
  .ok (score, alphas, deltas)

/-- `iae_alpha_score` (`moe/src/metrics.rs:141-143`). -/
noncomputable def iaeAlphaScore (ppf : ℝ → ℝ) (fit : List (X × ℝ) → Option (Fitted X)) (rows : List (X × ℝ)) :
    Except Panic (ℝ × List ℝ × List ℝ) := iaeAlphaKScore ppf fit rows rows.length

end Verif.Metrics
