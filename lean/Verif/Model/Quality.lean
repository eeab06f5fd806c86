import Verif.Model.Metrics

/-!
# Quality reports

Model of the `gpqa` program (`/repo/crates/gpqa/src/main.rs`) and of `GpQualityAssurance::score`
(`/repo/crates/moe/src/types.rs:162-189`).
-/

set_option autoImplicit false

namespace Verif.Quality

open Verif Metrics

variable {X : Type}

/-- `GpMetric` (`moe/src/types.rs:132-142`). -/
inductive Metric where
  | q2
  | pva
  | iaeAlpha
  | iaeAlphaWithPlot
  deriving DecidableEq

/-- `GpMetricResult` (`moe/src/types.rs:146-153`). A value is `none` when it is not a number or infinite; plot data are the
`alphas` and the `deltas`. -/
structure MetricResult where
  metric : Metric
  value : Option ℝ
  plot : Option (List ℝ × List ℝ)

/-- What a surrogate of a file gives to the metrics: its training data, and the training of a surrogate with its parameters
(`training_data` and `params`, `moe/src/metrics.rs:25-30`). -/
structure Saved (X : Type) where
  rows : List (X × ℝ)
  fit : List (X × ℝ) → Option (Fitted X)

/-- `score` (`moe/src/types.rs:162-189`, with `moe/src/algorithm.rs:572-600` and `ego/src/gpmix/mixint.rs:711-739`); `ppf` is
`Normal(0, 1).inverse_cdf`. -/
noncomputable def score (ppf : ℝ → ℝ) (gp : Saved X) (m : Metric) (k : ℕ) : Except Panic MetricResult :=
  match m with
  | .q2 => do
    let v ← q2KScore gp.fit gp.rows k
    .ok ⟨.q2, v, none⟩
  | .pva => do
    let v ← pvaKScore gp.fit gp.rows k
    .ok ⟨.pva, v, none⟩
  | .iaeAlpha => do
    let r ← iaeAlphaKScore ppf gp.fit gp.rows k
    .ok ⟨.iaeAlpha, some r.1, none⟩
  | .iaeAlphaWithPlot => do
    let r ← iaeAlphaKScore ppf gp.fit gp.rows k
    .ok ⟨.iaeAlphaWithPlot, some r.1, some r.2⟩

/-- `Metrics` (`gpqa/src/main.rs:22-27`). -/
structure Line where
  q2 : Option ℝ
  pva : Option ℝ
  iaeAlpha : Option ℝ

/-- Order in which parallel tasks deliver their results: a rearrangement of any list of tasks. `par_iter().collect()`
keeps the order of the tasks; the model does not rely on it. -/
structure Schedule where
  outer : ∀ {α : Type}, List α → List α
  inner : ∀ {α : Type}, ℕ → List α → List α
  outer_perm : ∀ {α : Type} (l : List α), (outer l).Perm l
  inner_perm : ∀ {α : Type} (i : ℕ) (l : List α), (inner i l).Perm l

/-- `scores.get(m).unwrap()` (`gpqa/src/main.rs:41-66`) in a `HashMap` filled with a list of pairs: the last one with the key. -/
def get (scores : List (Metric × MetricResult)) (m : Metric) : Except Panic MetricResult :=
  match scores.reverse.find? fun s => s.1 = m with
  | some s => .ok s.2
  | none => .error .other

/-- The task for surrogate `i` (`gpqa/src/main.rs:33-69`): the line, and the plot data printed for the first surrogate. -/
noncomputable def task (ppf : ℝ → ℝ) (s : Schedule) (k : ℕ) (gp : Saved X × ℕ) :
    Except Panic ((ℕ × Line) × Option (List ℝ × List ℝ)) := do
  let scores ← (s.inner gp.2 [Metric.q2, .pva, .iaeAlphaWithPlot]).mapM fun m => do
    let r ← score ppf gp.1 m k
    .ok (m, r)
  let q2 ← get scores .q2
  let pva ← get scores .pva
  let iae ← get scores .iaeAlphaWithPlot
  .ok ((gp.2, ⟨q2.value, pva.value, iae.value⟩), if gp.2 = 0 then iae.plot else none)

/-- What is printed: a line per surrogate with its number, and plot data. -/
structure Report where
  lines : List (Line × ℕ)
  plots : List (List ℝ × List ℝ)

/-- `compute_metrics` (`gpqa/src/main.rs:29-73`) and the lines printed from its result (`main.rs:117-122`). -/
noncomputable def computeMetrics (ppf : ℝ → ℝ) (s : Schedule) (gps : List (Saved X)) (k : ℕ) : Except Panic Report := do
  let res ← (s.outer gps.zipIdx).mapM (task ppf s k)
  let sorted := (res.map Prod.fst).mergeSort fun a b => decide (a.1 ≤ b.1)
  .ok ⟨(sorted.map Prod.snd).zipIdx, res.filterMap Prod.snd⟩

/-- Reading of a file with `bincode`: as a vector of surrogates, and as one mixture. Both may fail. -/
structure Decoder (F X : Type) where
  vector : F → Option (List (Saved X))
  single : F → Option (Saved X)

/-- How the program ends without a report. -/
inductive Failure where
  | decoding
  | panic (p : Panic)

/-- Surrogates of a file (`gpqa/src/main.rs:80-96`). -/
def load {F : Type} (d : Decoder F X) (f : F) : Except Failure (List (Saved X)) :=
  let gps := (d.vector f).getD []
  if gps.isEmpty then
    match d.single f with
    | some gp => .ok [gp]
    | none => .error .decoding
  else .ok gps

/-- `main` (`gpqa/src/main.rs:75-125`): `kfold` is zero unless given. Numbers are printed with two decimals, which is not
modelled. -/
noncomputable def main {F : Type} (ppf : ℝ → ℝ) (s : Schedule) (d : Decoder F X) (f : F) (kfold : ℕ) :
    Except Failure Report := do
  let gps ← load d f
  match gps with
  | [] => .error (.panic .other)
  | gp :: _ =>
    let k := if kfold = 0 then gp.rows.length else kfold
    match computeMetrics ppf s gps k with
    | .ok r => .ok r
    | .error p => .error (.panic p)

end Verif.Quality
