import Verif.Model.Moe
import Verif.Spec.Best

/-!
# Specification of the mixture of experts (discrete part)
-/

set_option autoImplicit false

namespace Verif.Spec

open Verif Moe

/-- Rows having label `j`, in the original order. -/
def cluster {α : Type} (data : List α) (labels : List ℕ) (j : ℕ) : List α :=
  ((data.zip labels).filter fun p => p.2 = j).map Prod.fst

/-- All combinations of mean and correlation models, in order of preference. -/
def experts : List (MeanKind × CorrKind) :=
  [(.constant, .squaredExponential), (.constant, .absoluteExponential), (.constant, .matern32),
   (.constant, .matern52), (.linear, .squaredExponential), (.linear, .absoluteExponential),
   (.linear, .matern32), (.linear, .matern52), (.quadratic, .squaredExponential),
   (.quadratic, .absoluteExponential), (.quadratic, .matern32), (.quadratic, .matern52)]

/-- Allowed by the specifications. -/
def Allowed (rs : RegressionSpec) (cs : CorrelationSpec) (p : MeanKind × CorrKind) : Bool :=
  rs.contains p.1 && cs.contains p.2

/-- The allowed combinations, in order of preference. -/
def allowed (rs : RegressionSpec) (cs : CorrelationSpec) : List (MeanKind × CorrKind) :=
  experts.filter (Allowed rs cs)

/-- `p` is the first element of `l` having the smallest error (elements whose error is NaN do not
count). -/
def IsFirstBest {α : Type} (E : α → Flt) (l : List α) (p : α) : Prop :=
  E p ≠ .nan ∧ ∃ pre post, l = pre ++ p :: post ∧
    (∀ q ∈ pre, E q = .nan ∨ toE (E p) < toE (E q)) ∧ (∀ q ∈ post, E q = .nan ∨ toE (E p) ≤ toE (E q))

/-- Number of points required by the most demanding allowed mean model in dimension `d`: the number of
its basis functions. -/
def requiredPoints (rs : RegressionSpec) (d : ℕ) : ℕ :=
  if rs.quadratic then (d + 1) * (d + 2) / 2 else if rs.linear then d + 1 else 1

/-- `m` is a median of `l`: the middle element of the sorted list or the half sum of the two middle
elements. -/
def IsMedian (l : List Flt) (m : Flt) : Prop :=
  ∃ s : List Flt, s.Perm l ∧ (s.map toE).Pairwise (· ≤ ·) ∧
    ((∃ k, s.length = 2 * k + 1 ∧ s[k]? = some m) ∨
     (∃ k a b, s.length = 2 * (k + 1) ∧ s[k]? = some a ∧ s[k + 1]? = some b ∧
        2 * toE m = toE a + toE b))

/-- The predictions of one fold can be used: the model could be trained and used for prediction, each cluster
has more than three elements, no prediction is NaN (or some is infinite). -/
def FoldPossible (f : Fold) : Prop :=
  ∃ lens actual ph ps, f = .fitted lens actual (some ph) (some ps) ∧ (∀ l ∈ lens, 3 < l) ∧
    ((∃ v ∈ ph, v = .pinf ∨ v = .ninf) ∨ .nan ∉ ph) ∧ ((∃ v ∈ ps, v = .pinf ∨ v = .ninf) ∨ .nan ∉ ps)

/-- A number of clusters is possible: all the folds are. -/
def Possible (t : Try) : Prop := ∃ l, t = .folds l ∧ l ≠ [] ∧ ∀ f ∈ l, FoldPossible f

/-- Hard and smooth cross validation errors of a try. -/
def hardErrors (t : Try) : List Flt := (tryErrors t).1

/-- Smooth cross validation errors of a try. -/
def smoothErrors (t : Try) : List Flt := (tryErrors t).2.1

end Verif.Spec
