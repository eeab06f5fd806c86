import Verif.Props.Dominance
import Mathlib.MeasureTheory.Integral.Pi

/-!
# C153: the constrained criterion

The objective of the internal optimization with constraints (`Model/Criteria.lean`,
`solver_computations.rs:398-422`). Exact arithmetic.
-/

set_option autoImplicit false

namespace Verif.Spec

open MeasureTheory ProbabilityTheory

/-- Expected improvement on `fmin` by a point which has to meet all constraints, objective and constraints being
independent normal variables: a point violating a constraint improves nothing. -/
noncomputable def constrainedImprovement {k : ℕ} (fmin m : ℝ) (v : NNReal) (tol cm : Fin k → ℝ) (cv : Fin k → NNReal) : ℝ :=
  ∫ ω : ℝ × (Fin k → ℝ), max (fmin - ω.1) 0 * Set.indicator {c : Fin k → ℝ | ∀ i, c i ≤ tol i} (fun _ => 1) ω.2
    ∂(gaussianReal m v).prod (Measure.pi fun i => gaussianReal (cm i) (cv i))

/-- Probability that independent normal variables are at most their tolerances. -/
noncomputable def jointBelow {k : ℕ} (tol cm : Fin k → ℝ) (cv : Fin k → NNReal) : ℝ :=
  (Measure.pi fun i => gaussianReal (cm i) (cv i)).real {c : Fin k → ℝ | ∀ i, c i ≤ tol i}

end Verif.Spec

namespace Verif.Props

open Verif Verif.Criteria Verif.Spec Real
open ProbabilityTheory MeasureTheory

variable {d k : ℕ}

theorem jointBelow_eq (tol cm : Fin k → ℝ) (cv : Fin k → NNReal) :
    jointBelow tol cm cv = ∏ i, probBelow (tol i) (cm i) (cv i) := by
  have h : {c : Fin k → ℝ | ∀ i, c i ≤ tol i} = Set.univ.pi fun i => Set.Iic (tol i) := by
    ext c; simp only [Set.mem_ofPred_eq, Set.mem_pi, Set.mem_univ, Set.mem_Iic, forall_const]
  rw [jointBelow, h, Measure.real, Measure.pi_pi, ENNReal.toReal_prod]
  rfl

theorem constrainedImprovement_eq (fmin m : ℝ) (v : NNReal) (tol cm : Fin k → ℝ) (cv : Fin k → NNReal) :
    constrainedImprovement fmin m v tol cm cv = expectedImprovement fmin m v * jointBelow tol cm cv := by
  have hm : MeasurableSet {c : Fin k → ℝ | ∀ i, c i ≤ tol i} := by
    have h : {c : Fin k → ℝ | ∀ i, c i ≤ tol i} = Set.univ.pi fun i => Set.Iic (tol i) := by
      ext c; simp only [Set.mem_ofPred_eq, Set.mem_pi, Set.mem_univ, Set.mem_Iic, forall_const]
    rw [h]
    exact MeasurableSet.univ_pi fun i => measurableSet_Iic
  rw [constrainedImprovement, integral_prod_mul (fun y : ℝ => max (fmin - y) 0)
    (Set.indicator {c : Fin k → ℝ | ∀ i, c i ≤ tol i} fun _ => (1 : ℝ)), integral_indicator_const _ hm]
  simp [expectedImprovement, jointBelow]

theorem pofs_ofFn (x : Pt d) (C : Fin k → Surrogate d) (T : Fin k → ℝ) :
    pofs x (List.ofFn C) (List.ofFn T) = ∏ i, pof x (C i) (T i) := by
  have h : (List.ofFn C).zip (List.ofFn T) = List.ofFn fun i => (C i, T i) := by
    apply List.ext_getElem <;> simp
  rw [pofs_eq, h, List.map_ofFn, List.prod_ofFn]
  rfl

/-- The probability of feasibility of all constraints is the probability that independent normal variables with the
predicted means and variances meet their tolerances. -/
theorem C153_joint (x : Pt d) (C : Fin k → Surrogate d) (T cm : Fin k → ℝ) (cv : Fin k → NNReal)
    (hC : ∀ i, (C i).valvar x = some (cm i, (cv i : ℝ))) (hcv : ∀ i, eps ≤ cv i) :
    pofs x (List.ofFn C) (List.ofFn T) = jointBelow T cm cv := by
  rw [pofs_ofFn, jointBelow_eq]
  exact Finset.prod_congr rfl fun i _ => C38_is_probability_partial x (C i) (T i) (cm i) (cv i) (hC i) (hcv i) (cv i) rfl

/-- With EI, the objective is minus the expected improvement by a point which has to meet the constraints, over the
scale. -/
theorem C153_ei_expectation (x : Pt d) (s : Surrogate d) (C : Fin k → Surrogate d) (fmin scale sic m w : ℝ) (v var : NNReal)
    (T cm : Fin k → ℝ) (cv : Fin k → NNReal) (hs : s.valvar x = some (m, (v : ℝ))) (hv : eps ≤ v) (hw : 0 < w)
    (hvar : (var : ℝ) = w ^ 2 * v) (hC : ∀ i, (C i).valvar x = some (cm i, (cv i : ℝ))) (hcv : ∀ i, eps ≤ cv i) :
    evalInfillObjWithCstrs .ei x s (List.ofFn C) (List.ofFn T) fmin scale sic true w =
      .ok (-constrainedImprovement fmin m var T cm cv / scale) := by
  rw [constrainedImprovement_eq, ← C153_joint x C T cm cv hC hcv,
    ← C36_is_expectation x s fmin m v (some w) hs hv hw var hvar]
  simp only [evalInfillObjWithCstrs, evalInfillObj, Crit.value, Crit.isLogEi, Except.map, if_true, Bool.false_eq_true,
    if_false]
  congr 1
  ring

/-- With LogEI and a scale of 1, the objective is minus its logarithm, up to a million standard deviations and where
no constraint is less probable than the machine precision. -/
theorem C153_log_expectation_partial (x : Pt d) (s : Surrogate d) (C : Fin k → Surrogate d) (fmin sic m w : ℝ) (v : NNReal)
    (T cm : Fin k → ℝ) (cv : Fin k → NNReal) (hs : s.valvar x = some (m, (v : ℝ))) (hv : eps ≤ v)
    (hu : -10 ^ 6 < (fmin - m) / √v) (hC : ∀ i, (C i).valvar x = some (cm i, (cv i : ℝ))) (hcv : ∀ i, eps ≤ cv i)
    (hp : ∀ i, eps ≤ probBelow (T i) (cm i) (cv i)) :
    evalInfillObjWithCstrs .logEi x s (List.ofFn C) (List.ofFn T) fmin 1 sic true w =
      .ok (-log (constrainedImprovement fmin m v T cm cv)) := by
  have e := (C71_is_log_of_expectation x s fmin m v hs hv v rfl).1 hu
  have hpos : 0 < expectedImprovement fmin m v := by
    rw [← C36_is_expectation x s fmin m v none hs hv (by norm_num) v (by simp)]
    exact C36_pos x s fmin m v none hs hv (by norm_num)
  have hj : 0 < jointBelow T cm cv := by
    rw [jointBelow_eq]
    exact Finset.prod_pos fun i _ => eps_pos.trans_le (hp i)
  have hl : logpofs x (List.ofFn C) (List.ofFn T) = log (jointBelow T cm cv) := by
    have h3 : exp (logpofs x (List.ofFn C) (List.ofFn T)) = pofs x (List.ofFn C) (List.ofFn T) := by
      refine (C72_log_iff x _ _).2.2.2 ?_
      have h : (List.ofFn C).zip (List.ofFn T) = List.ofFn fun i => (C i, T i) := by
        apply List.ext_getElem <;> simp
      rw [h]
      intro p hp'
      obtain ⟨i, rfl⟩ := List.mem_ofFn.1 hp'
      rw [C38_is_probability_partial x (C i) (T i) (cm i) (cv i) (hC i) (hcv i) (cv i) rfl]
      exact hp i
    rw [← C153_joint x C T cm cv hC hcv, ← h3, log_exp]
  rw [constrainedImprovement_eq, log_mul hpos.ne' hj.ne', ← e, ← hl]
  simp only [evalInfillObjWithCstrs, evalInfillObj, Crit.value, Crit.isLogEi, Except.map, if_true]
  congr 1
  ring

/-- The two criteria then order points in the same way. -/
theorem C153_same_order (x y : Pt d) (s : Surrogate d) (C : Fin k → Surrogate d) (fmin scale sic sic' m m' : ℝ)
    (v v' : NNReal) (T cm cm' : Fin k → ℝ) (cv cv' : Fin k → NNReal) (hsc : 0 < scale)
    (hs : s.valvar x = some (m, (v : ℝ))) (hv : eps ≤ v) (hu : -10 ^ 6 < (fmin - m) / √v)
    (hC : ∀ i, (C i).valvar x = some (cm i, (cv i : ℝ))) (hcv : ∀ i, eps ≤ cv i)
    (hp : ∀ i, eps ≤ probBelow (T i) (cm i) (cv i))
    (hs' : s.valvar y = some (m', (v' : ℝ))) (hv' : eps ≤ v') (hu' : -10 ^ 6 < (fmin - m') / √v')
    (hC' : ∀ i, (C i).valvar y = some (cm' i, (cv' i : ℝ))) (hcv' : ∀ i, eps ≤ cv' i)
    (hp' : ∀ i, eps ≤ probBelow (T i) (cm' i) (cv' i)) :
    ∃ a b a' b', evalInfillObjWithCstrs .ei x s (List.ofFn C) (List.ofFn T) fmin scale sic true 1 = .ok a ∧
      evalInfillObjWithCstrs .ei y s (List.ofFn C) (List.ofFn T) fmin scale sic true 1 = .ok b ∧
      evalInfillObjWithCstrs .logEi x s (List.ofFn C) (List.ofFn T) fmin 1 sic' true 1 = .ok a' ∧
      evalInfillObjWithCstrs .logEi y s (List.ofFn C) (List.ofFn T) fmin 1 sic' true 1 = .ok b' ∧
      (a < b ↔ constrainedImprovement fmin m' v' T cm' cv' < constrainedImprovement fmin m v T cm cv) ∧
      (a' < b' ↔ a < b) := by
  refine ⟨_, _, _, _, C153_ei_expectation x s C fmin scale sic m 1 v v T cm cv hs hv one_pos (by simp) hC hcv,
    C153_ei_expectation y s C fmin scale sic m' 1 v' v' T cm' cv' hs' hv' one_pos (by simp) hC' hcv',
    C153_log_expectation_partial x s C fmin sic' m 1 v T cm cv hs hv hu hC hcv hp,
    C153_log_expectation_partial y s C fmin sic' m' 1 v' T cm' cv' hs' hv' hu' hC' hcv' hp', ?_, ?_⟩
  · rw [div_lt_div_iff_of_pos_right hsc, neg_lt_neg_iff]
  · have hpos : ∀ (z : Pt d) (n : ℝ) (u : NNReal) (cn : Fin k → ℝ) (cu : Fin k → NNReal), s.valvar z = some (n, (u : ℝ)) →
        eps ≤ u → (∀ i, eps ≤ probBelow (T i) (cn i) (cu i)) → 0 < constrainedImprovement fmin n u T cn cu := by
      intro z n u cn cu h1 h2 h3
      rw [constrainedImprovement_eq, jointBelow_eq]
      refine mul_pos ?_ (Finset.prod_pos fun i _ => eps_pos.trans_le (h3 i))
      rw [← C36_is_expectation z s fmin n u none h1 h2 (by norm_num) u (by simp)]
      exact C36_pos z s fmin n u none h1 h2 (by norm_num)
    rw [div_lt_div_iff_of_pos_right hsc, neg_lt_neg_iff, neg_lt_neg_iff,
      log_lt_log_iff (hpos y m' v' cm' cv' hs' hv' hp') (hpos x m v cm cv hs hv hp)]

/-- Two constraints of tolerances 0 and 4, mean 3 and variance 2. -/
example : evalInfillObjWithCstrs .ei ![1, 1] exSurr [exSurr, exSurr] [0, 4] 5 10 1 true 1 =
    .ok (-constrainedImprovement 5 3 2 ![0, 4] (fun _ => 3) (fun _ => 2) / 10) :=
  have hv : exSurr.valvar ![1, 1] = some (3, ((2 : NNReal) : ℝ)) := by simp only [exSurr, exMean, exVar]; norm_num
  C153_ei_expectation ![1, 1] exSurr (fun _ : Fin 2 => exSurr) 5 10 1 3 1 2 2 ![0, 4] _ _ hv
    (by norm_num; linarith [eps_lt_one]) one_pos (by norm_num) (fun _ => hv) (fun _ => by norm_num; linarith [eps_lt_one])

/-! ## Which points are preferred -/

theorem pofs_nonneg (x : Pt d) (cs : List (Surrogate d)) (tols : List ℝ) : 0 ≤ pofs x cs tols := by
  rw [pofs_eq]
  refine List.prod_nonneg fun a ha => ?_
  obtain ⟨p, -, rfl⟩ := List.mem_map.1 ha
  exact (C38_range_partial x p.1 p.2).1

/-- Among points of equal criterion (EI or WB2) the more probably feasible one is preferred if and only if the criterion
is positive. -/
theorem C153_feasible_iff (c : Crit) (x y : Pt d) (s : Surrogate d) (cs : List (Surrogate d)) (tols : List ℝ)
    (fmin scale sic w g : ℝ) (hc : c ≠ .logEi) (hsc : 0 < scale) (hx : c.value x s fmin (some w) (some sic) = .ok g)
    (hy : c.value y s fmin (some w) (some sic) = .ok g) (hp : pofs x cs tols < pofs y cs tols) :
    ∃ a b, evalInfillObjWithCstrs c x s cs tols fmin scale sic true w = .ok a ∧
      evalInfillObjWithCstrs c y s cs tols fmin scale sic true w = .ok b ∧ (b < a ↔ 0 < g) ∧ (a < b ↔ g < 0) := by
  have hL : c.isLogEi = false := by cases c <;> simp_all [Crit.isLogEi]
  refine ⟨-g / scale * pofs x cs tols, -g / scale * pofs y cs tols, ?_, ?_, ?_, ?_⟩
  · simp [evalInfillObjWithCstrs, evalInfillObj, hx, hL, Except.map]
  · simp [evalInfillObjWithCstrs, evalInfillObj, hy, hL, Except.map]
  · rw [← sub_pos, ← mul_sub, mul_pos_iff]
    simp only [sub_pos, sub_neg, hp, hp.not_gt, and_false, and_true, false_or, div_neg_iff, Left.neg_neg_iff, hsc,
      hsc.not_gt]
  · rw [← sub_pos, ← mul_sub, mul_pos_iff]
    simp only [sub_pos, sub_neg, hp, hp.not_gt, and_false, and_true, or_false, div_pos_iff, Left.neg_pos_iff, hsc,
      hsc.not_gt]

/-- So with EI it always is, where the objective is not known with certainty. -/
theorem C153_ei_feasible (x y : Pt d) (s : Surrogate d) (cs : List (Surrogate d)) (tols : List ℝ)
    (fmin scale sic w m v : ℝ) (hsc : 0 < scale) (hw : 0 < w) (hx : s.valvar x = some (m, v)) (hy : s.valvar y = some (m, v))
    (hv : eps ≤ v) (hp : pofs x cs tols < pofs y cs tols) :
    ∃ a b, evalInfillObjWithCstrs .ei x s cs tols fmin scale sic true w = .ok a ∧
      evalInfillObjWithCstrs .ei y s cs tols fmin scale sic true w = .ok b ∧ b < a := by
  have hg := C36_pos x s fmin m v (some w) hx hv hw
  obtain ⟨a, b, h1, h2, h3, -⟩ := C153_feasible_iff .ei x y s cs tols fmin scale sic w _ (by simp) hsc rfl
    (by simp only [Crit.value, eiValue, hx, hy]) hp
  exact ⟨a, b, h1, h2, h3.2 hg⟩

/-- The predictions of a surrogate once a constant is added to the objective. -/
def shifted (b : ℝ) (s : Surrogate d) : Surrogate d where
  predict x := (s.predict x).map (· + b)
  predictGrad := s.predictGrad
  valvar x := (s.valvar x).map fun p => (p.1 + b, p.2)
  valvarGrad := s.valvarGrad

theorem eiValue_shifted (x : Pt d) (s : Surrogate d) (fmin b : ℝ) (w : Option ℝ) :
    eiValue x (shifted b s) (fmin + b) w = eiValue x s fmin w := by
  have h : (shifted b s).valvar x = (s.valvar x).map fun p => (p.1 + b, p.2) := rfl
  unfold eiValue
  rw [h]
  cases s.valvar x with
  | none => rfl
  | some p => simp only [Option.map_some, eiAt, add_sub_add_right_eq_sub]

/-- C153 is refuted for WB2: whatever the surrogates, of two points not equally feasible the less probably feasible one is
preferred as soon as a large enough constant is added to the objective, and the other one as soon as a large enough one
is subtracted. -/
theorem C153_refuted_wb2 (c : Option ℝ) (x y : Pt d) (s : Surrogate d) (cs : List (Surrogate d)) (tols : List ℝ)
    (fmin scale sic w m m' : ℝ) (hsc : 0 < scale) (hx : s.predict x = some m) (hy : s.predict y = some m')
    (hp : pofs x cs tols < pofs y cs tols) :
    ∃ B, ∀ b, ∃ u v, evalInfillObjWithCstrs (.wb2 c) x (shifted b s) cs tols (fmin + b) scale sic true w = .ok u ∧
      evalInfillObjWithCstrs (.wb2 c) y (shifted b s) cs tols (fmin + b) scale sic true w = .ok v ∧
      (u < v ↔ B < b) ∧ (v < u ↔ b < B) := by
  have hd : 0 < pofs y cs tols - pofs x cs tols := sub_pos.2 hp
  set P := pofs x cs tols
  set Q := pofs y cs tols
  set E := eiValue x s fmin (some w)
  set E' := eiValue y s fmin (some w)
  refine ⟨((m - sic * E) * P - (m' - sic * E') * Q) / (Q - P), fun b =>
    ⟨-(sic * E - (m + b)) / scale * P, -(sic * E' - (m' + b)) / scale * Q, ?_, ?_, ?_, ?_⟩⟩
  · have h : (shifted b s).predict x = some (m + b) := by simp [shifted, hx]
    simp only [evalInfillObjWithCstrs, evalInfillObj, Crit.value, Crit.isLogEi, h, unwrap, Except.map, wb2Scale, if_true,
      Bool.false_eq_true, if_false, eiValue_shifted, Option.getD_some]
    rfl
  · have h : (shifted b s).predict y = some (m' + b) := by simp [shifted, hy]
    simp only [evalInfillObjWithCstrs, evalInfillObj, Crit.value, Crit.isLogEi, h, unwrap, Except.map, wb2Scale, if_true,
      Bool.false_eq_true, if_false, eiValue_shifted, Option.getD_some]
    rfl
  · rw [div_lt_iff₀ hd, div_mul_eq_mul_div, div_mul_eq_mul_div, div_lt_div_iff_of_pos_right hsc]
    constructor <;> intro h <;> nlinarith
  · rw [lt_div_iff₀ hd, div_mul_eq_mul_div, div_mul_eq_mul_div, div_lt_div_iff_of_pos_right hsc]
    constructor <;> intro h <;> nlinarith

/-- The surrogate of the example as objective and as constraint: prediction 2 and variance 1 at a point, 1 and 2 at the
other. -/
example : ∃ B, ∀ b, ∃ u v,
    evalInfillObjWithCstrs (.wb2 (some 1)) ![0, 1] (shifted b exSurr) [exSurr] [0] (3 + b) 1 1 true 1 = .ok u ∧
      evalInfillObjWithCstrs (.wb2 (some 1)) ![1, 0] (shifted b exSurr) [exSurr] [0] (3 + b) 1 1 true 1 = .ok v ∧
      (u < v ↔ B < b) ∧ (v < u ↔ b < B) := by
  refine C153_refuted_wb2 _ _ _ _ _ _ 3 1 1 1 _ _ one_pos exSurr_two.2.2.1 exSurr_two.2.2.2 ?_
  have e : ∀ z : Pt 2, pofs z [exSurr] [0] = pof z exSurr 0 := fun z => by simp [pofs]
  have he := eps_lt_one
  rw [e, e]
  simp only [pof, exSurr_two.1, exSurr_two.2.1]
  rw [pofAt_eq he.le, pofAt_eq (by linarith)]
  refine strictMono_of_hasDerivAt_pos Gauss.hasDerivAt_normCdf Gauss.normPdf_pos ?_
  rw [sqrt_one, div_one, zero_sub, zero_sub, neg_div, neg_lt_neg_iff, div_lt_iff₀ (by positivity)]
  have : 1 < √2 := by rw [lt_sqrt] <;> norm_num
  linarith

/-! ## The scale with LogEI -/

/-- A surrogate predicting `f` at the first point and `g` elsewhere. -/
noncomputable def twoValues (A : Pt 1) (f g : ℝ × ℝ) : Surrogate 1 := by
  classical
  exact ⟨fun x => some (if x = A then f.1 else g.1), fun _ => none, fun x => some (if x = A then f else g), fun _ => none⟩

theorem normCdf_zero : normCdf 0 = 1 / 2 := by
  have h := normCdf_neg 0
  rw [neg_zero] at h
  linarith

/-- C153 is refuted for LogEI with any scale other than 1: only the criterion is divided by it, so that there are points
which EI and LogEI order differently, whatever the current minimum. -/
theorem C153_refuted_log_scale (fmin scale scale' sic : ℝ) (hsc : 0 < scale) (h1 : scale ≠ 1) (hsc' : 0 < scale')
    (A B : Pt 1) (hAB : B ≠ A) :
    ∃ (s q : Surrogate 1) (a b a' b' : ℝ), (∀ x, ∃ m v, s.valvar x = some (m, v) ∧ 1 ≤ v ∧ m = fmin) ∧
      (∀ x, eps ≤ pof x q 0) ∧
      evalInfillObjWithCstrs .ei A s [q] [0] fmin scale' sic true 1 = .ok a ∧
      evalInfillObjWithCstrs .ei B s [q] [0] fmin scale' sic true 1 = .ok b ∧
      evalInfillObjWithCstrs .logEi A s [q] [0] fmin scale sic true 1 = .ok a' ∧
      evalInfillObjWithCstrs .logEi B s [q] [0] fmin scale sic true 1 = .ok b' ∧
      ((a < b ∧ b' < a') ∨ (b < a ∧ a' < b')) := by
  have he := eps_lt_one
  have he2 : eps ≤ 1 / 2 := by unfold eps; norm_num
  have hr : normCdf 0 < normCdf 1 := strictMono_of_hasDerivAt_pos Gauss.hasDerivAt_normCdf Gauss.normPdf_pos one_pos
  have h0 := normCdf_zero
  set L := log (normCdf 1 / normCdf 0) with hLdef
  have hL : 0 < L := log_pos (by rw [lt_div_iff₀ (by rw [h0]; norm_num)]; linarith)
  set t := (1 + scale) / 2 * L with ht
  have ht0 : 0 < t := by positivity
  have hv1 : 1 ≤ rexp (2 * t) := one_le_exp (by positivity)
  have hq1 : 0 < normCdf 1 := by linarith
  have hq0 : 0 < normCdf 0 := by rw [h0]; norm_num
  have hsA : √(rexp (2 * t)) = rexp t := by rw [show 2 * t = t + t by ring, exp_add, sqrt_mul_self (exp_pos t).le]
  have hvA : eps ≤ rexp (2 * t) := he.le.trans hv1
  have hpA : pof A (twoValues A (0, 1) (-1, 1)) 0 = normCdf 0 := by
    simp only [pof, twoValues, if_true]
    rw [pofAt_eq he.le]
    simp
  have hpB : ∀ x, x ≠ A → pof x (twoValues A (0, 1) (-1, 1)) 0 = normCdf 1 := by
    intro x hx
    simp only [pof, twoValues, hx, if_false]
    rw [pofAt_eq he.le]
    simp
  have hh : Gauss.h 0 = normPdf 0 := by simp [Gauss.h]
  have hEA : eiValue A (twoValues A (fmin, rexp (2 * t)) (fmin, 1)) fmin (some 1) = rexp t * normPdf 0 := by
    simp only [eiValue, twoValues, if_true, Option.getD_some]
    rw [eiAt_eq hvA, hsA, sub_self, zero_div, hh, one_mul]
  have hEB : eiValue B (twoValues A (fmin, rexp (2 * t)) (fmin, 1)) fmin (some 1) = normPdf 0 := by
    simp only [eiValue, twoValues, hAB, if_false, Option.getD_some]
    rw [eiAt_eq he.le, sub_self, zero_div, hh, sqrt_one, one_mul, one_mul]
  have hLA : logEiValue A (twoValues A (fmin, rexp (2 * t)) (fmin, 1)) fmin = log (normPdf 0) + t := by
    simp only [logEiValue, twoValues, if_true, logEiAt, not_lt.2 hvA, if_false, hsA, sub_self, zero_div, log_exp]
    rw [Gauss.logEiHelper_eq (by norm_num), hh]
  have hLB : logEiValue B (twoValues A (fmin, rexp (2 * t)) (fmin, 1)) fmin = log (normPdf 0) := by
    simp only [logEiValue, twoValues, hAB, if_false, logEiAt, not_lt.2 he.le, sub_self, zero_div, sqrt_one, log_one,
      add_zero]
    rw [Gauss.logEiHelper_eq (by norm_num), hh]
  -- predictions of the constraint: 0 at `A`, -1 elsewhere
  refine ⟨twoValues A (fmin, rexp (2 * t)) (fmin, 1), twoValues A (0, 1) (-1, 1),
    -(rexp t * normPdf 0) / scale' * normCdf 0, -(normPdf 0) / scale' * normCdf 1,
    -(log (normPdf 0) + t) / scale - log (normCdf 0), -log (normPdf 0) / scale - log (normCdf 1), ?_, ?_, ?_, ?_, ?_, ?_, ?_⟩
  · intro x
    by_cases hx : x = A
    · exact ⟨fmin, rexp (2 * t), by simp [twoValues, hx], hv1, rfl⟩
    · exact ⟨fmin, 1, by simp [twoValues, hx], le_rfl, rfl⟩
  · intro x
    by_cases hx : x = A
    · rw [hx, hpA, h0]; exact he2
    · rw [hpB x hx]; linarith
  · simp only [evalInfillObjWithCstrs, evalInfillObj, Crit.value, Crit.isLogEi, Except.map, if_true, Bool.false_eq_true,
      if_false, hEA, pofs_eq, List.zip_cons_cons, List.zip_nil_left, List.map_cons, List.map_nil, List.prod_singleton, hpA]
  · simp only [evalInfillObjWithCstrs, evalInfillObj, Crit.value, Crit.isLogEi, Except.map, if_true, Bool.false_eq_true,
      if_false, hEB, pofs_eq, List.zip_cons_cons, List.zip_nil_left, List.map_cons, List.map_nil, List.prod_singleton,
      hpB B hAB]
  · simp only [evalInfillObjWithCstrs, evalInfillObj, Crit.value, Crit.isLogEi, Except.map, if_true, hLA, logpofs,
      List.zip_cons_cons, List.zip_nil_left, List.map_cons, List.map_nil, List.foldl_cons, List.foldl_nil, zero_add, hpA,
      max_eq_left (h0 ▸ he2 : eps ≤ normCdf 0)]
  · simp only [evalInfillObjWithCstrs, evalInfillObj, Crit.value, Crit.isLogEi, Except.map, if_true, hLB, logpofs,
      List.zip_cons_cons, List.zip_nil_left, List.map_cons, List.map_nil, List.foldl_cons, List.foldl_nil, zero_add,
      hpB B hAB, max_eq_left (by linarith : eps ≤ normCdf 1)]
  · have hLL : L = log (normCdf 1) - log (normCdf 0) := log_div hq1.ne' hq0.ne'
    have e1 : -(log (normPdf 0) + t) / scale - log (normCdf 0) - (-log (normPdf 0) / scale - log (normCdf 1)) =
        (scale - 1) * L / (2 * scale) := by
      rw [ht, hLL]; field_simp; ring
    have e2 : normCdf 1 = normCdf 0 * rexp L := by
      rw [hLdef, exp_log (by positivity)]; field_simp
    have e3 : -(rexp t * normPdf 0) / scale' * normCdf 0 - -(normPdf 0) / scale' * normCdf 1 =
        normPdf 0 * normCdf 0 / scale' * (rexp L - rexp t) := by
      rw [e2]; ring
    have hn0 := Gauss.normPdf_pos 0
    have hk : 0 < normPdf 0 * normCdf 0 / scale' := by positivity
    rcases lt_or_gt_of_ne h1 with hlt | hgt
    · right
      have htL : t < L := by rw [ht]; nlinarith
      refine ⟨sub_pos.1 (e3 ▸ mul_pos hk (sub_pos.2 (exp_lt_exp.2 htL))), sub_neg.1 (e1 ▸ ?_)⟩
      exact div_neg_of_neg_of_pos (mul_neg_of_neg_of_pos (by linarith) hL) (by positivity)
    · left
      have htL : L < t := by rw [ht]; nlinarith
      refine ⟨sub_neg.1 (e3 ▸ mul_neg_of_pos_of_neg hk (sub_neg.2 (exp_lt_exp.2 htL))), sub_pos.1 (e1 ▸ ?_)⟩
      exact div_pos (mul_pos (by linarith) hL) (by positivity)

/-- Points where the objective is predicted alike and the constraint is not. -/
example : ∃ (s q : Surrogate 1) (a b a' b' : ℝ), (∀ x, ∃ m v, s.valvar x = some (m, v) ∧ 1 ≤ v ∧ m = 3) ∧
      (∀ x, eps ≤ pof x q 0) ∧
      evalInfillObjWithCstrs .ei ![0] s [q] [0] 3 1 1 true 1 = .ok a ∧
      evalInfillObjWithCstrs .ei ![1] s [q] [0] 3 1 1 true 1 = .ok b ∧
      evalInfillObjWithCstrs .logEi ![0] s [q] [0] 3 2 1 true 1 = .ok a' ∧
      evalInfillObjWithCstrs .logEi ![1] s [q] [0] 3 2 1 true 1 = .ok b' ∧
      ((a < b ∧ b' < a') ∨ (b < a ∧ a' < b')) :=
  C153_refuted_log_scale 3 2 1 1 (by norm_num) (by norm_num) (by norm_num) ![0] ![1] (by simp)

/-! ## No feasible point yet, no constraint -/

/-- While no feasible point is known, the most probably feasible points are preferred, whatever is predicted of the
objective. -/
theorem C153_search_feasible (c : Crit) (x y : Pt d) (s : Surrogate d) (cs : List (Surrogate d)) (tols : List ℝ)
    (fmin scale sic w : ℝ) (hc : c ≠ .logEi) :
    ∃ a b, evalInfillObjWithCstrs c x s cs tols fmin scale sic false w = .ok a ∧
      evalInfillObjWithCstrs c y s cs tols fmin scale sic false w = .ok b ∧
      (a < b ↔ pofs y cs tols < pofs x cs tols) := by
  have hL : c.isLogEi = false := by cases c <;> simp_all [Crit.isLogEi]
  refine ⟨-pofs x cs tols, -pofs y cs tols, ?_, ?_, neg_lt_neg_iff⟩ <;>
    simp [evalInfillObjWithCstrs, hL, Except.map]

/-- With LogEI they are if no constraint is less probable than the machine precision. -/
theorem C153_log_search_feasible_partial (x y : Pt d) (s : Surrogate d) (cs : List (Surrogate d)) (tols : List ℝ)
    (fmin scale sic w : ℝ) (hx : ∀ p ∈ cs.zip tols, eps ≤ pof x p.1 p.2) (hy : ∀ p ∈ cs.zip tols, eps ≤ pof y p.1 p.2) :
    ∃ a b, evalInfillObjWithCstrs .logEi x s cs tols fmin scale sic false w = .ok a ∧
      evalInfillObjWithCstrs .logEi y s cs tols fmin scale sic false w = .ok b ∧
      (a < b ↔ pofs y cs tols < pofs x cs tols) := by
  refine ⟨-logpofs x cs tols, -logpofs y cs tols, by simp [evalInfillObjWithCstrs, Crit.isLogEi, Except.map],
    by simp [evalInfillObjWithCstrs, Crit.isLogEi, Except.map], ?_⟩
  rw [neg_lt_neg_iff, ← exp_lt_exp, (C72_log_iff x cs tols).2.2.2 hx, (C72_log_iff y cs tols).2.2.2 hy]

/-- C153 is refuted for LogEI far from the feasible region: all points where every constraint is less probable than the
machine precision have the same objective. -/
theorem C153_refuted_log_flat (x y : Pt d) (s : Surrogate d) (cs : List (Surrogate d)) (tols : List ℝ)
    (fmin scale sic w : ℝ) (hx : ∀ p ∈ cs.zip tols, pof x p.1 p.2 ≤ eps) (hy : ∀ p ∈ cs.zip tols, pof y p.1 p.2 ≤ eps) :
    evalInfillObjWithCstrs .logEi x s cs tols fmin scale sic false w =
      evalInfillObjWithCstrs .logEi y s cs tols fmin scale sic false w := by
  have h : logpofs x cs tols = logpofs y cs tols := by
    unfold logpofs
    congr 1
    refine List.map_congr_left fun p hp => ?_
    rw [max_eq_right (hx p hp), max_eq_right (hy p hp)]
  simp [evalInfillObjWithCstrs, h, Crit.isLogEi, Except.map]

/-- Without constraints the objective is the unconstrained one once a point is known. -/
theorem C153_no_constraint (c : Crit) (x : Pt d) (s : Surrogate d) (tols : List ℝ) (fmin scale sic w : ℝ) :
    evalInfillObjWithCstrs c x s [] tols fmin scale sic true w = evalInfillObj c x s fmin scale sic w := by
  cases h : evalInfillObj c x s fmin scale sic w <;>
    simp [evalInfillObjWithCstrs, h, Except.map, logpofs, pofs]

end Verif.Props
