import Verif.Props.Criteria

/-!
# C73: weights of the standard deviation, exact condition
-/

set_option autoImplicit false

namespace Verif.Props

open Verif Verif.Criteria Verif.Spec Real ProbabilityTheory

variable {d : ℕ}

theorem probBelow_std (u : ℝ) : probBelow u 0 1 = normCdf u := (Gauss.normCdf_eq_prob u).symm

/-- The gradient of the expected improvement in closed form. -/
theorem eiGradAt_eq (fmin k pred var : ℝ) (hk : 0 < k) (hv : 0 < var) (dm dv : Pt d) (j : Fin d) :
    eiGradAt fmin k pred var dm dv j =
      k * dv j / (2 * √var) * gaussianPDFReal 0 1 ((fmin - pred) / √var / k) -
        dm j * probBelow ((fmin - pred) / √var / k) 0 1 := by
  have hσ : 0 < √var := sqrt_pos.2 hv
  rw [probBelow_std, ← Gauss.normPdf_eq, div_div, mul_comm (√var) k]
  simp only [eiGradAt]
  set a := (fmin - pred) / (k * √var) with ha
  have hd : fmin - pred = k * √var * a := by rw [ha]; field_simp
  have hf : k * √var * (-a / √(2 * π)) * rexp (-(a * a) / 2) = -(k * √var * a) * normPdf a := by
    rw [normPdf, show -(a * a) / 2 = -0.5 * a * a by ring]
    ring
  rw [hf, hd]
  ring

/-- **C73**, exact condition. Whatever the weight given to the standard deviation, the gradient of LogEI is right; for
the other criteria the gradient is right if and only if the slopes with the weight and without it are the same. -/
theorem C73_weight_iff (c : Crit) (x : Pt d) (s : Surrogate d) (m v : Pt d → ℝ) (dm dv : Pt d)
    (fmin scale scaleIc w : ℝ) (hs : Describes s m v dm dv x) (hv : eps < v x) (hw : 0 < w) (hsc : scale ≠ 0)
    (hic : scaleIc ≠ 0) (hu : c = .logEi → (fmin - m x) / √(v x) ≠ -10 ^ 6) :
    ReturnsGradient (fun z => evalInfillObj c z s fmin scale scaleIc w) (evalGradInfillObj c x s fmin scale scaleIc) x ↔
      c = .logEi ∨ ∀ j,
        dm j * (probBelow ((fmin - m x) / √(v x) / w) 0 1 - probBelow ((fmin - m x) / √(v x)) 0 1) =
          dv j / (2 * √(v x)) *
            (w * gaussianPDFReal 0 1 ((fmin - m x) / √(v x) / w) - gaussianPDFReal 0 1 ((fmin - m x) / √(v x))) := by
  have hv0 : 0 < v x := eps_pos.trans hv
  have hnv : ¬ v x < eps := not_lt.2 hv.le
  -- slopes of EI with and without the weight
  obtain ⟨f, gw, hf, hgw, hgr⟩ := C36_gradient x s m v dm dv fmin (some w) hs hv hw
  have hgw' : gw = eiGradAt fmin w (m x) (v x) dm dv := by
    simpa [eiGrad, hs.valvar, hs.valvarGrad, hnv, unwrap, Except.map] using hgw.symm
  have hg1 : eiGrad x s fmin none = .ok (eiGradAt fmin 1 (m x) (v x) dm dv) := by
    simp [eiGrad, hs.valvar, hs.valvarGrad, hnv, unwrap, Except.map]
  have hfe : f = fun z => eiValue z s fmin (some w) := by
    funext z; have := hf z; simp only [Except.ok.injEq] at this; exact this.symm
  subst hfe
  have hcond : (∀ j, eiGradAt fmin 1 (m x) (v x) dm dv j = gw j) ↔ ∀ j,
        dm j * (probBelow ((fmin - m x) / √(v x) / w) 0 1 - probBelow ((fmin - m x) / √(v x)) 0 1) =
          dv j / (2 * √(v x)) *
            (w * gaussianPDFReal 0 1 ((fmin - m x) / √(v x) / w) - gaussianPDFReal 0 1 ((fmin - m x) / √(v x))) := by
    refine forall_congr' fun j => ?_
    rw [hgw', eiGradAt_eq _ _ _ _ one_pos hv0, eiGradAt_eq _ _ _ _ hw hv0, div_one, one_mul]
    constructor
    · intro h
      linear_combination h
    · intro h
      linear_combination h
  cases c with
  | logEi =>
    simp only [true_or, iff_true]
    exact C73_objective_gradient_partial .logEi x s m v dm dv fmin scale scaleIc hs hv hu
  | ei =>
    simp only [reduceCtorEq, false_or]
    rw [← hcond]
    have hA : ∀ z, evalInfillObj .ei z s fmin scale scaleIc w = .ok (-eiValue z s fmin (some w) / scale) := fun z => rfl
    have hB : evalGradInfillObj .ei x s fmin scale scaleIc =
        .ok fun j => -eiGradAt fmin 1 (m x) (v x) dm dv j / scale := by
      simp [evalGradInfillObj, Crit.grad, hg1, Except.map]
    constructor
    · rintro ⟨F, G, hF, hG, hFG⟩ j
      have e1 : F = fun z => -eiValue z s fmin (some w) / scale := by
        funext z
        have := hF z
        simp only [hA, Except.ok.injEq] at this
        exact this.symm
      have e2 : G = fun j => -eiGradAt fmin 1 (m x) (v x) dm dv j / scale := by
        rw [hB] at hG
        simpa using hG.symm
      have h1 := hFG j
      rw [e1, e2] at h1
      have h2 := (((hgr j).neg).div_const scale).unique h1
      beta_reduce at h2
      field_simp at h2
      linarith
    · intro h
      refine ⟨_, _, hA, hB, fun j => ?_⟩
      exact (((hgr j).neg).div_const scale).congr_deriv (by rw [h j])
  | wb2 k =>
    simp only [reduceCtorEq, false_or]
    rw [← hcond]
    have hA : ∀ z, evalInfillObj (.wb2 k) z s fmin scale scaleIc w =
        .ok (-(scaleIc * eiValue z s fmin (some w) - m z) / scale) := fun z => by
      simp [evalInfillObj, Crit.value, hs.predict, unwrap, Except.map, wb2Scale]
    have hB : evalGradInfillObj (.wb2 k) x s fmin scale scaleIc =
        .ok fun j => -(eiGradAt fmin 1 (m x) (v x) dm dv j * scaleIc - dm j) / scale := by
      simp [evalGradInfillObj, Crit.grad, hg1, hs.predictGrad, unwrap, Except.map, wb2Scale, bind, Except.bind]
    have hD : ∀ j, HasDerivAt (fun t => -(scaleIc * eiValue (Function.update x j t) s fmin (some w) -
        m (Function.update x j t)) / scale) (-(scaleIc * gw j - dm j) / scale) (x j) := fun j =>
      ((((hgr j).const_mul scaleIc).sub (hs.gradMean j)).neg).div_const scale
    constructor
    · rintro ⟨F, G, hF, hG, hFG⟩ j
      have e1 : F = fun z => -(scaleIc * eiValue z s fmin (some w) - m z) / scale := by
        funext z
        have := hF z
        simp only [hA, Except.ok.injEq] at this
        exact this.symm
      have e2 : G = fun j => -(eiGradAt fmin 1 (m x) (v x) dm dv j * scaleIc - dm j) / scale := by
        rw [hB] at hG
        simpa using hG.symm
      have h1 := hFG j
      rw [e1, e2] at h1
      have h2 := (hD j).unique h1
      rw [div_left_inj' hsc] at h2
      have h3 : scaleIc * (eiGradAt fmin 1 (m x) (v x) dm dv j - gw j) = 0 := by linear_combination h2
      rcases mul_eq_zero.1 h3 with h3 | h3
      · exact absurd h3 hic
      · linarith
    · intro h
      refine ⟨_, _, hA, hB, fun j => ?_⟩
      exact (hD j).congr_deriv (by rw [h j]; ring)

/-- **C73**, refuted for every weight but 1 of EI, WB2 and WB2S: the gradient is wrong wherever a component of the
gradient of the prediction is null and that of the variance is not, and wherever it is the other way round with a
prediction which is not the current minimum. -/
theorem C73_refuted_weights (c : Crit) (x : Pt d) (s : Surrogate d) (m v : Pt d → ℝ) (dm dv : Pt d)
    (fmin scale scaleIc w : ℝ) (hs : Describes s m v dm dv x) (hv : eps < v x) (hw : 0 < w) (hw1 : w ≠ 1)
    (hsc : scale ≠ 0) (hic : scaleIc ≠ 0) (hc : c ≠ .logEi) (j : Fin d)
    (hj : (dm j = 0 ∧ dv j ≠ 0) ∨ (dm j ≠ 0 ∧ dv j = 0 ∧ m x ≠ fmin)) :
    ¬ ReturnsGradient (fun z => evalInfillObj c z s fmin scale scaleIc w)
      (evalGradInfillObj c x s fmin scale scaleIc) x := by
  have hσ : 0 < √(v x) := sqrt_pos.2 (eps_pos.trans hv)
  rw [C73_weight_iff c x s m v dm dv fmin scale scaleIc w hs hv hw hsc hic fun h => absurd h hc]
  rintro (h | h)
  · exact hc h
  have hj' := h j
  have hu0' : m x ≠ fmin → (fmin - m x) / √(v x) ≠ 0 := fun h3 => div_ne_zero (sub_ne_zero.2 h3.symm) hσ.ne'
  generalize (fmin - m x) / √(v x) = u at h hj' hu0'
  rcases hj with ⟨h1, h2⟩ | ⟨h1, h2, h3⟩
  · rw [h1, zero_mul, eq_comm, mul_eq_zero] at hj'
    rcases hj' with hj' | hj'
    · exact (div_ne_zero h2 (by positivity)) hj'
    · rw [← Gauss.normPdf_eq, ← Gauss.normPdf_eq, normPdf, normPdf] at hj'
      have hp : 0 < √(2 * π) := by positivity
      have key : w * rexp (-0.5 * (u / w) * (u / w)) = rexp (-0.5 * u * u) := by
        rw [← mul_div_assoc, ← sub_div, div_eq_zero_iff, sub_eq_zero] at hj'
        exact hj'.resolve_right hp.ne'
      have hE : ∀ a b : ℝ, a ≤ b → rexp (-0.5 * b) ≤ rexp (-0.5 * a) := fun a b hab =>
        exp_le_exp.2 (by linarith)
      rcases lt_or_gt_of_ne hw1 with hlt | hgt
      · have : u * u ≤ u / w * (u / w) := by
          rw [div_mul_div_comm, le_div_iff₀ (by positivity)]
          have : w * w ≤ 1 := by nlinarith
          nlinarith [mul_self_nonneg u]
        have h4 := hE _ _ this
        rw [← mul_assoc, ← mul_assoc] at h4
        have h5 : 0 < rexp (-0.5 * (u / w) * (u / w)) := exp_pos _
        nlinarith
      · have : u / w * (u / w) ≤ u * u := by
          rw [div_mul_div_comm, div_le_iff₀ (by positivity)]
          have : 1 ≤ w * w := by nlinarith
          nlinarith [mul_self_nonneg u]
        have h4 := hE _ _ this
        rw [← mul_assoc, ← mul_assoc] at h4
        have h5 : 0 < rexp (-0.5 * (u / w) * (u / w)) := exp_pos _
        nlinarith
  · rw [h2, zero_div, zero_mul, mul_eq_zero] at hj'
    rcases hj' with hj' | hj'
    · exact h1 hj'
    · have hmono : StrictMono normCdf :=
        strictMono_of_hasDerivAt_pos Gauss.hasDerivAt_normCdf fun x => Gauss.normPdf_pos x
      rw [probBelow_std, probBelow_std, sub_eq_zero] at hj'
      have := hmono.injective hj'
      rw [div_eq_iff hw.ne'] at this
      have hu0 : u ≠ 0 := hu0' h3
      exact hw1 (mul_left_cancel₀ hu0 (by linarith))

/-- The second component of the example has a constant variance. -/
example (w : ℝ) (hw : 0 < w) (hw1 : w ≠ 1) : ¬ ReturnsGradient (fun z => evalInfillObj .ei z exSurr 4 1 1 w)
    (evalGradInfillObj .ei ![1, 1] exSurr 4 1 1) ![1, 1] :=
  C73_refuted_weights .ei _ exSurr exMean exVar _ _ 4 1 1 w (exSurr_describes _) (exVar_gt _) hw hw1 one_ne_zero
    one_ne_zero (by simp) 1 (.inr ⟨by simp [exDMean], by simp [exDVar], by simp [exMean]; norm_num⟩)

end Verif.Props
