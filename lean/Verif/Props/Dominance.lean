import Verif.Props.Criteria
import Verif.Props.EiF64
import Mathlib.Analysis.Calculus.Deriv.MeanValue

/-!
# C152: criteria prefer better predictions and more uncertainty

The criteria and the probability of feasibility (`Model/Criteria.lean`), as functions of the prediction and of the variance.
Exact arithmetic.
-/

set_option autoImplicit false

namespace Verif.Props

open Verif Verif.Criteria Verif.Spec Real
open ProbabilityTheory MeasureTheory

variable {d : ℕ}

/-! ## The function `σ h(a / σ)` -/

theorem hasDerivAt_sigma_h (a : ℝ) {t : ℝ} (ht : 0 < t) :
    HasDerivAt (fun t => t * Gauss.h (a / t)) (normPdf (a / t)) t := by
  have h1 : HasDerivAt (fun t : ℝ => a / t) (-a / t ^ 2) t := by
    have := (hasDerivAt_inv ht.ne').const_mul a
    simpa [div_eq_mul_inv, mul_comm] using this
  have h2 := (hasDerivAt_id t).mul ((Gauss.hasDerivAt_h (a / t)).comp t h1)
  refine h2.congr_deriv ?_
  simp only [id, Function.comp, Gauss.h]
  field_simp
  ring

theorem sigma_h_strictMonoOn (a : ℝ) : StrictMonoOn (fun t => t * Gauss.h (a / t)) (Set.Ioi 0) := by
  refine strictMonoOn_of_deriv_pos (convex_Ioi 0) (fun t ht => (hasDerivAt_sigma_h a ht).continuousAt.continuousWithinAt) ?_
  intro t ht
  rw [interior_Ioi] at ht
  rw [(hasDerivAt_sigma_h a ht).deriv]
  exact Gauss.normPdf_pos _

theorem normCdf_neg (u : ℝ) : normCdf (-u) = 1 - normCdf u := by
  have hn : NullSingletonClass (gaussianReal 0 1) := nullSingletonClass_gaussianReal (by norm_num)
  rw [Gauss.normCdf_eq_prob, Gauss.normCdf_eq_prob]
  have h1 : (gaussianReal 0 1).map (fun y => -y) = gaussianReal 0 1 := by
    rw [gaussianReal_map_neg, neg_zero]
  have h2 : (gaussianReal 0 1).real (Set.Iic (-u)) = (gaussianReal 0 1).real (Set.Ici u) := by
    conv_lhs => rw [← h1]
    rw [map_measureReal_apply measurable_neg measurableSet_Iic]
    congr 1
    ext y
    simp
  have h3 : (gaussianReal 0 1).real (Set.Iic u) = (gaussianReal 0 1).real (Set.Iio u) :=
    measureReal_congr Iio_ae_eq_Iic.symm
  have h4 := probReal_compl_eq_one_sub (μ := gaussianReal 0 1) (s := Set.Iio u) measurableSet_Iio
  rw [Set.compl_Iio] at h4
  rw [h2, h4, h3]

theorem h_sub_self (u : ℝ) : Gauss.h u - u = Gauss.h (-u) := by
  have hd : ∀ v : ℝ, HasDerivAt (fun v => Gauss.h v - v - Gauss.h (-v)) 0 v := by
    intro v
    have h1 := (Gauss.hasDerivAt_h v).sub (hasDerivAt_id v)
    have h2 := (Gauss.hasDerivAt_h (-v)).comp v (hasDerivAt_neg v)
    refine (h1.sub h2).congr_deriv ?_
    rw [normCdf_neg]
    ring
  have hc := is_const_of_deriv_eq_zero (fun v => (hd v).differentiableAt) (fun v => (hd v).deriv) u 0
  simp only [neg_zero, sub_zero, sub_self] at hc
  linarith

theorem h_bounds (u : ℝ) : max u 0 < Gauss.h u ∧ Gauss.h u ≤ max u 0 + normPdf 0 := by
  have h0 : Gauss.h 0 = normPdf 0 := by simp [Gauss.h]
  have h1 := Gauss.h_pos u
  have h2 := Gauss.h_pos (-u)
  have h3 := h_sub_self u
  refine ⟨max_lt (by linarith) h1, ?_⟩
  rcases le_total u 0 with hu | hu
  · have := Gauss.h_strictMono.monotone hu
    rw [max_eq_right hu]; linarith
  · have := Gauss.h_strictMono.monotone (neg_nonpos.2 hu)
    rw [max_eq_left hu]; linarith

/-! ## Expected improvement -/

/-- Both a better prediction and a larger variance. -/
theorem eiAt_mono {fmin k m m' v v' : ℝ} (hk : 0 < k) (hm : m' ≤ m) (hv : v ≤ v') (hv' : eps ≤ v') :
    eiAt fmin k m v ≤ eiAt fmin k m' v' ∧ (m' < m ∨ v < v' → eiAt fmin k m v < eiAt fmin k m' v') := by
  have hs' := sqrt_pos_of_eps hv'
  have hpos : 0 < eiAt fmin k m' v' := by
    rw [eiAt_eq hv']
    have := Gauss.h_pos ((fmin - m') / (k * √v'))
    positivity
  by_cases h : v < eps
  · have : eiAt fmin k m v = 0 := by simp [eiAt, h]
    rw [this]
    exact ⟨hpos.le, fun _ => hpos⟩
  · have hve := not_lt.1 h
    have hs := sqrt_pos_of_eps hve
    have hss : k * √v ≤ k * √v' := mul_le_mul_of_nonneg_left (Real.sqrt_le_sqrt hv) hk.le
    rw [eiAt_eq hve, eiAt_eq hv']
    have h1 : k * √v * Gauss.h ((fmin - m) / (k * √v)) ≤ k * √v' * Gauss.h ((fmin - m) / (k * √v')) :=
      (sigma_h_strictMonoOn (fmin - m)).monotoneOn (show 0 < k * √v by positivity) (show 0 < k * √v' by positivity) hss
    have h2 : (fmin - m) / (k * √v') ≤ (fmin - m') / (k * √v') := by gcongr
    have h3 := mul_le_mul_of_nonneg_left (Gauss.h_strictMono.monotone h2) (show 0 ≤ k * √v' by positivity)
    refine ⟨h1.trans h3, ?_⟩
    rintro (hlt | hlt)
    · have h4 : (fmin - m) / (k * √v') < (fmin - m') / (k * √v') := by gcongr
      exact h1.trans_lt (mul_lt_mul_of_pos_left (Gauss.h_strictMono h4) (by positivity))
    · have h5 : k * √v < k * √v' :=
        mul_lt_mul_of_pos_left (Real.sqrt_lt_sqrt (eps_pos.le.trans hve) hlt) hk
      exact lt_of_lt_of_le ((sigma_h_strictMonoOn (fmin - m)) (show 0 < k * √v by positivity)
        (show 0 < k * √v' by positivity) h5) h3

/-- **C152**. Among points with the same variance, which is not negligible, those of larger expected improvement are
those of lower prediction. -/
theorem C152_prediction_iff (x y : Pt d) (s : Surrogate d) (fmin m m' v : ℝ) (w : Option ℝ) (hw : 0 < w.getD 1)
    (hx : s.valvar x = some (m, v)) (hy : s.valvar y = some (m', v)) (hv : eps ≤ v) :
    eiValue x s fmin w < eiValue y s fmin w ↔ m' < m := by
  simp only [eiValue, hx, hy]
  constructor
  · intro h
    by_contra hc
    exact absurd h (not_lt.2 (eiAt_mono hw (not_lt.1 hc) le_rfl hv).1)
  · intro h
    exact (eiAt_mono hw h.le le_rfl hv).2 (Or.inl h)

/-- **C152**. Among points with the same prediction, those of larger expected improvement are those of larger variance,
among those which are not negligible. -/
theorem C152_variance_iff (x y : Pt d) (s : Surrogate d) (fmin m v v' : ℝ) (w : Option ℝ) (hw : 0 < w.getD 1)
    (hx : s.valvar x = some (m, v)) (hy : s.valvar y = some (m, v')) :
    eiValue x s fmin w < eiValue y s fmin w ↔ v < v' ∧ eps ≤ v' := by
  simp only [eiValue, hx, hy]
  constructor
  · intro h
    by_cases hv' : eps ≤ v'
    · refine ⟨?_, hv'⟩
      by_contra hc
      exact absurd h (not_lt.2 (eiAt_mono hw le_rfl (not_lt.1 hc) (hv'.trans (not_lt.1 hc))).1)
    · have h0 : eiAt fmin (w.getD 1) m v' = 0 := by simp [eiAt, not_le.1 hv']
      have := C36_nonneg x s fmin w hw.le
      simp only [eiValue, hx] at this
      rw [h0] at h
      exact absurd h (not_lt.2 this)
  · rintro ⟨h1, h2⟩
    exact (eiAt_mono hw le_rfl h1.le h2).2 (Or.inr h1)

/-- **C152**. A point with a better prediction and more uncertainty has a larger expected improvement. -/
theorem C152_dominance (x y : Pt d) (s : Surrogate d) (fmin m m' v v' : ℝ) (w : Option ℝ) (hw : 0 < w.getD 1)
    (hx : s.valvar x = some (m, v)) (hy : s.valvar y = some (m', v')) (hm : m' ≤ m) (hv : v ≤ v') (hv' : eps ≤ v')
    (h : m' < m ∨ v < v') : eiValue x s fmin w < eiValue y s fmin w := by
  simp only [eiValue, hx, hy]
  exact (eiAt_mono hw hm hv hv').2 h

/-- **C152**. The point proposed by maximizing the expected improvement over any set is not dominated: no point of the set
has a prediction as good and a variance as large, one of them strictly, unless the variance of all of them is
negligible. -/
theorem C152_pareto (S : Set (Pt d)) (x : Pt d) (s : Surrogate d) (mean var : Pt d → ℝ) (fmin : ℝ) (w : Option ℝ)
    (hw : 0 < w.getD 1) (hs : ∀ y, s.valvar y = some (mean y, var y))
    (hmax : ∀ y ∈ S, eiValue y s fmin w ≤ eiValue x s fmin w) :
    ∀ y ∈ S, mean y ≤ mean x → var x ≤ var y → (mean y = mean x ∧ var y = var x) ∨ ∀ z ∈ S, var z < eps := by
  intro y hy hm hv
  by_cases hve : eps ≤ var y
  · left
    by_contra hc
    have : mean y < mean x ∨ var x < var y := by
      by_contra hd
      push Not at hd
      exact hc ⟨le_antisymm hm hd.1, le_antisymm hd.2 hv⟩
    exact absurd (C152_dominance x y s fmin _ _ _ _ w hw (hs x) (hs y) hm hv hve this) (not_lt.2 (hmax y hy))
  · right
    intro z hz
    by_contra hc
    have hx0 : eiValue x s fmin w = 0 := by
      simp only [eiValue, hs x]
      simp [eiAt, hv.trans_lt (not_le.1 hve)]
    have := C36_pos z s fmin _ _ w (hs z) (not_lt.1 hc) hw
    have := hmax z hz
    linarith

example : ∃ x ∈ Set.Icc (0 : Pt 1) 1, ∀ y ∈ Set.Icc (0 : Pt 1) 1,
    eiValue y ⟨fun _ => some 0, fun _ => some 0, fun z => some (0, 1 + z 0), fun _ => none⟩ 0 none ≤
      eiValue x ⟨fun _ => some 0, fun _ => some 0, fun z => some (0, 1 + z 0), fun _ => none⟩ 0 none := by
  refine ⟨1, ⟨zero_le_one, le_rfl⟩, fun y hy => ?_⟩
  have h1 := hy.1 0
  have h2 := hy.2 0
  have := eps_lt_one
  simp only [Pi.zero_apply, Pi.one_apply] at h1 h2
  exact (eiAt_mono (by norm_num) le_rfl (by simp only [Pi.one_apply]; linarith) (by simp only [Pi.one_apply]; linarith)).1

/-- **C152**. Where the variance is not negligible the expected improvement is larger than the predicted improvement, by
at most the weighted standard deviation over the square root of 2π. -/
theorem C152_bounds (x : Pt d) (s : Surrogate d) (fmin m v : ℝ) (w : Option ℝ) (hw : 0 < w.getD 1)
    (hx : s.valvar x = some (m, v)) (hv : eps ≤ v) :
    max (fmin - m) 0 < eiValue x s fmin w ∧
      eiValue x s fmin w ≤ max (fmin - m) 0 + w.getD 1 * √v / √(2 * π) := by
  have hs := sqrt_pos_of_eps hv
  have hp : 0 < w.getD 1 * √v := by positivity
  have hmax : max (fmin - m) 0 = w.getD 1 * √v * max ((fmin - m) / (w.getD 1 * √v)) 0 := by
    rw [mul_max_of_nonneg _ _ hp.le, mul_zero, mul_div_cancel₀ _ hp.ne']
  have hphi : normPdf 0 = 1 / √(2 * π) := by simp [normPdf]
  obtain ⟨h1, h2⟩ := h_bounds ((fmin - m) / (w.getD 1 * √v))
  simp only [eiValue, hx]
  rw [eiAt_eq hv, hmax]
  refine ⟨mul_lt_mul_of_pos_left h1 hp, ?_⟩
  have := mul_le_mul_of_nonneg_left h2 hp.le
  rw [hphi] at this
  calc _ ≤ _ := this
    _ = _ := by ring

/-- **C152** is refuted for predictions which are certain: the expected improvement is at least the predicted one if and only
if the variance is not negligible or no improvement is predicted. -/
theorem C152_at_least_predicted_iff (x : Pt d) (s : Surrogate d) (fmin m v : ℝ) (w : Option ℝ) (hw : 0 < w.getD 1)
    (hx : s.valvar x = some (m, v)) : fmin - m ≤ eiValue x s fmin w ↔ eps ≤ v ∨ fmin ≤ m := by
  by_cases hv : eps ≤ v
  · simp only [hv, true_or, iff_true]
    exact (le_max_left _ _).trans (C152_bounds x s fmin m v w hw hx hv).1.le
  · have h0 : eiValue x s fmin w = 0 := by
      simp only [eiValue, hx]
      simp [eiAt, not_le.1 hv]
    rw [h0]
    simp [hv]

/-- **C152** is refuted: whatever the predictions, a point which improves with certainty is ranked below all points whose
variance is not negligible. -/
theorem C152_refuted_certain (x y : Pt d) (s : Surrogate d) (fmin m m' v v' : ℝ) (w : Option ℝ) (hw : 0 < w.getD 1)
    (hx : s.valvar x = some (m, v)) (hy : s.valvar y = some (m', v')) (hv : v < eps) (hv' : eps ≤ v') :
    eiValue x s fmin w < eiValue y s fmin w := by
  have h0 : eiValue x s fmin w = 0 := by
    simp only [eiValue, hx]
    simp [eiAt, hv]
  rw [h0]
  exact C36_pos y s fmin m' v' w hy hv' hw

/-- Two points of the example of `Props/Criteria.lean`. -/
theorem exSurr_two : exSurr.valvar ![0, 1] = some (2, 1) ∧ exSurr.valvar ![1, 0] = some (1, 2) ∧
    exSurr.predict ![0, 1] = some 2 ∧ exSurr.predict ![1, 0] = some 1 := by
  simp [exSurr, exMean, exVar]
  norm_num

example : eiValue ![0, 1] exSurr 3 none < eiValue ![1, 0] exSurr 3 none :=
  C152_dominance _ _ _ _ _ _ _ _ _ (by norm_num) exSurr_two.1 exSurr_two.2.1 (by norm_num) (by norm_num)
    (by linarith [eps_lt_one]) (Or.inl (by norm_num))

/-! ## WB2 and WB2S -/

/-- **C152**. With WB2 and WB2S (and a positive scale), a point with a better prediction and at least as much uncertainty is
preferred; the uncertainty may be negligible. -/
theorem C152_wb2 (x y : Pt d) (s : Surrogate d) (fmin m m' v v' : ℝ) (w c scale : Option ℝ) (hw : 0 < w.getD 1)
    (hc : 0 < wb2Scale c scale) (hx : s.valvar x = some (m, v)) (hy : s.valvar y = some (m', v'))
    (hpx : s.predict x = some m) (hpy : s.predict y = some m') (hm : m' ≤ m) (hv : v ≤ v')
    (h : m' < m ∨ (v < v' ∧ eps ≤ v')) :
    ∃ a b, (Crit.wb2 c).value x s fmin w scale = .ok a ∧ (Crit.wb2 c).value y s fmin w scale = .ok b ∧ a < b := by
  refine ⟨wb2Scale c scale * eiValue x s fmin w - m, wb2Scale c scale * eiValue y s fmin w - m',
    by simp only [Crit.value, hpx, unwrap, Except.map], by simp only [Crit.value, hpy, unwrap, Except.map], ?_⟩
  simp only [eiValue, hx, hy]
  by_cases hv' : eps ≤ v'
  · obtain ⟨h1, h2⟩ := eiAt_mono (fmin := fmin) hw hm hv hv'
    have h3 := mul_le_mul_of_nonneg_left h1 hc.le
    rcases h with h | ⟨h, _⟩
    · linarith
    · have := mul_lt_mul_of_pos_left (h2 (Or.inr h)) hc
      linarith
  · have e1 : eiAt fmin (w.getD 1) m v = 0 := by simp [eiAt, hv.trans_lt (not_le.1 hv')]
    have e2 : eiAt fmin (w.getD 1) m' v' = 0 := by simp [eiAt, not_le.1 hv']
    rw [e1, e2]
    rcases h with h | ⟨_, h⟩
    · linarith
    · exact absurd h hv'

example : ∃ a b, (Crit.wb2 none).value ![0, 1] exSurr 3 none none = .ok a ∧
    (Crit.wb2 none).value ![1, 0] exSurr 3 none none = .ok b ∧ a < b :=
  C152_wb2 _ _ _ _ _ _ _ _ _ _ _ (by norm_num) (by norm_num [wb2Scale]) exSurr_two.1 exSurr_two.2.1 exSurr_two.2.2.1
    exSurr_two.2.2.2 (by norm_num) (by norm_num) (Or.inl (by norm_num))

/-! ## Logarithm of the expected improvement -/

theorem logEi_close (fmin m v : ℝ) (hv : eps ≤ v) :
    (-10 ^ 6 < (fmin - m) / √v → logEiAt fmin m v = log (eiAt fmin 1 m v)) ∧
    |logEiAt fmin m v - log (eiAt fmin 1 m v)| ≤ 4 / 10 ^ 12 := by
  have hv0 : 0 ≤ v := eps_pos.le.trans hv
  let s : Surrogate 1 := ⟨fun _ => none, fun _ => none, fun _ => some (m, v), fun _ => none⟩
  have h1 := C71_is_log_of_expectation (0 : Pt 1) s fmin m v rfl hv ⟨v, hv0⟩ rfl
  have h2 := C36_is_expectation (0 : Pt 1) s fmin m v none rfl hv (by norm_num) ⟨v, hv0⟩ (by simp; rfl)
  rw [← h2] at h1
  exact h1

/-- **C152** (partial: at most a million standard deviations above the current minimum). A point with a better prediction and
more uncertainty has a larger LogEI. -/
theorem C152_log_partial (x y : Pt d) (s : Surrogate d) (fmin m m' v v' : ℝ)
    (hx : s.valvar x = some (m, v)) (hy : s.valvar y = some (m', v')) (hm : m' ≤ m) (hv : v ≤ v') (hve : eps ≤ v)
    (hu : -10 ^ 6 < (fmin - m) / √v) (h : m' < m ∨ v < v') : logEiValue x s fmin < logEiValue y s fmin := by
  have hs := sqrt_pos_of_eps hve
  have hs' := sqrt_pos_of_eps (hve.trans hv)
  have hss := Real.sqrt_le_sqrt hv
  have hu' : -10 ^ 6 < (fmin - m') / √v' := by
    rw [lt_div_iff₀ hs] at hu
    rw [lt_div_iff₀ hs']
    nlinarith
  simp only [logEiValue, hx, hy]
  rw [(logEi_close fmin m v hve).1 hu, (logEi_close fmin m' v' (hve.trans hv)).1 hu']
  refine Real.log_lt_log ?_ ((eiAt_mono one_pos hm hv (hve.trans hv)).2 h)
  rw [eiAt_eq hve]
  have := Gauss.h_pos ((fmin - m) / (1 * √v))
  positivity

example : logEiValue ![0, 1] exSurr 3 < logEiValue ![1, 0] exSurr 3 :=
  C152_log_partial _ _ _ _ _ _ _ _ exSurr_two.1 exSurr_two.2.1 (by norm_num) (by norm_num) (by linarith [eps_lt_one])
    (by norm_num) (Or.inl (by norm_num))

/-- **C152**, for all points: LogEI orders them as above up to `1e-11`. -/
theorem C152_log_all (x y : Pt d) (s : Surrogate d) (fmin m m' v v' : ℝ)
    (hx : s.valvar x = some (m, v)) (hy : s.valvar y = some (m', v')) (hm : m' ≤ m) (hv : v ≤ v') (hve : eps ≤ v) :
    logEiValue x s fmin ≤ logEiValue y s fmin + 1 / 10 ^ 11 := by
  have hs := sqrt_pos_of_eps hve
  simp only [logEiValue, hx, hy]
  have h1 := abs_le.1 (logEi_close fmin m v hve).2
  have h2 := abs_le.1 (logEi_close fmin m' v' (hve.trans hv)).2
  have hpos : 0 < eiAt fmin 1 m v := by
    rw [eiAt_eq hve]
    have := Gauss.h_pos ((fmin - m) / (1 * √v))
    positivity
  have h3 := Real.log_le_log hpos (eiAt_mono one_pos hm hv (hve.trans hv)).1
  norm_num at h1 h2 ⊢
  linarith [h1.1, h1.2, h2.1, h2.2]

/-- **C152** is refuted for LogEI: whatever the current minimum and the (not negligible) variance, a prediction a million
standard deviations above the current minimum is preferred to all slightly better ones. -/
theorem C152_refuted_log (fmin v : ℝ) (hv : eps ≤ v) :
    ∃ δ > 0, ∀ t, 0 < t → t < δ →
      logEiAt fmin (fmin + 10 ^ 6 * √v - t) v < logEiAt fmin (fmin + 10 ^ 6 * √v) v := by
  have hs := sqrt_pos_of_eps hv
  have hval : ∀ m, logEiAt fmin m v = logEiHelper ((fmin - m) / √v) + log √v := by
    intro m; simp [logEiAt, not_lt.2 hv]
  have hedge : log (Gauss.h (-10 ^ 6)) < logEiHelper (-10 ^ 6) := by
    have h1 := Real.log_lt_log (Gauss.h_pos _) (Gauss.h_lt (u := -10 ^ 6) (by norm_num))
    have hne : ((-10 ^ 6 : ℝ) ^ 2)⁻¹ ≠ 0 := by norm_num
    rw [Real.log_mul (Gauss.normPdf_pos _).ne' hne, Gauss.log_normPdf, Real.log_inv, Real.log_pow] at h1
    have h2 : logEiHelper (-10 ^ 6) = -0.5 * (-10 ^ 6) * (-10 ^ 6) - log (2 * π) / 2 + -2 * log |(-10 ^ 6 : ℝ)| := by
      unfold logEiHelper
      rw [if_neg (by norm_num), if_neg (by norm_num)]
    rw [h2, Real.log_abs]
    push_cast at h1
    linarith
  have hcont : Filter.Tendsto (fun u => log (Gauss.h u)) (nhds (-10 ^ 6)) (nhds (log (Gauss.h (-10 ^ 6)))) :=
    (Gauss.hasDerivAt_log_h (-10 ^ 6)).continuousAt
  obtain ⟨δ, hδ, hball⟩ := Metric.eventually_nhds_iff.1 (hcont.eventually_lt_const hedge)
  refine ⟨δ * √v, by positivity, fun t ht0 ht => ?_⟩
  have hu1 : (fmin - (fmin + 10 ^ 6 * √v)) / √v = -10 ^ 6 := by field_simp; ring
  have hu2 : (fmin - (fmin + 10 ^ 6 * √v - t)) / √v = -10 ^ 6 + t / √v := by field_simp; ring
  have htp : 0 < t / √v := by positivity
  rw [hval, hval, hu1, hu2, Gauss.logEiHelper_eq (by linarith)]
  have hd : t / √v < δ := by rwa [div_lt_iff₀ hs]
  have := hball (y := -10 ^ 6 + t / √v) (by rw [Real.dist_eq, add_sub_cancel_left, abs_of_pos htp]; exact hd)
  linarith

/-! ## Probability of feasibility -/

/-- **C152**. Among points with the same variance, which is not negligible, those with a larger probability of feasibility are
those with a lower predicted constraint; it also increases with the tolerance. -/
theorem C152_feasibility_iff (x y : Pt d) (s : Surrogate d) (tol tol' m m' v : ℝ)
    (hx : s.valvar x = some (m, v)) (hy : s.valvar y = some (m', v)) (hv : eps ≤ v) :
    pof x s tol < pof y s tol' ↔ m' - tol' < m - tol := by
  have hs := sqrt_pos_of_eps hv
  have hmono : StrictMono normCdf := strictMono_of_hasDerivAt_pos Gauss.hasDerivAt_normCdf Gauss.normPdf_pos
  simp only [pof, hx, hy]
  rw [pofAt_eq hv, pofAt_eq hv, hmono.lt_iff_lt, div_lt_div_iff_of_pos_right hs]
  constructor <;> intro h <;> linarith

/-- **C152**. With less uncertainty (not negligible), a constraint predicted to be met is more probably met and a constraint
predicted not to be is less so. -/
theorem C152_feasibility_variance (x y : Pt d) (s : Surrogate d) (tol m v v' : ℝ)
    (hx : s.valvar x = some (m, v)) (hy : s.valvar y = some (m, v')) (hv : eps ≤ v) (hlt : v < v') :
    (m < tol ↔ pof y s tol < pof x s tol) ∧ (tol < m ↔ pof x s tol < pof y s tol) := by
  have hs := sqrt_pos_of_eps hv
  have hs' := sqrt_pos_of_eps (hv.trans hlt.le)
  have hss := Real.sqrt_lt_sqrt (eps_pos.le.trans hv) hlt
  have hmono : StrictMono normCdf := strictMono_of_hasDerivAt_pos Gauss.hasDerivAt_normCdf Gauss.normPdf_pos
  simp only [pof, hx, hy]
  rw [pofAt_eq hv, pofAt_eq (hv.trans hlt.le), hmono.lt_iff_lt, hmono.lt_iff_lt, div_lt_div_iff₀ hs' hs,
    div_lt_div_iff₀ hs hs']
  constructor <;> constructor <;> intro h <;> nlinarith

/-- **C152** is refuted for constraints known to be met: with a negligible variance their probability of feasibility is zero,
below that of all points whose variance is not negligible. -/
theorem C152_refuted_known_feasible (x y : Pt d) (s : Surrogate d) (tol m m' v v' : ℝ)
    (hx : s.valvar x = some (m, v)) (hy : s.valvar y = some (m', v')) (hv : v < eps) (hv' : eps ≤ v') :
    pof x s tol < pof y s tol := by
  simp only [pof, hx, hy]
  rw [pofAt_eq hv']
  simp only [pofAt, hv, if_true]
  exact Gauss.normCdf_pos _

example : pof ![0, 1] exSurr 0 < pof ![1, 0] exSurr (1 / 2) ∧ pof ![0, 1] exSurr 0 < pof ![0, 1] exSurr 1 := by
  obtain ⟨h1, h2, _⟩ := exSurr_two
  refine ⟨?_, (C152_feasibility_iff _ _ _ _ _ _ _ _ h1 h1 (by linarith [eps_lt_one])).2 (by norm_num)⟩
  have hmono : StrictMono normCdf := strictMono_of_hasDerivAt_pos Gauss.hasDerivAt_normCdf Gauss.normPdf_pos
  simp only [pof, h1, h2]
  rw [pofAt_eq (by linarith [eps_lt_one]), pofAt_eq (by linarith [eps_lt_one])]
  apply hmono
  have h3 : (0 : ℝ) < √2 := by positivity
  have h4 : (1 : ℝ) ≤ √2 := Real.one_le_sqrt.2 (by norm_num)
  rw [Real.sqrt_one, lt_div_iff₀ h3]
  linarith

end Verif.Props
