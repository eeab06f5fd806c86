import Verif.Model.Criteria
import Mathlib.Probability.Distributions.Gaussian.Real

/-!
# Facts on the standard normal distribution
-/

set_option autoImplicit false

namespace Verif.Gauss

open Verif.Criteria Real MeasureTheory ProbabilityTheory Set Filter Topology

theorem normPdf_eq (x : ℝ) : normPdf x = gaussianPDFReal 0 1 x := by
  unfold normPdf gaussianPDFReal
  rw [div_eq_inv_mul]
  simp only [NNReal.coe_one, mul_one, sub_zero]
  congr 2
  ring

theorem normPdf_pos (x : ℝ) : 0 < normPdf x := by unfold normPdf; positivity

theorem integrable_normPdf : Integrable normPdf := by
  have := integrable_gaussianPDFReal 0 1
  exact this.congr (Eventually.of_forall fun x => (normPdf_eq x).symm)

theorem continuous_normPdf : Continuous normPdf := by unfold normPdf; fun_prop

theorem hasDerivAt_normPdf (x : ℝ) : HasDerivAt normPdf (-x * normPdf x) x := by
  unfold normPdf
  have h : HasDerivAt (fun x : ℝ => -0.5 * x * x) (-x) x := by
    have := ((hasDerivAt_id x).const_mul (-0.5)).mul (hasDerivAt_id x)
    refine HasDerivAt.congr_deriv this ?_
    simp only [id]
    ring
  refine HasDerivAt.congr_deriv ((h.exp).div_const (√(2 * π))) ?_
  ring

/-- The cumulative distribution function. -/
theorem normCdf_eq (x : ℝ) : normCdf x = ∫ t in Iic x, normPdf t := by
  unfold normCdf erfc
  have h1 : ∫ t in Iic x, normPdf t = ∫ t in Ioi (-x), normPdf t := by
    have := integral_comp_neg_Iic x normPdf
    rw [← this]
    refine setIntegral_congr_fun measurableSet_Iic fun t _ => ?_
    simp [normPdf]
  have hs : (0 : ℝ) < √2 := by positivity
  have h2 := integral_comp_mul_left_Ioi (fun t => rexp (-t ^ 2)) (-x) (b := 1 / √2) (by positivity)
  have e : (1 / √2) * -x = -x / √2 := by ring
  rw [e] at h2
  rw [h1]
  have h3 : ∫ t in Ioi (-x), normPdf t = (√(2 * π))⁻¹ * ∫ t in Ioi (-x), rexp (-((1 / √2) * t) ^ 2) := by
    rw [← integral_const_mul]
    refine setIntegral_congr_fun measurableSet_Ioi fun t _ => ?_
    simp only [normPdf]
    rw [div_eq_inv_mul]
    congr 2
    have : (√2) ^ 2 = 2 := Real.sq_sqrt (by norm_num)
    field_simp
    rw [this]; ring
  rw [h3, h2, smul_eq_mul, ← mul_assoc, ← mul_assoc]
  congr 1
  rw [Real.sqrt_mul (by norm_num)]
  have : (√2) ^ 2 = 2 := Real.sq_sqrt (by norm_num)
  field_simp
  norm_num

theorem hasDerivAt_normCdf (x : ℝ) : HasDerivAt normCdf (normPdf x) x := by
  have e : normCdf = fun u => (∫ t in Iic 0, normPdf t) + ∫ t in (0 : ℝ)..u, normPdf t := by
    funext u
    rw [normCdf_eq, ← intervalIntegral.integral_Iic_sub_Iic integrable_normPdf.integrableOn
      integrable_normPdf.integrableOn]
    ring
  rw [e]
  exact (intervalIntegral.integral_hasDerivAt_right (integrable_normPdf.intervalIntegrable)
    continuous_normPdf.stronglyMeasurable.stronglyMeasurableAtFilter
    continuous_normPdf.continuousAt).const_add _

theorem normCdf_eq_prob (x : ℝ) : normCdf x = (gaussianReal 0 1).real (Iic x) := by
  rw [measureReal_def, gaussianReal_apply_eq_integral 0 one_ne_zero, ENNReal.toReal_ofReal, normCdf_eq]
  · refine setIntegral_congr_fun measurableSet_Iic fun t _ => normPdf_eq t
  · exact setIntegral_nonneg measurableSet_Iic fun t _ => gaussianPDFReal_nonneg 0 1 t

theorem normCdf_nonneg (x : ℝ) : 0 ≤ normCdf x := by rw [normCdf_eq_prob]; exact measureReal_nonneg

theorem normCdf_le_one (x : ℝ) : normCdf x ≤ 1 := by rw [normCdf_eq_prob]; exact measureReal_le_one

/-- The law `N(m, (k s)²)` is the law of `m + k s Z`. -/
theorem gaussianReal_eq_map (m s : ℝ) (v : NNReal) (hv : (v : ℝ) = s ^ 2) :
    gaussianReal m v = (gaussianReal 0 1).map (fun z => m + s * z) := by
  have h1 := gaussianReal_map_const_mul (μ := 0) (v := 1) s
  have h2 := gaussianReal_map_const_add (μ := s * 0) (v := NNReal.mk (s ^ 2) (sq_nonneg s) * 1) m
  rw [← h1, Measure.map_map (by fun_prop) (by fun_prop)] at h2
  have e : v = NNReal.mk (s ^ 2) (sq_nonneg s) * 1 := by
    ext; simpa using hv
  rw [e]
  simp only [mul_zero, zero_add] at h2
  rw [← h2]
  rfl

/-- Probability that a normal variable is below a bound. -/
theorem prob_eq (m s tol : ℝ) (v : NNReal) (hs : 0 < s) (hv : (v : ℝ) = s ^ 2) :
    (gaussianReal m v).real (Iic tol) = normCdf ((tol - m) / s) := by
  rw [gaussianReal_eq_map m s v hv, map_measureReal_apply (by fun_prop) measurableSet_Iic,
    normCdf_eq_prob]
  congr 1
  ext z
  simp only [mem_preimage, mem_Iic]
  rw [le_div_iff₀ hs]
  constructor <;> intro h <;> linarith

theorem tendsto_normPdf_atBot : Tendsto normPdf atBot (𝓝 0) := by
  have h1 : Tendsto (fun x : ℝ => -0.5 * x * x) atBot atBot := by
    have : (fun x : ℝ => -0.5 * x * x) = fun x => -(0.5 * (x * x)) := by funext x; ring
    rw [this]
    refine tendsto_neg_atTop_atBot.comp ?_
    exact (tendsto_id.atBot_mul_atBot₀ tendsto_id).const_mul_atTop (by norm_num)
  have h2 := (tendsto_exp_atBot.comp h1).div_const (√(2 * π))
  rw [zero_div] at h2
  exact h2

theorem integrable_id_mul_normPdf : Integrable fun x => x * normPdf x := by
  have h := (integrable_mul_exp_neg_mul_sq (b := 1 / 2) (by norm_num)).const_mul (√(2 * π))⁻¹
  refine h.congr (Eventually.of_forall fun x => ?_)
  simp only [normPdf]
  have e : -(1 / 2) * x ^ 2 = -0.5 * x * x := by ring
  rw [e]
  ring

theorem integral_Iic_id (u : ℝ) : ∫ t in Iic u, -t * normPdf t = normPdf u := by
  have := integral_Iic_of_hasDerivAt_of_tendsto' (a := u) (f := normPdf) (f' := fun t => -t * normPdf t)
    (m := 0) (fun x _ => hasDerivAt_normPdf x)
    (by
      have := integrable_id_mul_normPdf.neg
      refine (this.congr (Eventually.of_forall fun x => ?_)).integrableOn
      simp) tendsto_normPdf_atBot
  rw [this, sub_zero]

/-- Standard expected improvement: the integral of the positive part. -/
theorem integral_posPart (u : ℝ) :
    ∫ z, max (u - z) 0 * normPdf z = u * normCdf u + normPdf u := by
  have h1 : ∫ z, max (u - z) 0 * normPdf z = ∫ z in Iic u, (u - z) * normPdf z := by
    rw [← integral_indicator measurableSet_Iic]
    congr 1
    funext z
    by_cases h : z ≤ u
    · rw [indicator_of_mem (by exact h), max_eq_left (by linarith)]
    · rw [indicator_of_notMem (by exact h), max_eq_right (by linarith), zero_mul]
  rw [h1, normCdf_eq, ← integral_Iic_id u, ← integral_const_mul, ← integral_add]
  · refine setIntegral_congr_fun measurableSet_Iic fun t _ => ?_
    ring
  · exact (integrable_normPdf.const_mul u).integrableOn
  · have := integrable_id_mul_normPdf.neg
    refine (this.congr (Eventually.of_forall fun x => ?_)).integrableOn
    simp

theorem integral_gauss (m s fmin : ℝ) (v : NNReal) (hs : 0 < s) (hv : (v : ℝ) = s ^ 2) :
    ∫ y, max (fmin - y) 0 ∂gaussianReal m v =
      s * ((fmin - m) / s * normCdf ((fmin - m) / s) + normPdf ((fmin - m) / s)) := by
  rw [gaussianReal_eq_map m s v hv, integral_map (by fun_prop) (by fun_prop),
    integral_gaussianReal_eq_integral_smul one_ne_zero, ← integral_posPart, ← integral_const_mul]
  congr 1
  funext z
  rw [← normPdf_eq, smul_eq_mul]
  have : fmin - (m + s * z) = s * ((fmin - m) / s - z) := by field_simp; ring
  rw [this]
  rcases le_total 0 ((fmin - m) / s - z) with h | h
  · rw [max_eq_left h, max_eq_left (by positivity)]; ring
  · rw [max_eq_right h, max_eq_right (mul_nonpos_of_nonneg_of_nonpos hs.le h)]; ring

/-- The function `u Φ(u) + φ(u)`. -/
noncomputable def h (u : ℝ) : ℝ := u * normCdf u + normPdf u

theorem hasDerivAt_h (u : ℝ) : HasDerivAt h (normCdf u) u := by
  have := ((hasDerivAt_id u).mul (hasDerivAt_normCdf u)).add (hasDerivAt_normPdf u)
  refine HasDerivAt.congr_deriv this ?_
  simp only [id]
  ring

theorem normCdf_pos (x : ℝ) : 0 < normCdf x := by
  rw [normCdf_eq]
  rw [setIntegral_pos_iff_support_of_nonneg_ae]
  · have : Function.support normPdf = univ := by
      ext t; simp [(normPdf_pos t).ne']
    rw [this, univ_inter]; simp
  · exact Eventually.of_forall fun t => (normPdf_pos t).le
  · exact integrable_normPdf.integrableOn

theorem h_nonneg (u : ℝ) : 0 ≤ h u := by
  unfold h
  rw [← integral_posPart]
  exact integral_nonneg fun z => mul_nonneg (le_max_right _ _) (normPdf_pos z).le

theorem h_strictMono : StrictMono h :=
  strictMono_of_hasDerivAt_pos hasDerivAt_h normCdf_pos

theorem h_pos (u : ℝ) : 0 < h u := lt_of_le_of_lt (h_nonneg (u - 1)) (h_strictMono (by linarith))

end Verif.Gauss
