import Verif.Lemmas.Gauss

/-!
# The helper functions of LogEI are the logarithm of `u Φ(u) + φ(u)` and its derivative
-/

set_option autoImplicit false

namespace Verif.Gauss

open Verif.Criteria Real MeasureTheory ProbabilityTheory Set Filter Topology

theorem log_normPdf (u : ℝ) : log (normPdf u) = -0.5 * u * u - log (2 * π) / 2 := by
  unfold normPdf
  rw [log_div (exp_ne_zero _) (by positivity), log_exp, log_sqrt (by positivity)]

/-- The Mills-type ratio `|u| Φ(u) / φ(u)` used by the code through `erfcx`. -/
noncomputable def ratio (u : ℝ) : ℝ := -u * normCdf u / normPdf u

theorem erfcx_eq (u : ℝ) : erfcx (-(1 / √2) * u) = normCdf u / normPdf u / √(π / 2) := by
  unfold erfcx normCdf normPdf
  have h2 : (√2) ^ 2 = 2 := Real.sq_sqrt (by norm_num)
  have e1 : -(1 / √2) * u = -u / √2 := by ring
  have e2 : -u / √2 * (-u / √2) = 0.5 * u * u := by
    have : -u / √2 * (-u / √2) = u * u / (√2) ^ 2 := by ring
    rw [this, h2]; ring
  rw [e1, e2]
  have e3 : rexp (-0.5 * u * u) = (rexp (0.5 * u * u))⁻¹ := by
    rw [← Real.exp_neg]; congr 1; ring
  have e4 : √(2 * π) = 2 * √(π / 2) := by
    have : 2 * π = 2 ^ 2 * (π / 2) := by ring
    rw [this, Real.sqrt_mul (by norm_num), Real.sqrt_sq (by norm_num)]
  rw [e3, e4]
  have : √(π / 2) ≠ 0 := by positivity
  have := (exp_pos (0.5 * u * u)).ne'
  field_simp
  ring

theorem ratio_pos {u : ℝ} (hu : u < 0) : 0 < ratio u :=
  div_pos (mul_pos (by linarith) (normCdf_pos u)) (normPdf_pos u)

theorem one_sub_ratio (u : ℝ) : 1 - ratio u = h u / normPdf u := by
  unfold ratio h
  have := (normPdf_pos u).ne'
  field_simp
  ring

theorem ratio_lt_one (u : ℝ) : ratio u < 1 := by
  have := div_pos (h_pos u) (normPdf_pos u)
  rw [← one_sub_ratio] at this
  linarith

theorem exp_w {u : ℝ} (hu : u < 0) :
    rexp (log (erfcx (-(1 / √2) * u) * |u|) + log (π / 2) / 2) = ratio u := by
  have hp : 0 < erfcx (-(1 / √2) * u) * |u| := by
    rw [erfcx_eq]
    exact mul_pos (div_pos (div_pos (normCdf_pos u) (normPdf_pos u)) (by positivity)) (abs_pos.2 hu.ne)
  rw [Real.exp_add, Real.exp_log hp, ← log_sqrt (by positivity), Real.exp_log (by positivity), erfcx_eq,
    abs_of_neg hu]
  unfold ratio
  have : √(π / 2) ≠ 0 := by positivity
  have := (normPdf_pos u).ne'
  field_simp

theorem log1mexp_eq (w : ℝ) : log1mexp w = log (1 - rexp w) := by
  unfold log1mexp
  split_ifs
  · congr 1; ring
  · rw [sub_eq_add_neg]

theorem logEiHelper_eq {u : ℝ} (hu : -10 ^ 6 < u) : logEiHelper u = log (h u) := by
  unfold logEiHelper
  split_ifs with h1
  · unfold h; congr 1; ring
  · have hu0 : u < 0 := by linarith [not_lt.1 h1]
    simp only
    rw [log1mexp_eq, exp_w hu0, one_sub_ratio, ← log_normPdf,
      log_div (h_pos u).ne' (normPdf_pos u).ne']
    ring

theorem dLogEiHelper_eq {u : ℝ} (hu : -10 ^ 6 < u) : dLogEiHelper u = normCdf u / h u := by
  unfold dLogEiHelper
  split_ifs with h1
  · rw [logEiHelper_eq hu, Real.exp_log (h_pos u)]
  · have hu0 : u < 0 := by linarith [not_lt.1 h1]
    simp only [log1mexpWDerivative, log1mexpPrime]
    rw [exp_w hu0, one_sub_ratio, erfcx_eq]
    have hh : h u = u * normCdf u + normPdf u := rfl
    have hp := (normPdf_pos u).ne'
    have hc := (normCdf_pos u).ne'
    have h0 := (h_pos u).ne'
    have h2 : (√2) ^ 2 = 2 := Real.sq_sqrt (by norm_num)
    have e : √π = √2 * √(π / 2) := by
      rw [← Real.sqrt_mul (by norm_num)]; congr 1; ring
    rw [e]
    unfold ratio
    have hs : √(π / 2) ≠ 0 := by positivity
    have hs2 : √2 ≠ 0 := by positivity
    have hu' := hu0.ne
    have key : (2 * (-(1 / √2) * u) * (normCdf u / normPdf u / √(π / 2)) - 2 / (√2 * √(π / 2))) * -(1 / √2) /
        (normCdf u / normPdf u / √(π / 2)) + 1 / u = u + normPdf u / normCdf u + 1 / u := by
      have : (2 * (-(1 / √2) * u) * (normCdf u / normPdf u / √(π / 2)) - 2 / (√2 * √(π / 2))) * -(1 / √2)
          = (2 / (√2) ^ 2) * (u * (normCdf u / normPdf u / √(π / 2)) + 1 / √(π / 2)) := by
        field_simp
        ring
      rw [this, h2]
      field_simp
    rw [key]
    field_simp
    rw [hh]
    ring

theorem hasDerivAt_log_h (u : ℝ) : HasDerivAt (fun u => log (h u)) (normCdf u / h u) u :=
  (hasDerivAt_h u).log (h_pos u).ne'

theorem hasDerivAt_logEiHelper {u : ℝ} (hu : u ≠ -10 ^ 6) :
    HasDerivAt logEiHelper (dLogEiHelper u) u := by
  rcases lt_or_gt_of_ne hu with h1 | h1
  · have e : dLogEiHelper u = -u + -2 / u := by
      unfold dLogEiHelper
      rw [if_neg (by norm_num at h1 ⊢; linarith), if_neg (by linarith)]
    have h0 : u < 0 := by norm_num at h1 ⊢; linarith
    have hd : HasDerivAt (fun u : ℝ => (-0.5 * u * u - log (2 * π) / 2) + -2 * log u) (-u + -2 / u) u := by
      have d1 : HasDerivAt (fun x : ℝ => -0.5 * x * x) (-u) u := by
        have := ((hasDerivAt_id u).const_mul (-0.5)).mul (hasDerivAt_id u)
        refine HasDerivAt.congr_deriv this ?_
        simp only [id]
        ring
      have d2 := (Real.hasDerivAt_log h0.ne).const_mul (-2)
      refine ((d1.sub_const _).add d2).congr_deriv ?_
      ring
    rw [e]
    refine hd.congr_of_eventuallyEq ?_
    filter_upwards [Iio_mem_nhds h1] with t ht
    have ht' : t < -10 ^ 6 := ht
    unfold logEiHelper
    rw [if_neg (by norm_num at ht' ⊢; linarith), if_neg (by linarith)]
    simp only [log_abs]
  · rw [dLogEiHelper_eq h1]
    refine (hasDerivAt_log_h u).congr_of_eventuallyEq ?_
    filter_upwards [Ioi_mem_nhds h1] with t ht
    exact logEiHelper_eq ht

/-! ### Bounds in the far tail -/

theorem tendsto_normCdf_atBot : Tendsto normCdf atBot (𝓝 0) := by
  have h := tendsto_setIntegral_of_antitone (μ := volume) (f := normPdf) (s := fun u : ℝᵒᵈ => Iic (OrderDual.ofDual u))
    (fun i => measurableSet_Iic) (fun a b hab => Iic_subset_Iic.2 hab) ⟨OrderDual.toDual 0, integrable_normPdf.integrableOn⟩
  have e : (⋂ n : ℝᵒᵈ, Iic (OrderDual.ofDual n)) = ∅ := by
    ext x
    simp only [mem_iInter, mem_Iic, mem_empty_iff_false, iff_false, not_forall, not_le]
    exact ⟨OrderDual.toDual (x - 1), by show x - 1 < x; linarith⟩
  rw [e, setIntegral_empty] at h
  have h' : Tendsto (fun u : ℝ => ∫ t in Iic u, normPdf t) atBot (𝓝 0) := h
  exact h'.congr fun u => (normCdf_eq u).symm

/-- A function with limit 0 at `-∞` and positive derivative before `b` is positive before `b`. -/
theorem pos_of_deriv {f f' : ℝ → ℝ} {b : ℝ} (hd : ∀ x < b, HasDerivAt f (f' x) x)
    (hp : ∀ x < b, 0 < f' x) (hl : Tendsto f atBot (𝓝 0)) {u : ℝ} (hu : u < b) : 0 < f u := by
  have hm : StrictMonoOn f (Iio b) := by
    refine strictMonoOn_of_deriv_pos (convex_Iio b) ?_ ?_
    · intro x hx; exact (hd x hx).continuousAt.continuousWithinAt
    · intro x hx
      rw [interior_Iio] at hx
      rw [(hd x hx).deriv]; exact hp x hx
  have h0 : 0 ≤ f (u - 1) := by
    refine le_of_tendsto hl ?_
    filter_upwards [Iic_mem_atBot (u - 1)] with t ht
    have ht' : t ≤ u - 1 := ht
    exact hm.monotoneOn (show t < b by linarith) (show u - 1 < b by linarith) ht'
  exact lt_of_le_of_lt h0 (hm (show u - 1 < b by linarith) (show u < b from hu) (by linarith))

theorem tendsto_inv_pow (n : ℕ) (hn : n ≠ 0) : Tendsto (fun u : ℝ => (u ^ n)⁻¹) atBot (𝓝 0) := by
  have h := (tendsto_inv_atBot_zero (𝕜 := ℝ)).pow n
  rw [zero_pow hn] at h
  exact h.congr fun u => by rw [inv_pow]

/-- `φ(u) (-1/u + 1/u³ - 3/u⁵) > Φ(u)` for `u < 0`. -/
theorem normCdf_lt {u : ℝ} (hu : u < 0) :
    normCdf u < normPdf u * (-(u ^ 1)⁻¹ + (u ^ 3)⁻¹ - 3 * (u ^ 5)⁻¹) := by
  have := pos_of_deriv (b := 0)
    (f := fun u => normPdf u * (-(u ^ 1)⁻¹ + (u ^ 3)⁻¹ - 3 * (u ^ 5)⁻¹) - normCdf u)
    (f' := fun u => 15 * normPdf u / u ^ 6) ?_ ?_ ?_ hu
  · linarith
  · intro x hx
    have hx0 : x ≠ 0 := hx.ne
    have d1 := (hasDerivAt_pow 1 x).inv (by positivity)
    have d3 := (hasDerivAt_pow 3 x).inv (by positivity)
    have d5 := (hasDerivAt_pow 5 x).inv (by positivity)
    have := ((hasDerivAt_normPdf x).mul ((d1.neg.add d3).sub (d5.const_mul 3))).sub (hasDerivAt_normCdf x)
    refine this.congr_deriv ?_
    simp only [Pi.add_apply, Pi.neg_apply, Pi.inv_apply, Pi.sub_apply]
    field_simp
    push_cast
    ring
  · intro x hx
    have := normPdf_pos x
    have : 0 < x ^ 6 := by have := hx.ne; positivity
    positivity
  · have t := ((tendsto_inv_pow 1 (by simp)).neg.add (tendsto_inv_pow 3 (by simp))).sub
      ((tendsto_inv_pow 5 (by simp)).const_mul 3)
    have := (tendsto_normPdf_atBot.mul t).sub tendsto_normCdf_atBot
    simpa using this

/-- `h(u) > φ(u) (1/u² - 3/u⁴)`. -/
theorem h_gt {u : ℝ} (hu : u < 0) : normPdf u * ((u ^ 2)⁻¹ - 3 * (u ^ 4)⁻¹) < h u := by
  have h1 := mul_lt_mul_of_neg_left (normCdf_lt hu) hu
  have hu0 := hu.ne
  have e : u * (normPdf u * (-(u ^ 1)⁻¹ + (u ^ 3)⁻¹ - 3 * (u ^ 5)⁻¹)) =
      normPdf u * ((u ^ 2)⁻¹ - 3 * (u ^ 4)⁻¹) - normPdf u := by
    field_simp
    ring
  rw [e] at h1
  unfold h
  linarith

/-- `h(u) < φ(u) / u²`. -/
theorem h_lt {u : ℝ} (hu : u < 0) : h u < normPdf u * (u ^ 2)⁻¹ := by
  have := pos_of_deriv (b := 0) (f := fun u => normPdf u * (u ^ 2)⁻¹ - h u)
    (f' := fun u => normPdf u * (-u⁻¹ - 2 * (u ^ 3)⁻¹) - normCdf u) ?_ ?_ ?_ hu
  · linarith
  · intro x hx
    have hx0 : x ≠ 0 := hx.ne
    have d2 := (hasDerivAt_pow 2 x).inv (by positivity)
    have := ((hasDerivAt_normPdf x).mul d2).sub (hasDerivAt_h x)
    refine this.congr_deriv ?_
    simp only [Pi.inv_apply]
    field_simp
    push_cast
    ring
  · intro x hx
    have h1 := h_pos x
    have hp := normPdf_pos x
    unfold h at h1
    have h3 : 0 < -(x⁻¹) := by have := inv_lt_zero.2 hx; linarith
    have h4 : 0 < -(x ^ 3)⁻¹ := by
      have : x ^ 3 < 0 := Odd.pow_neg (by decide) hx
      have := inv_lt_zero.2 this; linarith
    have : normCdf x < normPdf x * -x⁻¹ := by
      have h5 : (x * normCdf x + normPdf x) * -x⁻¹ = -normCdf x + normPdf x * -x⁻¹ := by
        have := hx.ne
        field_simp
        ring
      have := mul_pos h1 h3
      rw [h5] at this
      linarith
    have h6 := mul_pos hp h4
    nlinarith
  · have ht : Tendsto h atBot (𝓝 0) := by
      refine squeeze_zero' (Eventually.of_forall h_nonneg) ?_ tendsto_normPdf_atBot
      filter_upwards [Iic_mem_atBot 0] with t ht'
      have ht'' : t ≤ 0 := ht'
      unfold h
      nlinarith [normCdf_nonneg t]
    have := (tendsto_normPdf_atBot.mul (tendsto_inv_pow 2 (by simp))).sub ht
    simpa using this

/-- In the far tail the helper is the logarithm up to `4/u²`. -/
theorem logEiHelper_tail {u : ℝ} (hu : u ≤ -10 ^ 6) :
    |logEiHelper u - log (h u)| ≤ 4 / u ^ 2 := by
  have h0 : u < 0 := by norm_num at hu ⊢; linarith
  have hn := h0.ne
  have e : logEiHelper u = log (normPdf u * (u ^ 2)⁻¹) := by
    unfold logEiHelper
    rw [if_neg (by norm_num at hu ⊢; linarith), if_neg (by linarith)]
    simp only
    rw [log_mul (normPdf_pos u).ne' (by positivity), log_normPdf, log_inv, log_pow, log_abs]
    push_cast; ring
  have hu2 : (10 : ℝ) ^ 12 ≤ u ^ 2 := by norm_num at hu ⊢; nlinarith
  have hc : 0 < u ^ 2 := by positivity
  have h1 := log_lt_log (h_pos u) (h_lt h0)
  have hb : 3 / u ^ 2 ≤ 3 / 10 ^ 12 := by gcongr
  have hb' : 0 < 3 / u ^ 2 := by positivity
  have hpos : 0 < 1 - 3 / u ^ 2 := by norm_num at hb; linarith
  have e2 : normPdf u * ((u ^ 2)⁻¹ - 3 * (u ^ 4)⁻¹) = normPdf u * (u ^ 2)⁻¹ * (1 - 3 / u ^ 2) := by
    field_simp
  have h2 := log_lt_log (by rw [e2]; exact mul_pos (mul_pos (normPdf_pos u) (by positivity)) hpos) (h_gt h0)
  rw [e2, log_mul (mul_pos (normPdf_pos u) (by positivity)).ne' hpos.ne'] at h2
  have h3 : -(4 / u ^ 2) ≤ log (1 - 3 / u ^ 2) := by
    have := one_sub_inv_le_log_of_pos hpos
    refine le_trans ?_ this
    rw [neg_le_sub_iff_le_add, inv_le_iff_one_le_mul₀ hpos]
    have : 4 / u ^ 2 = 4 / 3 * (3 / u ^ 2) := by ring
    rw [this]
    norm_num at hb
    nlinarith
  rw [e, abs_of_pos (by linarith)]
  linarith

end Verif.Gauss
