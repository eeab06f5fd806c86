import Verif.Model.EiF64
import Verif.Lemmas.F64
import Verif.Lemmas.LogEi
import Mathlib.Analysis.Complex.ExponentialBounds
import Mathlib.Analysis.Real.Pi.Bounds

/-!
# Sign of the expected improvement in double precision (C141)
-/

set_option autoImplicit false

namespace Verif.Props

open Verif Verif.F64 Verif.Spec

/-- Relative and absolute error of one rounding. -/
theorem rnd_rel_tiny (x : ℝ) : |rnd x - x| ≤ 2 ^ (-53 : ℤ) * |x| + 2 ^ (-1075 : ℤ) := by
  have h := rnd_error x
  have h53 := zpow2_pos (-53)
  have h1075 := zpow2_pos (-1075)
  by_cases hx : x = 0
  · subst hx; rw [rnd_zero]; simp only [sub_self, abs_zero, mul_zero, zero_add]; exact h1075.le
  by_cases he : -1074 < expo x
  · have h1 := zpow_expo_le hx he
    have e : (2 : ℝ) ^ expo x / 2 = 2 ^ (-53 : ℤ) * 2 ^ (expo x + 52) := by
      rw [← zpow_add₀ (by norm_num), show (-53 : ℤ) + (expo x + 52) = expo x - 1 by ring, zpow_sub_one₀ (by norm_num)]
      ring
    rw [e] at h
    have := mul_le_mul_of_nonneg_left h1 h53.le
    linarith
  · have he' : expo x = -1074 := le_antisymm (not_lt.1 he) (le_expo x)
    have e : (2 : ℝ) ^ expo x / 2 = 2 ^ (-1075 : ℤ) := by
      rw [he', show (-1075 : ℤ) = -1074 - 1 by norm_num, zpow_sub_one₀ (by norm_num)]; ring
    rw [e] at h
    have := mul_nonneg h53.le (abs_nonneg x)
    linarith

/-- A bound on the smallest numbers. -/
noncomputable def tiny : ℝ := 2 ^ (-1075 : ℤ)

theorem tiny_pos : 0 < tiny := zpow2_pos _

theorem tiny_le : tiny ≤ 1 / 10 ^ 20 := by
  unfold tiny
  have : (2 : ℝ) ^ (-1075 : ℤ) ≤ 2 ^ (-67 : ℤ) := zpow_le_zpow_right₀ (by norm_num) (by norm_num)
  refine this.trans ?_
  norm_num

theorem rnd_near (x : ℝ) : |rnd x - x| ≤ |x| / 10 ^ 15 + tiny := by
  refine (rnd_rel_tiny x).trans ?_
  have : (2 : ℝ) ^ (-53 : ℤ) ≤ 1 / 10 ^ 15 := by norm_num
  have := mul_le_mul_of_nonneg_right this (abs_nonneg x)
  unfold tiny
  linarith

theorem rnd_nonneg {x : ℝ} (h : 0 ≤ x) : 0 ≤ rnd x := le_rnd isF64_zero h

theorem rnd_nonpos {x : ℝ} (h : x ≤ 0) : rnd x ≤ 0 := rnd_le isF64_zero h

open Verif.Gauss

/-- `h` is not small compared to the density, down to -37.5. -/
theorem h_ge {u : ℝ} (h1 : -(75 / 2) ≤ u) (h2 : u ≤ 0) : 7 / 10 ^ 4 * Criteria.normPdf u ≤ Gauss.h u := by
  have hp := normPdf_pos u
  by_cases hu : u ≤ -2
  · refine le_trans ?_ (h_gt (by linarith)).le
    rw [mul_comm]
    refine mul_le_mul_of_nonneg_left ?_ hp.le
    have ht : 4 ≤ u ^ 2 := by nlinarith
    have ht' : u ^ 2 ≤ 5625 / 4 := by nlinarith
    have e : (u ^ 4) = (u ^ 2) ^ 2 := by ring
    rw [e]
    generalize u ^ 2 = t at ht ht'
    have h0 : 0 < t := by linarith
    rw [show t⁻¹ - 3 * (t ^ 2)⁻¹ = (t - 3) / t ^ 2 by field_simp, le_div_iff₀ (by positivity)]
    nlinarith
  · push Not at hu
    have hm := h_strictMono hu
    have hg := h_gt (u := -2) (by norm_num)
    have e : Criteria.normPdf u ≤ Criteria.normPdf (-2) * 8 := by
      unfold Criteria.normPdf
      rw [div_mul_eq_mul_div]
      refine div_le_div_of_nonneg_right ?_ (Real.sqrt_nonneg _)
      have ha : Real.exp (-0.5 * u * u) ≤ 1 := Real.exp_le_one_iff.2 (by nlinarith)
      have hb : 1 ≤ Real.exp (-0.5 * -2 * -2) * 8 := by
        have := Real.exp_one_lt_d9
        rw [show (-0.5 * -2 * -2 : ℝ) = -(1 + 1) by norm_num, Real.exp_neg, Real.exp_add]
        rw [inv_mul_eq_div, one_le_div (by positivity)]
        nlinarith [Real.exp_pos 1]
      linarith
    have hp2 := normPdf_pos (-2)
    norm_num at hg
    linarith

/-- Growth of the distribution function over a short interval. -/
theorem normCdf_add_le {u e : ℝ} (he : 0 ≤ e) (h : e * |u| ≤ 1 / 2) :
    Criteria.normCdf (u + e) ≤ Criteria.normCdf u + 2 * e * Criteria.normPdf u := by
  have key : ∀ t ∈ Set.Icc u (u + e), Criteria.normPdf t ≤ 2 * Criteria.normPdf u := by
    intro t ht
    unfold Criteria.normPdf
    rw [mul_div_assoc']
    refine div_le_div_of_nonneg_right ?_ (Real.sqrt_nonneg _)
    have h2 : Real.exp (1 / 2) ≤ 2 := by
      have := Real.exp_bound_div_one_sub_of_interval (x := 1 / 2) (by norm_num) (by norm_num)
      norm_num at this ⊢
      exact this
    have h3 : -0.5 * t * t ≤ 1 / 2 + -0.5 * u * u := by
      have a1 : -(u * e) ≤ e * |u| := by
        have := neg_abs_le u
        nlinarith
      have a2 : (t - u) * u ≥ -(e * |u|) := by
        have := neg_abs_le u
        have := ht.1
        have := ht.2
        nlinarith [abs_nonneg u]
      nlinarith [sq_nonneg (t - u)]
    calc Real.exp (-0.5 * t * t) ≤ Real.exp (1 / 2 + -0.5 * u * u) := Real.exp_le_exp.2 h3
      _ = Real.exp (1 / 2) * Real.exp (-0.5 * u * u) := Real.exp_add _ _
      _ ≤ 2 * Real.exp (-0.5 * u * u) := mul_le_mul_of_nonneg_right h2 (Real.exp_pos _).le
  have := (convex_Icc u (u + e)).image_sub_le_mul_sub_of_deriv_le (f := Criteria.normCdf)
    (fun x _ => (hasDerivAt_normCdf x).continuousAt.continuousWithinAt)
    (fun x _ => (hasDerivAt_normCdf x).differentiableAt.differentiableWithinAt)
    (C := 2 * Criteria.normPdf u)
    (fun x hx => by rw [(hasDerivAt_normCdf x).deriv]; exact key x (interior_subset hx))
    u (Set.left_mem_Icc.2 (by linarith)) (u + e) (Set.right_mem_Icc.2 (by linarith)) (by linarith)
  linarith

theorem normCdf_mono {u v : ℝ} (h : u ≤ v) : Criteria.normCdf u ≤ Criteria.normCdf v :=
  (strictMono_of_hasDerivAt_pos hasDerivAt_normCdf normPdf_pos).monotone h

theorem erfc_eq (w : ℝ) : Criteria.erfc w = 2 * Criteria.normCdf (-(√2 * w)) := by
  have h2 : (0 : ℝ) < √2 := by positivity
  unfold Criteria.normCdf
  rw [show - -(√2 * w) / √2 = w by field_simp]
  ring

theorem sqrt2_near : |EiF64.sqrt2 - √2| ≤ 1 / 10 ^ 15 ∧ 14142 / 10000 ≤ EiF64.sqrt2 ∧ √2 ≤ 15 / 10 := by
  have a : 14142135623730949 / 10 ^ 16 ≤ √2 := Real.le_sqrt_of_sq_le (by norm_num)
  have b : √2 ≤ 14142135623730952 / 10 ^ 16 := Real.sqrt_le_iff.2 ⟨by norm_num, by norm_num⟩
  refine ⟨?_, by norm_num [EiF64.sqrt2], by linarith⟩
  unfold EiF64.sqrt2
  rw [abs_le]
  constructor <;> norm_num at a b ⊢ <;> linarith

theorem sqrt2pi_near : EiF64.sqrt2pi ≤ √(2 * Real.pi) * (1 + 1 / 10 ^ 6) ∧
    √(2 * Real.pi) * (1 - 1 / 10 ^ 6) ≤ EiF64.sqrt2pi ∧ 25 / 10 ≤ EiF64.sqrt2pi := by
  have h1 := Real.pi_gt_d6
  have h2 := Real.pi_lt_d6
  have a : 25066280 / 10 ^ 7 ≤ √(2 * Real.pi) := Real.le_sqrt_of_sq_le (by norm_num at h1 ⊢; linarith)
  have b : √(2 * Real.pi) ≤ 25066290 / 10 ^ 7 := Real.sqrt_le_iff.2 ⟨by norm_num, by norm_num at h2 ⊢; linarith⟩
  refine ⟨?_, ?_, by norm_num [EiF64.sqrt2pi]⟩ <;> unfold EiF64.sqrt2pi <;> norm_num at a b ⊢ <;> linarith

/-- The argument of `erfc` is accurate. -/
theorem erfc_arg {z : ℝ} (h0 : 0 ≤ z) (h1 : z ≤ 40) :
    |√2 * div z EiF64.sqrt2 - z| ≤ 1 / 10 ^ 12 ∧ 0 ≤ div z EiF64.sqrt2 ∧ div z EiF64.sqrt2 ≤ z * (5000 / 7071) + 1 / 10 ^ 10 := by
  obtain ⟨hs, hlo, hhi⟩ := sqrt2_near
  have ht := tiny_le
  have ht0 := tiny_pos
  have hsp : 0 < EiF64.sqrt2 := by linarith
  have hq := rnd_near (z / EiF64.sqrt2)
  have hzn : 0 ≤ z / EiF64.sqrt2 := by positivity
  rw [abs_of_nonneg hzn] at hq
  have hz : z / EiF64.sqrt2 ≤ z * (5000 / 7071) := by
    rw [div_le_iff₀ hsp]; nlinarith
  have hq' : |div z EiF64.sqrt2 - z / EiF64.sqrt2| ≤ 1 / 10 ^ 13 := by
    refine hq.trans ?_
    norm_num at ht ⊢
    linarith
  refine ⟨?_, rnd_nonneg hzn, ?_⟩
  · have e : √2 * div z EiF64.sqrt2 - z =
        √2 * (div z EiF64.sqrt2 - z / EiF64.sqrt2) + z / EiF64.sqrt2 * (√2 - EiF64.sqrt2) := by
      field_simp
      ring
    rw [e]
    have s0 := Real.sqrt_nonneg 2
    calc _ ≤ |√2 * (div z EiF64.sqrt2 - z / EiF64.sqrt2)| + |z / EiF64.sqrt2 * (√2 - EiF64.sqrt2)| := abs_add_le _ _
      _ = √2 * |div z EiF64.sqrt2 - z / EiF64.sqrt2| + z / EiF64.sqrt2 * |EiF64.sqrt2 - √2| := by
        rw [abs_mul, abs_mul, abs_of_nonneg s0, abs_of_nonneg hzn, abs_sub_comm EiF64.sqrt2]
      _ ≤ 15 / 10 * (1 / 10 ^ 13) + 30 * (1 / 10 ^ 15) := by
        refine add_le_add (mul_le_mul hhi hq' (abs_nonneg _) (by norm_num)) (mul_le_mul ?_ hs (abs_nonneg _) (by norm_num))
        linarith
      _ ≤ _ := by norm_num
  · have := (abs_le.1 hq').2
    norm_num at this ⊢
    linarith

/-- Library functions that are accurate to nine digits where they do not underflow. -/
structure Accurate (f : EiF64.Fns) : Prop where
  exp_nonneg : ∀ x, 0 ≤ f.exp x
  erfc_nonneg : ∀ x, 0 ≤ f.erfc x
  exp_acc : ∀ x, -704 ≤ x → x ≤ 0 → |f.exp x - Real.exp x| ≤ Real.exp x / 10 ^ 9
  erfc_acc : ∀ x, 0 ≤ x → x ≤ 266 / 10 → |f.erfc x - Criteria.erfc x| ≤ Criteria.erfc x / 10 ^ 9

/-- The density, computed, is not smaller than the density by much. -/
theorem pdf_ge {f : EiF64.Fns} (hf : Accurate f) {u : ℝ} (h1 : -(75 / 2) ≤ u) (h2 : u ≤ 0) :
    Criteria.normPdf u * (1 - 1 / 10 ^ 5) - tiny ≤ EiF64.normPdf f u := by
  have ht := tiny_le
  have ht0 := tiny_pos
  set p1 := mul (-1 / 2) u with hp1
  set p2 := mul p1 u with hp2
  have e1 := rnd_near (-1 / 2 * u)
  have e2 := rnd_near (p1 * u)
  have n1 : 0 ≤ p1 := rnd_nonneg (by linarith)
  have n2 : p2 ≤ 0 := rnd_nonpos (mul_nonpos_of_nonneg_of_nonpos n1 h2)
  change |p1 - -1 / 2 * u| ≤ _ at e1
  change |p2 - p1 * u| ≤ _ at e2
  have b1 : |p1 - -1 / 2 * u| ≤ 1 / 10 ^ 13 := by
    refine e1.trans ?_
    have : |-1 / 2 * u| ≤ 19 := by rw [abs_le]; constructor <;> linarith
    generalize |-1 / 2 * u| = w at this
    norm_num at ht ⊢
    linarith
  have b1' := abs_le.1 b1
  have b2 : |p2 - p1 * u| ≤ 1 / 10 ^ 11 := by
    refine e2.trans ?_
    have : |p1 * u| ≤ 20 * 38 := by
      rw [abs_mul]
      refine mul_le_mul ?_ ?_ (abs_nonneg _) (by norm_num)
      · rw [abs_of_nonneg n1]; norm_num at b1' ⊢; linarith
      · rw [abs_le]; constructor <;> linarith
    generalize |p1 * u| = w at this
    norm_num at ht ⊢
    linarith
  have b2' := abs_le.1 b2
  have b3 : |p2 - -0.5 * u * u| ≤ 1 / 10 ^ 10 := by
    have e : p2 - -0.5 * u * u = (p2 - p1 * u) + (p1 - -1 / 2 * u) * u := by ring
    rw [e]
    refine (abs_add_le _ _).trans ?_
    rw [abs_mul]
    have hu : |u| ≤ 38 := by rw [abs_le]; constructor <;> linarith
    have := mul_le_mul b1 hu (abs_nonneg _) (by norm_num)
    norm_num at this b2 ⊢
    linarith
  have b3' := abs_le.1 b3
  have hlow : -704 ≤ p2 := by
    norm_num at b3'
    nlinarith
  have hx := abs_le.1 (hf.exp_acc p2 hlow n2)
  have hE : Real.exp (-0.5 * u * u) * (1 - 1 / 10 ^ 10) ≤ Real.exp p2 := by
    have e : p2 = -0.5 * u * u + (p2 - -0.5 * u * u) := by ring
    rw [e, Real.exp_add]
    refine mul_le_mul_of_nonneg_left ?_ (Real.exp_pos _).le
    have := Real.add_one_le_exp (p2 - -0.5 * u * u)
    linarith
  obtain ⟨hs1, _, hs2⟩ := sqrt2pi_near
  have hsp : 0 < EiF64.sqrt2pi := by linarith
  have hd := rnd_near (f.exp p2 / EiF64.sqrt2pi)
  have hdn : 0 ≤ f.exp p2 / EiF64.sqrt2pi := div_nonneg (hf.exp_nonneg _) hsp.le
  rw [abs_of_nonneg hdn] at hd
  have hd' := (abs_le.1 hd).1
  change _ ≤ EiF64.normPdf f u - _ at hd'
  have hq : Criteria.normPdf u * (1 - 2 / 10 ^ 6) ≤ f.exp p2 / EiF64.sqrt2pi := by
    unfold Criteria.normPdf
    rw [div_mul_eq_mul_div, div_le_div_iff₀ (by positivity) hsp]
    have hpi : 0 < √(2 * Real.pi) := by positivity
    set E := Real.exp (-0.5 * u * u)
    have hE0 : 0 < E := Real.exp_pos _
    have a1 : E * (1 - 2 / 10 ^ 9) ≤ f.exp p2 := by
      have := hx.1
      nlinarith
    calc E * (1 - 2 / 10 ^ 6) * EiF64.sqrt2pi ≤ E * (1 - 2 / 10 ^ 6) * (√(2 * Real.pi) * (1 + 1 / 10 ^ 6)) :=
          mul_le_mul_of_nonneg_left hs1 (mul_nonneg hE0.le (by norm_num))
      _ = E * √(2 * Real.pi) * ((1 - 2 / 10 ^ 6) * (1 + 1 / 10 ^ 6)) := by ring
      _ ≤ E * √(2 * Real.pi) * (1 - 2 / 10 ^ 9) :=
          mul_le_mul_of_nonneg_left (by norm_num) (by positivity)
      _ = E * (1 - 2 / 10 ^ 9) * √(2 * Real.pi) := by ring
      _ ≤ f.exp p2 * √(2 * Real.pi) := mul_le_mul_of_nonneg_right a1 hpi.le
  have hP := normPdf_pos u
  norm_num at hd' hq ⊢
  linarith

/-- The distribution function, computed, is not larger than the distribution function by much. -/
theorem cdf_le {f : EiF64.Fns} (hf : Accurate f) {u : ℝ} (h1 : -(75 / 2) ≤ u) (h2 : u ≤ 0) :
    0 ≤ EiF64.normCdf f u ∧
      EiF64.normCdf f u ≤ (Criteria.normCdf u + Criteria.normPdf u / 10 ^ 11) * (1 + 2 / 10 ^ 9) + tiny := by
  have ht := tiny_le
  have ht0 := tiny_pos
  obtain ⟨hq, hq0, hq1⟩ := erfc_arg (z := -u) (by linarith) (by linarith)
  set q := div (-u) EiF64.sqrt2 with hqd
  have hx := (abs_le.1 (hf.erfc_acc q hq0 (by norm_num at hq1 ⊢; linarith))).2
  rw [erfc_eq] at hx
  have hc : Criteria.normCdf (-(√2 * q)) ≤ Criteria.normCdf u + Criteria.normPdf u / 10 ^ 11 := by
    have h3 : -(√2 * q) ≤ u + 1 / 10 ^ 12 := by have := (abs_le.1 hq).1; linarith
    refine (normCdf_mono h3).trans ?_
    refine (normCdf_add_le (by norm_num) ?_).trans ?_
    · have : |u| ≤ 38 := by rw [abs_le]; constructor <;> linarith
      norm_num at this ⊢
      linarith
    · have := normPdf_pos u
      norm_num
      linarith
  have hn := rnd_near (1 / 2 * f.erfc q)
  have hn0 : 0 ≤ 1 / 2 * f.erfc q := mul_nonneg (by norm_num) (hf.erfc_nonneg q)
  rw [abs_of_nonneg hn0] at hn
  have hn' := (abs_le.1 hn).2
  refine ⟨rnd_nonneg hn0, ?_⟩
  change EiF64.normCdf f u - _ ≤ _ at hn'
  have hcp : 0 ≤ Criteria.normCdf (-(√2 * q)) := normCdf_nonneg _
  norm_num at hx hn' hc ⊢
  linarith

theorem pdf_not_tiny {u : ℝ} (h1 : -(75 / 2) ≤ u) (h2 : u ≤ 0) : tiny ≤ Criteria.normPdf u / 10 ^ 9 := by
  have e1 : Real.exp (-704) ≤ Real.exp (-0.5 * u * u) := Real.exp_le_exp.2 (by nlinarith)
  have e2 : (2 : ℝ) ^ (-1020 : ℤ) ≤ Real.exp (-704) := by
    have h := Real.exp_one_lt_d9
    rw [Real.exp_neg, zpow_neg, show (704 : ℝ) = ((704 : ℕ) : ℝ) * 1 by norm_num, Real.exp_nat_mul]
    refine inv_anti₀ (by positivity) ?_
    have h16 : Real.exp 1 ^ 16 ≤ 8886112 :=
      (pow_le_pow_left₀ (Real.exp_pos 1).le h.le 16).trans (by norm_num)
    have h176 : (Real.exp 1 ^ 16) ^ 11 ≤ 2 ^ 255 :=
      (pow_le_pow_left₀ (by positivity) h16 11).trans (by norm_num)
    have h704 := pow_le_pow_left₀ (by positivity) h176 4
    rw [← pow_mul, ← pow_mul, ← pow_mul] at h704
    exact h704
  obtain ⟨_, h3, _⟩ := sqrt2pi_near
  have h4 : √(2 * Real.pi) ≤ 4 := by
    have := Real.pi_lt_d2
    exact Real.sqrt_le_iff.2 ⟨by norm_num, by linarith⟩
  have e3 : Real.exp (-0.5 * u * u) / 4 ≤ Criteria.normPdf u := by
    unfold Criteria.normPdf
    exact div_le_div_of_nonneg_left (Real.exp_pos _).le (by positivity) h4
  have e4 : tiny = 2 ^ (-55 : ℤ) * 2 ^ (-1020 : ℤ) := by
    unfold tiny; rw [← zpow_add₀ (by norm_num)]; norm_num
  rw [e4]
  have e5 : (2 : ℝ) ^ (-55 : ℤ) ≤ 1 / 10 ^ 9 / 4 := by norm_num
  have hz := zpow2_pos (-1020)
  generalize (2 : ℝ) ^ (-1020 : ℤ) = w at e2 hz
  generalize (2 : ℝ) ^ (-55 : ℤ) = v at e5
  have : v * w ≤ 1 / 10 ^ 9 / 4 * w := mul_le_mul_of_nonneg_right e5 hz.le
  norm_num at this ⊢
  linarith

/-- C141, part. The expected improvement divided by the standard deviation, as computed, is non-negative when the
prediction is not worse than the current minimum by more than 37.5 standard deviations. -/
theorem C141_improvement_nonneg_partial (f : EiF64.Fns) (hf : Accurate f) (u : ℝ) (h : -(75 / 2) ≤ u) :
    0 ≤ EiF64.improvement f u ∧ (u ≤ 0 → 0 < EiF64.improvement f u) := by
  have ht0 := tiny_pos
  rcases lt_or_ge 0 u with h0 | h0
  · have hc : 0 ≤ EiF64.normCdf f u := rnd_nonneg (mul_nonneg (by norm_num) (hf.erfc_nonneg _))
    have hp : 0 ≤ EiF64.normPdf f u := rnd_nonneg (div_nonneg (hf.exp_nonneg _) (by norm_num [EiF64.sqrt2pi]))
    exact ⟨rnd_nonneg (add_nonneg (rnd_nonneg (mul_nonneg h0.le hc)) hp), fun hu => absurd hu (not_le.2 h0)⟩
  · suffices hs : 0 < EiF64.improvement f u from ⟨hs.le, fun _ => hs⟩
    obtain ⟨hc0, hc1⟩ := cdf_le hf h h0
    have hp := pdf_ge hf h h0
    have hh := h_ge h h0
    have ht := pdf_not_tiny h h0
    have hP := normPdf_pos u
    have hC := normCdf_nonneg u
    have ha := rnd_near (u * EiF64.normCdf f u)
    rw [abs_of_nonpos (mul_nonpos_of_nonpos_of_nonneg h0 hc0)] at ha
    have ha' := (abs_le.1 ha).1
    unfold EiF64.improvement
    change 0 < rnd (rnd (u * EiF64.normCdf f u) + EiF64.normPdf f u)
    unfold Gauss.h at hh
    have hx : (2 : ℝ) ^ (-1074 : ℤ) = 2 * tiny := by
      unfold tiny
      rw [show (-1074 : ℤ) = 1 + -1075 by norm_num, zpow_add₀ (by norm_num)]
      norm_num
    refine lt_of_lt_of_le (zpow2_pos (-1074)) (le_rnd (isF64_zpow (by norm_num)) ?_)
    rw [hx]
    generalize rnd (u * EiF64.normCdf f u) = a at ha'
    generalize EiF64.normCdf f u = c at *
    generalize EiF64.normPdf f u = p at *
    generalize Criteria.normCdf u = C at *
    generalize Criteria.normPdf u = P at *
    generalize tiny = t at *
    have m1 : u * ((C + P / 10 ^ 11) * (1 + 2 / 10 ^ 9) + t) ≤ u * c := mul_le_mul_of_nonpos_left hc1 h0
    have m2 : -(75 / 2) * P ≤ u * P := mul_le_mul_of_nonneg_right h hP.le
    have m3 : -(75 / 2) * t ≤ u * t := mul_le_mul_of_nonneg_right h ht0.le
    have m4 : u * ((C + P / 10 ^ 11) * (1 + 2 / 10 ^ 9) + t) =
        u * C * (1 + 2 / 10 ^ 9) + u * P * ((1 + 2 / 10 ^ 9) / 10 ^ 11) + u * t := by ring
    rw [m4] at m1
    generalize u * c = uc at *
    generalize u * C = uC at *
    generalize u * P = uP at *
    generalize u * t = ut at *
    norm_num at *
    linarith

/-- C141, part. The expected improvement, as computed, is non-negative when the prediction is not worse than the
current minimum by more than 37 standard deviations. -/
theorem C141_nonneg_partial (f : EiF64.Fns) (hf : Accurate f)
    (hsqrt : ∀ x, Criteria.eps ≤ x → |f.sqrt x - √x| ≤ √x / 10 ^ 9) (fmin k pred var : ℝ) (hk : 1 / 10 ^ 6 ≤ k)
    (h : pred ≤ fmin + 37 * (k * √var)) : 0 ≤ EiF64.eiAt f fmin k pred var := by
  unfold EiF64.eiAt
  split_ifs with hv
  · exact le_rfl
  have hv' := not_lt.1 hv
  have hs := abs_le.1 (hsqrt var hv')
  have hsv : (2 : ℝ)⁻¹ ^ 26 ≤ √var := by
    refine Real.le_sqrt_of_sq_le (le_trans (le_of_eq ?_) hv')
    unfold Criteria.eps
    norm_num
  have ht := tiny_le
  have ht0 := tiny_pos
  have hs0 : 0 ≤ f.sqrt var := by linarith [hs.1, Real.sqrt_nonneg var]
  have hk0 : 0 ≤ k := le_trans (by norm_num) hk
  have hsig := rnd_near (k * f.sqrt var)
  rw [abs_of_nonneg (mul_nonneg hk0 hs0)] at hsig
  have hsig' := (abs_le.1 hsig).1
  change _ ≤ mul k (f.sqrt var) - _ at hsig'
  dsimp only
  generalize mul k (f.sqrt var) = sigma at *
  have m1 : k * (√var - √var / 10 ^ 9) ≤ k * f.sqrt var := mul_le_mul_of_nonneg_left (by linarith [hs.1]) hk0
  have m2 : 1 / 10 ^ 6 * 2⁻¹ ^ 26 ≤ k * √var := mul_le_mul hk hsv (by positivity) hk0
  have m3 : k * (√var - √var / 10 ^ 9) = k * √var * (1 - 1 / 10 ^ 9) := by ring
  rw [m3] at m1
  have d := rnd_near (fmin - pred)
  have d' := (abs_le.1 d).1
  change _ ≤ sub fmin pred - _ at d'
  generalize k * √var = r at *
  generalize k * f.sqrt var = r' at *
  have hlow : r * (1 - 1 / 10 ^ 5) ≤ sigma := by
    norm_num at *
    linarith
  have hpos : 0 < sigma := by
    norm_num at *
    linarith
  have hd : -(37 + 1 / 10 ^ 5) * r ≤ sub fmin pred := by
    rcases le_total 0 (fmin - pred) with h0 | h0
    · have : 0 ≤ sub fmin pred := rnd_nonneg h0
      norm_num at *
      linarith
    · rw [abs_of_nonpos h0] at d'
      norm_num at *
      linarith
  have hq : -(75 / 2) ≤ div (sub fmin pred) sigma := by
    refine le_rnd ⟨-75, -1, by norm_num, by norm_num, by norm_num⟩ ?_
    rw [le_div_iff₀ hpos]
    norm_num at *
    linarith
  exact rnd_nonneg (mul_nonneg hpos.le (C141_improvement_nonneg_partial f hf _ hq).1)

/-- Library functions correctly rounded. -/
noncomputable def idealFns : EiF64.Fns where
  exp x := rnd (Real.exp x)
  erfc x := rnd (Criteria.erfc x)
  sqrt x := rnd √x

theorem exp_740 : 117 / 10 * (2 ^ 179) ^ 6 ≤ 1000 * Real.exp 740 ∧ 1000 * Real.exp 740 ≤ 118 / 10 * (2 ^ 179) ^ 6 := by
  have h1 := Real.exp_one_gt_d9
  have h2 := Real.exp_one_lt_d9
  have e : Real.exp 740 = (Real.exp 1 ^ 20) ^ 37 := by
    rw [← pow_mul, ← Real.exp_nat_mul]; norm_num
  have a : 485165194 ≤ Real.exp 1 ^ 20 := le_trans (by norm_num) (pow_le_pow_left₀ (by norm_num) h1.le 20)
  have b : Real.exp 1 ^ 20 ≤ 485165197 := (pow_le_pow_left₀ (Real.exp_pos 1).le h2.le 20).trans (by norm_num)
  have a' := pow_le_pow_left₀ (by norm_num) a 37
  have b' := pow_le_pow_left₀ (by positivity) b 37
  rw [e]
  norm_num at a' b' ⊢
  constructor <;> linarith

/-- The smallest positive number of type `f64`. -/
noncomputable def unit : ℝ := 2 ^ (-1074 : ℤ)

theorem unit_pos : 0 < unit := zpow2_pos _

theorem isF64_unit (m : ℤ) (h : |m| ≤ 100) : IsF64 (m * unit) := isF64_mul_zpow (h.trans (by norm_num)) le_rfl

theorem exp_units {x : ℝ} (h1 : 740 ≤ x) (h2 : x ≤ 7400728 / 10 ^ 4) :
    78 * unit ≤ Real.exp (-x) ∧ Real.exp (-x) ≤ 92 * unit := by
  obtain ⟨a, b⟩ := exp_740
  have hU : (2 ^ 179) ^ 6 * unit = 1 := by
    unfold unit
    rw [zpow_neg, ← pow_mul]
    exact mul_inv_cancel₀ (by positivity)
  have hU0 := unit_pos
  have e : Real.exp (-x) * Real.exp 740 = Real.exp (740 - x) := by rw [← Real.exp_add]; congr 1; ring
  have e1 : Real.exp (740 - x) ≤ 1 := Real.exp_le_one_iff.2 (by linarith)
  have e2 : 740 - x + 1 ≤ Real.exp (740 - x) := Real.add_one_le_exp _
  have hx := Real.exp_pos (-x)
  have a' := mul_le_mul_of_nonneg_left a hx.le
  have b' := mul_le_mul_of_nonneg_left b hx.le
  rw [show Real.exp (-x) * (1000 * Real.exp 740) = 1000 * (Real.exp (-x) * Real.exp 740) by ring, e] at a' b'
  generalize (2 ^ 179 : ℝ) ^ 6 = N at *
  have a2 := mul_le_mul_of_nonneg_right a' hU0.le
  have b2 := mul_le_mul_of_nonneg_right b' hU0.le
  rw [show Real.exp (-x) * (117 / 10 * N) * unit = 117 / 10 * Real.exp (-x) * (N * unit) by ring, hU] at a2
  rw [show Real.exp (-x) * (118 / 10 * N) * unit = 118 / 10 * Real.exp (-x) * (N * unit) by ring, hU] at b2
  have c1 := mul_le_mul_of_nonneg_right e1 hU0.le
  have c2 := mul_le_mul_of_nonneg_right e2 hU0.le
  have c3 : (9272 / 10 ^ 4) * unit ≤ (740 - x + 1) * unit := mul_le_mul_of_nonneg_right (by norm_num at *; linarith) hU0.le
  constructor
  · norm_num at *
    linarith
  · linarith

theorem two_units_le {x : ℝ} (h : 3 / 2 * unit < x) (h' : x ≤ 100 * unit) : 2 * unit ≤ rnd x := by
  have hU := unit_pos
  have he : |rnd x - x| ≤ unit / 2 := by
    refine rnd_error_of_lt le_rfl ?_
    rw [abs_of_nonneg (by linarith), zpow_add₀ (by norm_num)]
    change x < unit * _
    refine lt_of_le_of_lt h' ?_
    rw [mul_comm]
    exact mul_lt_mul_of_pos_left (by norm_num) hU
  obtain ⟨j, hj⟩ := isF64_multiple (rnd_isF64 x) (Or.inl rfl)
  change rnd x = j * unit at hj
  have h1 : unit < rnd x := by linarith [(abs_le.1 he).1]
  rw [hj] at h1 ⊢
  have h2 : 1 < (j : ℝ) := by
    by_contra hc
    have := mul_le_mul_of_nonneg_right (not_lt.1 hc) hU.le
    linarith
  have h3 : (2 : ℤ) ≤ j := by
    have : (1 : ℤ) < j := by exact_mod_cast h2
    omega
  exact mul_le_mul_of_nonneg_right (by exact_mod_cast h3) hU.le

theorem erfc_units {w : ℝ} (h1 : 9849 / 256 - 1 / 10 ^ 12 ≤ w) (h2 : w ≤ 9849 / 256 + 1 / 10 ^ 12) :
    3 / 2 * unit < 2 * Criteria.normCdf (-w) ∧ 2 * Criteria.normCdf (-w) ≤ 100 * unit := by
  have hU := unit_pos
  have hw : 0 < w := by norm_num at *; linarith
  have hE : 78 * unit ≤ Real.exp (-(w * w / 2)) ∧ Real.exp (-(w * w / 2)) ≤ 92 * unit := by
    apply exp_units <;> norm_num at * <;> nlinarith
  have hP : Criteria.normPdf (-w) = Real.exp (-(w * w / 2)) / √(2 * Real.pi) := by
    unfold Criteria.normPdf; congr 2; ring
  have h3 := Real.pi_gt_d2
  have h4 := Real.pi_lt_d4
  have a : 250 / 100 ≤ √(2 * Real.pi) := Real.le_sqrt_of_sq_le (by norm_num at h3 ⊢; linarith)
  have b : √(2 * Real.pi) ≤ 2507 / 1000 := Real.sqrt_le_iff.2 ⟨by norm_num, by norm_num at h4 ⊢; linarith⟩
  have P1 : 78 * unit / (2507 / 1000) ≤ Criteria.normPdf (-w) := by
    rw [hP]
    exact div_le_div₀ (Real.exp_pos _).le hE.1 (by positivity) b
  have P2 : Criteria.normPdf (-w) ≤ 92 * unit / (250 / 100) := by
    rw [hP]
    exact div_le_div₀ (by positivity) hE.2 (by norm_num) a
  have l := h_lt (u := -w) (by linarith)
  have hwi : ((-w) ^ 2)⁻¹ ≤ 1 / 1000 := by
    rw [inv_eq_one_div]
    refine one_div_le_one_div_of_le (by norm_num) ?_
    norm_num at *; nlinarith
  have hp := normPdf_pos (-w)
  have g0 := h_nonneg (-w)
  unfold Gauss.h at l g0
  generalize Criteria.normPdf (-w) = P at *
  generalize hC : Criteria.normCdf (-w) = C at *
  have l2 : -w * C + P < P * (1 / 1000) := lt_of_lt_of_le l (mul_le_mul_of_nonneg_left hwi hp.le)
  have hC0 : 0 ≤ C := hC ▸ normCdf_nonneg _
  constructor
  · by_contra hc
    have := not_lt.1 hc
    have m : w * C ≤ (9849 / 256 + 1 / 10 ^ 12) * C := mul_le_mul_of_nonneg_right h2 hC0
    norm_num at *
    linarith
  · by_contra hc
    have := not_le.1 hc
    have m : (9849 / 256 - 1 / 10 ^ 12) * C ≤ w * C := mul_le_mul_of_nonneg_right h1 hC0
    norm_num at *
    linarith

/-- C141, refuted. With library functions that round correctly, the expected improvement computed at a prediction
38.5 standard deviations above the current minimum is negative. -/
theorem C141_refuted_subnormal : EiF64.eiAt idealFns 0 1 (9849 / 256) 1 < 0 := by
  have hU := unit_pos
  have i1 : IsF64 1 := ⟨1, 0, by norm_num, by norm_num, by norm_num⟩
  have hs : mul 1 (idealFns.sqrt 1) = 1 := by
    simp only [idealFns, mul, Real.sqrt_one, rnd_of_isF64 i1, one_mul]
  have hz : IsF64 (-(9849 / 256)) := ⟨-9849, -8, by norm_num, by norm_num, by norm_num⟩
  have hsub : sub 0 (9849 / 256) = -(9849 / 256) := by
    rw [sub, zero_sub, rnd_of_isF64 hz]
  have hdiv : div (-(9849 / 256)) 1 = -(9849 / 256) := by rw [div, div_one, rnd_of_isF64 hz]
  have hpdf : EiF64.normPdf idealFns (-(9849 / 256)) ≤ 37 * unit := by
    have m1 : mul (-1 / 2) (-(9849 / 256)) = 9849 / 512 := by
      rw [mul, show (-1 / 2 * -(9849 / 256) : ℝ) = 9849 / 512 by norm_num]
      exact rnd_of_isF64 ⟨9849, -9, by norm_num, by norm_num, by norm_num⟩
    have m2 : mul (9849 / 512) (-(9849 / 256)) = -(97002801 / 131072) := by
      rw [mul, show (9849 / 512 * -(9849 / 256) : ℝ) = -(97002801 / 131072) by norm_num]
      exact rnd_of_isF64 ⟨-97002801, -17, by norm_num, by norm_num, by norm_num⟩
    unfold EiF64.normPdf
    rw [m1, m2]
    have hE := (exp_units (x := 97002801 / 131072) (by norm_num) (by norm_num)).2
    have i92 := isF64_unit 92 (by norm_num)
    have i37 := isF64_unit 37 (by norm_num)
    push_cast at i92 i37
    refine rnd_le i37 ?_
    rw [div_le_iff₀ (by norm_num [EiF64.sqrt2pi])]
    refine (rnd_le i92 hE).trans ?_
    have := sqrt2pi_near.2.2
    have : (92 : ℝ) ≤ 37 * EiF64.sqrt2pi := by linarith
    nlinarith
  have hcdf : unit ≤ EiF64.normCdf idealFns (-(9849 / 256)) := by
    obtain ⟨hq, _, _⟩ := erfc_arg (z := 9849 / 256) (by norm_num) (by norm_num)
    unfold EiF64.normCdf
    rw [neg_neg]
    have hq' := abs_le.1 hq
    generalize div (9849 / 256) EiF64.sqrt2 = q at *
    have hr : 2 * unit ≤ idealFns.erfc q := by
      change 2 * unit ≤ rnd (Criteria.erfc q)
      rw [erfc_eq]
      obtain ⟨r1, r2⟩ := erfc_units (w := √2 * q) (by linarith [hq'.1]) (by linarith [hq'.2])
      exact two_units_le r1 r2
    have iu := isF64_unit 1 (by norm_num)
    rw [Int.cast_one, one_mul] at iu
    exact le_rnd iu (by linarith)
  have hi : EiF64.improvement idealFns (-(9849 / 256)) ≤ -unit := by
    have i38 := isF64_unit (-38) (by norm_num)
    have im := isF64_unit (-1) (by norm_num)
    push_cast at i38 im
    rw [neg_one_mul] at im
    unfold EiF64.improvement
    refine rnd_le im ?_
    have : mul (-(9849 / 256)) (EiF64.normCdf idealFns (-(9849 / 256))) ≤ -38 * unit :=
      rnd_le i38 (by linarith)
    linarith
  unfold EiF64.eiAt
  rw [if_neg (by unfold Criteria.eps; norm_num)]
  dsimp only
  rw [hs, hsub, hdiv]
  have im := isF64_unit (-1) (by norm_num)
  push_cast at im
  rw [neg_one_mul] at im
  refine lt_of_le_of_lt (rnd_le im ?_) (neg_lt_zero.2 hU)
  rw [one_mul]
  exact hi

theorem exp_711 : (2 : ℝ) ^ (-1026 : ℤ) ≤ Real.exp (-711) := by
  have h := Real.exp_one_lt_d9
  rw [Real.exp_neg, zpow_neg, show (711 : ℝ) = ((711 : ℕ) : ℝ) * 1 by norm_num, Real.exp_nat_mul]
  refine inv_anti₀ (by positivity) ?_
  have h9 : Real.exp 1 ^ 9 ≤ 8103.084 :=
    (pow_le_pow_left₀ (Real.exp_pos 1).le h.le 9).trans (by norm_num)
  have h711 : (Real.exp 1 ^ 9) ^ 79 ≤ (2 ^ 171) ^ 6 :=
    (pow_le_pow_left₀ (by positivity) h9 79).trans (by norm_num)
  rw [← pow_mul, ← pow_mul] at h711
  exact h711

theorem rnd_acc {x : ℝ} (h : 10 ^ 10 * tiny ≤ x) : |rnd x - x| ≤ x / 10 ^ 9 := by
  have := rnd_near x
  have h0 := tiny_pos
  rw [abs_of_nonneg (a := x) (by linarith)] at this
  generalize |rnd x - x| = w at *
  norm_num at *
  linarith

/-- Functions that round correctly are accurate. -/
theorem ideal_accurate : Accurate idealFns := by
  have hp1 := zpow2_pos (-1026)
  have hp2 := zpow2_pos (-49)
  have e4 : tiny = 2 ^ (-49 : ℤ) * 2 ^ (-1026 : ℤ) := by
    unfold tiny; rw [← zpow_add₀ (by norm_num)]; norm_num
  have e5 : (2 : ℝ) ^ (-49 : ℤ) ≤ 1 / 10 ^ 14 := by norm_num
  have h711 := exp_711
  have ht : tiny ≤ 1 / 10 ^ 14 * Real.exp (-711) := by
    rw [e4]
    exact mul_le_mul e5 h711 hp1.le (by norm_num)
  have hE := Real.exp_pos (-711)
  refine ⟨fun x => rnd_nonneg (Real.exp_pos x).le, fun x => rnd_nonneg ?_, fun x h1 h2 => ?_, fun x h1 h2 => ?_⟩
  · rw [erfc_eq]
    exact mul_nonneg (by norm_num) (normCdf_nonneg _)
  · refine rnd_acc ?_
    have : Real.exp (-711) ≤ Real.exp x := Real.exp_le_exp.2 (by linarith)
    clear e4 h711
    generalize Real.exp x = w at *
    norm_num at *
    linarith
  · refine rnd_acc ?_
    rw [erfc_eq]
    have hm : Criteria.normCdf (-(377 / 10)) ≤ Criteria.normCdf (-(√2 * x)) := by
      refine normCdf_mono (neg_le_neg ?_)
      have b : √2 ≤ 14143 / 10 ^ 4 := Real.sqrt_le_iff.2 ⟨by norm_num, by norm_num⟩
      have := mul_le_mul b h2 h1 (by norm_num)
      norm_num at this ⊢
      linarith
    have l := h_lt (u := -(377 / 10)) (by norm_num)
    have hP : Real.exp (-711) / 4 ≤ Criteria.normPdf (-(377 / 10)) := by
      unfold Criteria.normPdf
      have h4 : √(2 * Real.pi) ≤ 4 := by
        have := Real.pi_lt_d2
        exact Real.sqrt_le_iff.2 ⟨by norm_num, by linarith⟩
      exact div_le_div₀ (Real.exp_pos _).le (Real.exp_le_exp.2 (by norm_num)) (by positivity) h4
    unfold Gauss.h at l
    clear e4 h711
    norm_num at *
    linarith

theorem ideal_sqrt (x : ℝ) (h : Criteria.eps ≤ x) : |idealFns.sqrt x - √x| ≤ √x / 10 ^ 9 := by
  refine rnd_acc ?_
  have hsv : (2 : ℝ)⁻¹ ^ 26 ≤ √x := by
    refine Real.le_sqrt_of_sq_le (le_trans (le_of_eq ?_) h)
    unfold Criteria.eps
    norm_num
  refine le_trans ?_ hsv
  have : tiny ≤ 2 ^ (-100 : ℤ) := zpow_le_zpow_right₀ (by norm_num) (by norm_num)
  norm_num at this ⊢
  linarith

/-- The hypotheses of the positive statements are met by functions that round correctly. -/
example : 0 ≤ EiF64.eiAt idealFns 0 1 37 1 ∧ 0 < EiF64.improvement idealFns (-37) :=
  ⟨C141_nonneg_partial _ ideal_accurate ideal_sqrt _ _ _ _ (by norm_num) (by norm_num),
    (C141_improvement_nonneg_partial _ ideal_accurate _ (by norm_num)).2 (by norm_num)⟩

end Verif.Props
