import Verif.Model.LogEiF64
import Mathlib.Analysis.Real.Pi.Bounds
import Mathlib.Analysis.SpecialFunctions.Log.Deriv
import Mathlib.Analysis.Complex.ExponentialBounds
import Mathlib.Tactic.Linarith
import Mathlib.Tactic.NormNum
import Mathlib.Tactic.Positivity

/-!
# C75: the LogEI criterion is a number
-/

set_option autoImplicit false

namespace Verif.Props

open Verif Verif.LogEiF64 Verif.Flt

/-- The functions of an ideal machine, used to show that `Libm` can be met: `exp` overflows at 710, logarithms
and `erfc` are replaced by 0 on finite values. -/
def exFns : Fns where
  exp x := match x with
    | .fin q => if 710 ≤ q then .pinf else .fin 1
    | .nan => .nan
    | .pinf => .pinf
    | .ninf => .fin 0
  erfc _ := .fin 0
  log x := match x with
    | .fin _ => .fin 0
    | .pinf => .pinf
    | _ => .nan
  expm1 x := x
  log1p x := x
  normPdf _ := .fin 0
  normCdf _ := .fin 0

example : Libm exFns where
  exp_overflow q h := by simp [exFns, h]
  exp_nan := rfl
  erfc_pos _ := ⟨0, le_rfl, rfl⟩
  log_pinf := rfl
  log_ninf := rfl
  log_nan := rfl
  log_pos _ _ := ⟨0, rfl⟩
  expm1_pinf := rfl
  log1p_nan := rfl

theorem gt_fin (a b : ℚ) : gt (.fin a) (.fin b) = true ↔ b < a := by
  simp only [Flt.gt, Flt.cmp, beq_iff_eq, Option.some.injEq]
  split_ifs with h1 h2
  · simp; exact h1.le
  · simp [h2]
  · simp; exact not_lt.1 h2

/-- The product of the model is that of IEEE 754 in its symmetries. -/
theorem flt_mul_comm (a b : Flt) : mul a b = mul b a := by
  cases a <;> cases b <;> simp only [mul, mul_comm]

theorem flt_mul_neg (a b : Flt) : mul (Flt.neg a) b = Flt.neg (mul a b) := by
  cases a <;> cases b <;> simp only [mul, Flt.neg, neg_mul]
  case fin.pinf q =>
    rcases lt_trichotomy q 0 with h | h | h
    · simp [h.ne, h, not_lt.2 h.le]
    · simp [h]
    · simp [h.ne', h, not_lt.2 h.le]
  case fin.ninf q =>
    rcases lt_trichotomy q 0 with h | h | h
    · simp [h.ne, h, not_lt.2 h.le]
    · simp [h]
    · simp [h.ne', h, not_lt.2 h.le]
  case pinf.fin q =>
    rcases lt_trichotomy q 0 with h | h | h
    · simp [h.ne, not_lt.2 h.le]
    · simp [h]
    · simp [h.ne', h]
  case ninf.fin q =>
    rcases lt_trichotomy q 0 with h | h | h
    · simp [h.ne, not_lt.2 h.le]
    · simp [h]
    · simp [h.ne', h]

theorem log_pi_near : |Real.log Real.pi - 114472988585 / 10 ^ 11| ≤ 5 / 10 ^ 9 := by
  have h1 := Real.pi_gt_d20
  have h2 := Real.pi_lt_d20
  have l1 := Real.log_two_gt_d9
  have l2 := Real.log_two_lt_d9
  have hx : ∀ x : ℝ, |x| < 1 → |(∑ i ∈ Finset.range 13, x ^ (i + 1) / (i + 1)) + Real.log (1 - x)| ≤
      |x| ^ 14 / (1 - |x|) := fun x hx => Real.abs_log_sub_add_sum_range_le hx 13
  -- `π = 4 (1 - x)`, between two rationals
  have lo : Real.log (1 - 2146018366026 / 10 ^ 13) ≤ Real.log (Real.pi / 4) :=
    Real.log_le_log (by norm_num) (by norm_num; linarith)
  have hi : Real.log (Real.pi / 4) ≤ Real.log (1 - 2146018366025 / 10 ^ 13) :=
    Real.log_le_log (by positivity) (by norm_num; linarith)
  have a := hx (2146018366026 / 10 ^ 13) (by rw [abs_of_pos (by norm_num)]; norm_num)
  have b := hx (2146018366025 / 10 ^ 13) (by rw [abs_of_pos (by norm_num)]; norm_num)
  rw [abs_of_pos (show (0 : ℝ) < 2146018366026 / 10 ^ 13 by norm_num)] at a
  rw [abs_of_pos (show (0 : ℝ) < 2146018366025 / 10 ^ 13 by norm_num)] at b
  have hp : Real.log (Real.pi / 4) = Real.log Real.pi - 2 * Real.log 2 := by
    rw [Real.log_div (by positivity) (by norm_num), show (4 : ℝ) = 2 ^ 2 by norm_num, Real.log_pow]
    norm_num
  rw [hp] at lo hi
  simp only [Finset.sum_range_succ, Finset.sum_range_zero] at a b
  norm_num [abs_le] at a b lo hi ⊢
  constructor <;> linarith [a.1, a.2, b.1, b.2]

/-- The constants of the code are those of the formula. -/
theorem log2PiOver2_near : |(log2PiOver2 : ℝ) - Real.log (2 * Real.pi) / 2| ≤ 1 / 10 ^ 8 := by
  have h := abs_le.1 log_pi_near
  have l1 := Real.log_two_gt_d9
  have l2 := Real.log_two_lt_d9
  rw [Real.log_mul (by norm_num) (by positivity), abs_le]
  unfold log2PiOver2
  push_cast
  norm_num at h ⊢
  constructor <;> linarith [h.1, h.2]

/-- C75: the constants `INV_SQRT_2`, `LOG_2PI_OVER_2` and `LOG_PI_OVER_2_ALL_OVER_2` are `1/√2`, `log(2π)/2` and
`log(π/2)/2`, to eight decimals at least. -/
theorem C75_constants : |(invSqrt2 : ℝ) - 1 / √2| ≤ 1 / 10 ^ 8 ∧
    |(log2PiOver2 : ℝ) - Real.log (2 * Real.pi) / 2| ≤ 1 / 10 ^ 8 ∧
    |(logPiOver2Half : ℝ) - Real.log (Real.pi / 2) / 2| ≤ 1 / 10 ^ 8 := by
  refine ⟨?_, log2PiOver2_near, ?_⟩
  · have h : 1 / √2 = √2 / 2 := by
      rw [div_eq_div_iff (by positivity) (by norm_num)]
      nlinarith [Real.mul_self_sqrt (show (0 : ℝ) ≤ 2 by norm_num)]
    have a : 14142135623 / 10 ^ 10 ≤ √2 := Real.le_sqrt_of_sq_le (by norm_num)
    have b : √2 ≤ 14142135624 / 10 ^ 10 := Real.sqrt_le_iff.2 ⟨by norm_num, by norm_num⟩
    rw [h, abs_le]
    unfold invSqrt2
    push_cast
    norm_num at a b ⊢
    constructor <;> linarith
  · have h := abs_le.1 log_pi_near
    have l1 := Real.log_two_gt_d9
    have l2 := Real.log_two_lt_d9
    rw [Real.log_div (by positivity) (by norm_num), abs_le]
    unfold logPiOver2Half
    push_cast
    norm_num at h ⊢
    constructor <;> linarith [h.1, h.2]

/-- In the asymptotic branch (a million standard deviations and more) the value is a number. -/
theorem C75_finite_far_partial (f : Fns) (hf : Libm f) (u : ℚ) (hu : u ≤ -1000000) :
    ∃ r, logEiHelper f (.fin u) = .fin r := by
  have hp : 0 < |u| := abs_pos.2 (by linarith)
  obtain ⟨r, hr⟩ := hf.log_pos |u| hp
  have h1 : ¬ gt (.fin u) (.fin (-1)) = true := by rw [gt_fin]; linarith
  have h2 : ¬ gt (.fin u) (.fin (-1000000)) = true := by rw [gt_fin]; linarith
  unfold logEiHelper
  rw [if_neg h1, if_neg h2]
  simp [Flt.abs, hr, mul, Flt.sub, Flt.neg, Flt.add]

/-- In this branch it is that of the asymptotic expansion, `-u²/2 - log(2π)/2 - 2 log |u|`. -/
theorem C75_value_far_partial (f : Fns) (u l : ℚ) (hu : u ≤ -1000000) (hl : f.log (.fin (-u)) = .fin l) :
    ∃ c : ℚ, |(c : ℝ) - Real.log (2 * Real.pi) / 2| ≤ 1 / 10 ^ 8 ∧
      logEiHelper f (.fin u) = .fin (-u ^ 2 / 2 - c - 2 * l) := by
  refine ⟨log2PiOver2, log2PiOver2_near, ?_⟩
  have h1 : ¬ gt (.fin u) (.fin (-1)) = true := by rw [gt_fin]; linarith
  have h2 : ¬ gt (.fin u) (.fin (-1000000)) = true := by rw [gt_fin]; linarith
  unfold logEiHelper
  rw [if_neg h1, if_neg h2]
  have ha : Flt.abs (.fin u) = .fin (-u) := by simp [Flt.abs, abs_of_neg (show u < 0 by linarith)]
  rw [ha, hl]
  simp only [mul, Flt.sub, Flt.neg, Flt.add]
  congr 1
  ring

/-- A case: a million and a half standard deviations. -/
example : ∃ c : ℚ, |(c : ℝ) - Real.log (2 * Real.pi) / 2| ≤ 1 / 10 ^ 8 ∧
    logEiHelper exFns (.fin (-1500000)) = .fin (-(-1500000) ^ 2 / 2 - c - 2 * 0) :=
  C75_value_far_partial exFns _ 0 (by norm_num) rfl

/-- The limits of the criterion: `u` infinite. -/
theorem C75_infinite_partial (f : Fns) (hf : Libm f) (hp : f.normPdf .pinf = .fin 0) (hc : f.normCdf .pinf = .fin 1) :
    logEiHelper f .ninf = .ninf ∧ logEiHelper f .pinf = .pinf := by
  constructor
  · have h1 : ¬ gt .ninf (.fin (-1)) = true := by simp [Flt.gt, Flt.cmp]
    have h2 : ¬ gt .ninf (.fin (-1000000)) = true := by simp [Flt.gt, Flt.cmp]
    unfold logEiHelper
    rw [if_neg h1, if_neg h2]
    have e1 : mul (.fin (-1 / 2)) .ninf = .pinf := by norm_num [mul]
    have e2 : mul (.fin (-2)) .pinf = .ninf := by norm_num [mul]
    simp only [Flt.abs, hf.log_pinf, e1, e2]
    simp [mul, Flt.sub, Flt.neg, Flt.add]
  · have h1 : gt .pinf (.fin (-1)) = true := by simp [Flt.gt, Flt.cmp]
    unfold logEiHelper
    rw [if_pos h1, hp, hc]
    simp [mul, Flt.add, hf.log_pinf]

/-- What is used of the functions where they neither overflow nor underflow: values are numbers, with their signs;
`mills` is `e^(z²) erfc(z) √2 z < √(2/π)`, with the margin it has below 26.6. -/
structure LibmFinite (f : Fns) : Prop where
  near : ∀ u : ℚ, -1 < u → ∃ a b : ℚ, f.normPdf (.fin u) = .fin a ∧ f.normCdf (.fin u) = .fin b ∧ 0 < a + u * b
  log_two : ∃ r : ℚ, 1 / 2 ≤ r ∧ f.log (.fin 2) = .fin r
  exp_small : ∀ q : ℚ, q ≤ -1 / 2 → ∃ r : ℚ, r < 1 ∧ f.exp (.fin q) = .fin r
  log1p_fin : ∀ q : ℚ, -1 < q → ∃ r : ℚ, f.log1p (.fin q) = .fin r
  expm1_neg : ∀ q : ℚ, q < 0 → ∃ r : ℚ, r < 0 ∧ f.expm1 (.fin q) = .fin r
  mills : ∀ z t : ℚ, 7 / 10 ≤ z → z ≤ 266 / 10 → |t - 14142135623730951 / 10000000000000000 * z| ≤ 1 / 10 ^ 10 →
    ∃ e c l : ℚ, f.exp (.fin (z * z)) = .fin e ∧ f.erfc (.fin z) = .fin c ∧ f.log (.fin (e * c * t)) = .fin l ∧
      l ≤ -226 / 1000

/-- Above -37.6 the value is a number. -/
theorem C75_finite_near_partial (f : Fns) (hf : Libm f) (hf' : LibmFinite f) (u : ℚ) (hu : -376 / 10 ≤ u) :
    ∃ r, logEiHelper f (.fin u) = .fin r := by
  by_cases h1 : -1 < u
  · obtain ⟨a, b, ha, hb, hab⟩ := hf'.near u h1
    obtain ⟨r, hr⟩ := hf.log_pos _ hab
    refine ⟨r, ?_⟩
    unfold logEiHelper
    rw [if_pos (by rw [gt_fin]; exact h1), ha, hb]
    simpa [mul, Flt.add] using hr
  · have g1 : ¬ gt (.fin u) (.fin (-1)) = true := by rw [gt_fin]; exact h1
    have g2 : gt (.fin u) (.fin (-1000000)) = true := by rw [gt_fin]; linarith
    unfold logEiHelper
    rw [if_neg g1, if_pos g2]
    have hu1 : u ≤ -1 := not_lt.1 h1
    obtain ⟨e, c, l, he, hc, hl, hle⟩ := hf'.mills (-invSqrt2 * u) |u|
      (by unfold invSqrt2; linarith) (by unfold invSqrt2; linarith)
      (by
        rw [abs_of_neg (show u < 0 by linarith), abs_le]
        unfold invSqrt2
        constructor <;> norm_num <;> linarith)
    have hw : l + logPiOver2Half < 0 := by unfold logPiOver2Half; linarith
    have key : ∃ r, log1mexp f (.fin (l + logPiOver2Half)) = .fin r := by
      obtain ⟨l2, hl2, hl2'⟩ := hf'.log_two
      unfold log1mexp
      rw [hl2']
      by_cases h : -l2 < l + logPiOver2Half
      · obtain ⟨r, hr, hr'⟩ := hf'.expm1_neg _ hw
        obtain ⟨s, hs⟩ := hf.log_pos (-r) (by linarith)
        refine ⟨s, ?_⟩
        rw [if_pos (by simp only [Flt.neg]; rw [gt_fin]; exact h), hr']
        exact hs
      · obtain ⟨r, hr, hr'⟩ := hf'.exp_small (l + logPiOver2Half) (by linarith)
        obtain ⟨s, hs⟩ := hf'.log1p_fin (-r) (by linarith)
        refine ⟨s, ?_⟩
        rw [if_neg (by simp only [Flt.neg]; rw [gt_fin]; exact h), hr']
        exact hs
    obtain ⟨r, hr⟩ := key
    have ee : add (f.log (mul (erfcx f (mul (.fin (-invSqrt2)) (.fin u))) (Flt.abs (.fin u)))) (.fin logPiOver2Half) =
        .fin (l + logPiOver2Half) := by
      simp only [erfcx, mul, he, hc, Flt.abs, hl, Flt.add]
    rw [ee, hr]
    simp [mul, Flt.sub, Flt.neg, Flt.add]

/-- A machine meeting both contracts. -/
def exFns2 : Fns where
  exp x := match x with
    | .fin q => if 710 ≤ q then .pinf else .fin (1 / 2)
    | .nan => .nan
    | .pinf => .pinf
    | .ninf => .fin 0
  erfc _ := .fin (1 / 1000)
  log x := match x with
    | .fin q => if q ≤ 1 then .fin (-1) else .fin 1
    | .pinf => .pinf
    | _ => .nan
  expm1 x := x
  log1p x := x
  normPdf _ := .fin 1
  normCdf x := match x with
    | .fin q => if q ≤ 0 then .fin (1 / 2) else .fin 1
    | .pinf => .fin 1
    | _ => .fin 0

example : Libm exFns2 ∧ LibmFinite exFns2 := by
  refine ⟨⟨fun q h => by simp [exFns2, h], rfl, fun _ => ⟨_, by norm_num, rfl⟩, rfl, rfl, rfl, fun q _ => ?_, rfl, rfl⟩,
    ⟨fun u hu => ?_, ⟨1, by norm_num, by norm_num [exFns2]⟩, fun q hq => ⟨1 / 2, by norm_num, ?_⟩, fun q _ => ⟨q, rfl⟩,
      fun q hq => ⟨q, hq, rfl⟩, fun z t h1 h2 h3 => ?_⟩⟩
  · by_cases h : q ≤ 1
    · exact ⟨-1, by simp [exFns2, h]⟩
    · exact ⟨1, by simp [exFns2, h]⟩
  · by_cases h : u ≤ 0
    · exact ⟨1, 1 / 2, rfl, by simp [exFns2, h], by linarith⟩
    · exact ⟨1, 1, rfl, by simp [exFns2, h], by linarith [not_le.1 h]⟩
  · simp only [exFns2]; rw [if_neg (by linarith)]
  · refine ⟨1 / 2, 1 / 1000, -1, ?_, rfl, ?_, by norm_num⟩
    · simp only [exFns2]; rw [if_neg (by nlinarith)]
    · have := (abs_le.1 h3).2
      simp only [exFns2]; rw [if_pos (by norm_num at this ⊢; linarith)]

/-- Between 38 and a million standard deviations the value is NaN: `exp(u²/2)` overflows. -/
theorem C75_refuted_overflow (f : Fns) (hf : Libm f) (u : ℚ) (h1 : -1000000 < u) (h2 : u ≤ -38) :
    logEiHelper f (.fin u) = .nan := by
  have g1 : ¬ gt (.fin u) (.fin (-1)) = true := by rw [gt_fin]; linarith
  have g2 : gt (.fin u) (.fin (-1000000)) = true := by rw [gt_fin]; exact h1
  unfold logEiHelper
  rw [if_neg g1, if_pos g2]
  have hp : 0 < |u| := abs_pos.2 (by linarith)
  have hz : 710 ≤ (-invSqrt2 * u) * (-invSqrt2 * u) := by
    unfold invSqrt2
    nlinarith
  obtain ⟨r, hr0, hr⟩ := hf.erfc_pos (-invSqrt2 * u)
  have he : erfcx f (mul (.fin (-invSqrt2)) (.fin u)) = .pinf ∨ erfcx f (mul (.fin (-invSqrt2)) (.fin u)) = .nan := by
    simp only [mul, erfcx, hr, hf.exp_overflow _ hz]
    rcases hr0.eq_or_lt with h | h
    · right; simp [← h]
    · left; simp [h.ne', h]
  have hw : ∀ w, w = .pinf ∨ w = .nan → log1mexp f w = .nan := by
    rintro w (rfl | rfl)
    · obtain ⟨l, hl⟩ := hf.log_pos 2 (by norm_num)
      simp [log1mexp, hl, Flt.neg, Flt.gt, Flt.cmp, hf.expm1_pinf, hf.log_ninf]
    · simp [log1mexp, Flt.gt, Flt.cmp, hf.exp_nan, Flt.neg, hf.log1p_nan]
  rw [hw]
  · simp [mul, Flt.sub, Flt.neg, Flt.add]
  · rcases he with h | h
    · left; rw [h]; simp [Flt.abs, mul, hp.ne', hp, hf.log_pinf, Flt.add]
    · right; rw [h]; simp [mul, hf.log_nan, Flt.add]

end Verif.Props
