import Verif.Model.F64
import Verif.Spec.F64
import Mathlib.Tactic.Linarith
import Mathlib.Tactic.Ring
import Mathlib.Tactic.FieldSimp
import Mathlib.Tactic.NormNum
import Mathlib.Tactic.Positivity

/-!
# Rounding to nearest
-/

set_option autoImplicit false

namespace Verif.F64

open Spec

theorem zpow2_pos (e : ℤ) : (0 : ℝ) < 2 ^ e := zpow_pos (by norm_num) e

theorem roundEven_nearest (x : ℝ) (z : ℤ) : |x - roundEven x| ≤ |x - z| := by
  have hr := round_le x z
  unfold roundEven
  split_ifs with h1 h2
  · rw [abs_sub_round_eq_min, h1] at hr
    have : x - (⌊x⌋ : ℤ) = 1 / 2 := by rw [← h1]; exact Int.self_sub_floor x
    rw [this]; refine le_trans ?_ hr; norm_num
  · rw [abs_sub_round_eq_min, h1] at hr
    have : x - ((⌊x⌋ + 1 : ℤ) : ℝ) = -(1 / 2) := by
      push_cast; rw [← sub_sub, Int.self_sub_floor, h1]; norm_num
    rw [this]; refine le_trans ?_ hr; norm_num
  · exact hr

theorem roundEven_half (x : ℝ) : |x - roundEven x| ≤ 1 / 2 :=
  le_trans (roundEven_nearest x (round x)) (abs_sub_round x)

theorem roundEven_eq {x : ℝ} {n : ℤ} (h : |x - n| < 1 / 2) : roundEven x = n := by
  have h1 := roundEven_nearest x n
  have h2 : |(roundEven x : ℝ) - n| < 1 := by
    have := abs_sub_le (roundEven x : ℝ) x n
    rw [abs_sub_comm (roundEven x : ℝ) x] at this
    linarith
  have h3 : |roundEven x - n| < 1 := by exact_mod_cast h2
  have := Int.abs_lt_one_iff.mp h3
  omega

theorem roundEven_tie {n : ℤ} (hn : Even n) : roundEven (n + 1 / 2) = n ∧ roundEven (n - 1 / 2) = n := by
  have h1 : ⌊(n : ℝ) + 1 / 2⌋ = n := by
    rw [Int.floor_eq_iff]; constructor <;> linarith
  have h2 : ⌊(n : ℝ) - 1 / 2⌋ = n - 1 := by
    rw [Int.floor_eq_iff]; push_cast; constructor <;> linarith
  have f1 : Int.fract ((n : ℝ) + 1 / 2) = 1 / 2 := by rw [Int.fract, h1]; ring
  have f2 : Int.fract ((n : ℝ) - 1 / 2) = 1 / 2 := by rw [Int.fract, h2]; push_cast; ring
  constructor
  · simp only [roundEven, f1, h1, hn, if_true]
  · have : ¬ Even (n - 1) := by
      rw [Int.not_even_iff_odd]; exact hn.sub_odd odd_one
    simp only [roundEven, f2, h2, this, if_true, if_false]; ring

theorem le_expo (x : ℝ) : -1074 ≤ expo x := le_max_right _ _

theorem lt_zpow_expo (x : ℝ) : |x| < 2 ^ (expo x + 53) := by
  have h := Int.lt_zpow_succ_log_self (b := 2) (by norm_num) |x|
  refine lt_of_lt_of_le h ?_
  push_cast
  apply zpow_le_zpow_right₀ (by norm_num)
  have := le_max_left (Int.log 2 |x| - 52) (-1074)
  unfold expo; omega

theorem zpow_expo_le {x : ℝ} (hx : x ≠ 0) (h : -1074 < expo x) : 2 ^ (expo x + 52) ≤ |x| := by
  have h1 : expo x = Int.log 2 |x| - 52 := by
    unfold expo at h ⊢
    rcases le_total (Int.log 2 |x| - 52) (-1074) with h2 | h2
    · rw [max_eq_right h2] at h; omega
    · exact max_eq_left h2
  have h2 := Int.zpow_log_le_self (b := 2) (r := |x|) (by norm_num) (abs_pos.mpr hx)
  rw [h1]
  refine le_trans (le_of_eq ?_) h2
  push_cast
  congr 1; ring

/-- Numbers of type `f64` which are not too small are multiples of a power of two. -/
theorem isF64_multiple {y : ℝ} (hy : IsF64 y) {e : ℤ} (h : -1074 = e ∨ 2 ^ (e + 52) ≤ |y|) :
    ∃ j : ℤ, y = j * (2 : ℝ) ^ e := by
  obtain ⟨m, f, hm, hf, rfl⟩ := hy
  have hfe : e ≤ f := by
    rcases h with h | h
    · omega
    · by_contra hlt
      push Not at hlt
      have hm' : |(m : ℝ)| < 2 ^ (53 : ℤ) := by exact_mod_cast hm
      rw [abs_mul, abs_of_pos (zpow2_pos f)] at h
      have h1 : |(m : ℝ)| * (2 : ℝ) ^ f < 2 ^ (53 : ℤ) * 2 ^ f :=
        mul_lt_mul_of_pos_right hm' (zpow2_pos f)
      rw [← zpow_add₀ (by norm_num)] at h1
      have h2 : (2 : ℝ) ^ (53 + f) ≤ 2 ^ (e + 52) := zpow_le_zpow_right₀ (by norm_num) (by omega)
      linarith
  refine ⟨m * 2 ^ (f - e).toNat, ?_⟩
  push_cast
  rw [mul_assoc, ← zpow_natCast, ← zpow_add₀ (by norm_num)]
  congr 2
  omega

theorem isF64_mul_zpow {m e : ℤ} (hm : |m| ≤ 2 ^ 53) (he : -1074 ≤ e) : IsF64 (m * (2 : ℝ) ^ e) := by
  rcases hm.lt_or_eq with h | h
  · exact ⟨m, e, h, he, rfl⟩
  · rcases (abs_eq (by norm_num)).mp h with h | h
    · refine ⟨1, e + 53, by norm_num, by omega, ?_⟩
      rw [h, zpow_add₀ (by norm_num)]; push_cast
      rw [mul_comm, one_mul]; norm_num
    · refine ⟨-1, e + 53, by norm_num, by omega, ?_⟩
      rw [h, zpow_add₀ (by norm_num)]; push_cast
      norm_num; ring

theorem rnd_isF64 (x : ℝ) : IsF64 (rnd x) := by
  unfold rnd
  refine isF64_mul_zpow ?_ (le_expo x)
  set e := expo x
  have h1 : |x / 2 ^ e| < 2 ^ (53 : ℤ) := by
    rw [abs_div, abs_of_pos (zpow2_pos e), div_lt_iff₀ (zpow2_pos e), ← zpow_add₀ (by norm_num), add_comm]
    exact lt_zpow_expo x
  have h2 := roundEven_half (x / 2 ^ e)
  have h3 : |(roundEven (x / 2 ^ e) : ℝ)| < 2 ^ 53 + 1 := by
    have := abs_sub_le (roundEven (x / 2 ^ e) : ℝ) (x / 2 ^ e) 0
    rw [sub_zero, sub_zero] at this
    have h4 : (2 : ℝ) ^ (53 : ℤ) = 2 ^ 53 := by norm_cast
    rw [h4] at h1
    rw [abs_sub_comm] at h2
    linarith
  have h4 : |roundEven (x / 2 ^ e)| < 2 ^ 53 + 1 := by exact_mod_cast h3
  omega

theorem isF64_neg {x : ℝ} (h : IsF64 x) : IsF64 (-x) := by
  obtain ⟨m, e, hm, he, rfl⟩ := h
  exact ⟨-m, e, by rwa [abs_neg], he, by push_cast; ring⟩

theorem isF64_zero : IsF64 0 := ⟨0, 0, by norm_num, by norm_num, by norm_num⟩

theorem isF64_zpow {e : ℤ} (he : -1074 ≤ e) : IsF64 ((2 : ℝ) ^ e) := ⟨1, e, by norm_num, he, by push_cast; ring⟩

theorem rnd_multiple (x : ℝ) (j : ℤ) : |rnd x - x| ≤ |j * (2 : ℝ) ^ expo x - x| := by
  have h := roundEven_nearest (x / 2 ^ expo x) j
  set e := expo x
  have hp := zpow2_pos e
  have key : ∀ n : ℤ, |(n : ℝ) * (2 : ℝ) ^ e - x| = |x / 2 ^ e - n| * 2 ^ e := by
    intro n
    rw [← abs_of_pos hp, ← abs_mul, abs_of_pos hp, abs_sub_comm]
    congr 1
    field_simp
  rw [show rnd x = (roundEven (x / 2 ^ e) : ℝ) * 2 ^ e from rfl, key, key]
  exact mul_le_mul_of_nonneg_right h hp.le

/-- The rounded value is a nearest number. -/
theorem rnd_nearest (x : ℝ) : IsNearestF64 x (rnd x) := by
  refine ⟨rnd_isF64 x, fun y hy => ?_⟩
  by_cases hx : x = 0
  · have := rnd_multiple x 0
    subst hx
    simp only [Int.cast_zero, zero_mul, sub_zero, abs_zero] at this ⊢
    exact le_trans this (abs_nonneg y)
  by_cases h : -1074 = expo x ∨ 2 ^ (expo x + 52) ≤ |y|
  · obtain ⟨j, rfl⟩ := isF64_multiple hy h
    exact rnd_multiple x j
  · push Not at h
    have he : -1074 < expo x := lt_of_le_of_ne (le_expo x) h.1
    have hb := zpow_expo_le hx he
    rw [zpow_add₀ (by norm_num)] at hb h
    rcases lt_or_gt_of_ne hx with hneg | hpos
    · have := rnd_multiple x (-(2 ^ 52))
      rw [abs_of_neg hneg] at hb
      have hy := abs_lt.mp h.2
      have e1 : (2 : ℝ) ^ (52 : ℤ) = 2 ^ 52 := by norm_cast
      rw [e1] at hb hy
      push_cast at this
      refine le_trans this ?_
      rw [abs_of_nonneg (by linarith), abs_of_nonneg (by linarith)]
      linarith
    · have := rnd_multiple x (2 ^ 52)
      rw [abs_of_pos hpos] at hb
      have hy := abs_lt.mp h.2
      have e1 : (2 : ℝ) ^ (52 : ℤ) = 2 ^ 52 := by norm_cast
      rw [e1] at hb hy
      push_cast at this
      refine le_trans this ?_
      rw [abs_sub_comm, abs_sub_comm y, abs_of_nonneg (by linarith), abs_of_nonneg (by linarith)]
      linarith

theorem rnd_of_isF64 {x : ℝ} (h : IsF64 x) : rnd x = x := by
  have := (rnd_nearest x).2 x h
  rw [sub_self, abs_zero] at this
  exact sub_eq_zero.mp (abs_eq_zero.mp (le_antisymm this (abs_nonneg _)))

theorem rnd_zero : rnd 0 = 0 := rnd_of_isF64 isF64_zero

/-- Rounding keeps the order. -/
theorem rnd_mono {x y : ℝ} (h : x ≤ y) : rnd x ≤ rnd y := by
  by_contra hlt
  push Not at hlt
  have hx := (rnd_nearest x).2 _ (rnd_isF64 y)
  have hy := (rnd_nearest y).2 _ (rnd_isF64 x)
  have hxm : (rnd x + rnd y) / 2 ≤ x := by
    by_contra hc
    push Not at hc
    have : rnd y - x < rnd x - x := by linarith
    have h1 : -(rnd y - x) < rnd x - x := by linarith
    have h2 : 0 < rnd x - x := by linarith
    rw [abs_of_pos h2] at hx
    have := abs_lt.mpr ⟨by linarith, this⟩
    linarith
  have hym : y ≤ (rnd x + rnd y) / 2 := by
    by_contra hc
    push Not at hc
    have : rnd y - y < rnd x - y := by linarith
    have h1 : rnd y - y < -(rnd x - y) := by linarith
    have h2 : rnd y - y < 0 := by linarith
    rw [abs_of_neg h2] at hy
    have := abs_lt.mpr ⟨(by linarith : -(-(rnd y - y)) < rnd x - y), by linarith⟩
    linarith
  have : x = y := le_antisymm h (by linarith)
  rw [this] at hlt
  exact lt_irrefl _ hlt

theorem rnd_le {x y : ℝ} (hy : IsF64 y) (h : x ≤ y) : rnd x ≤ y := by
  have := rnd_mono h
  rwa [rnd_of_isF64 hy] at this

theorem le_rnd {x y : ℝ} (hx : IsF64 x) (h : x ≤ y) : x ≤ rnd y := by
  have := rnd_mono h
  rwa [rnd_of_isF64 hx] at this

/-- Error of one rounding, absolute. -/
theorem rnd_error (x : ℝ) : |rnd x - x| ≤ 2 ^ expo x / 2 := by
  have h := roundEven_half (x / 2 ^ expo x)
  set e := expo x
  have hp := zpow2_pos e
  have : |rnd x - x| = |x / 2 ^ e - roundEven (x / 2 ^ e)| * 2 ^ e := by
    rw [show rnd x = (roundEven (x / 2 ^ e) : ℝ) * 2 ^ e from rfl]
    rw [← abs_of_pos hp, ← abs_mul, abs_of_pos hp, abs_sub_comm]
    congr 1
    field_simp
  rw [this]
  nlinarith

/-- Error of one rounding below a power of two. -/
theorem rnd_error_of_lt {x : ℝ} {e : ℤ} (he : -1074 ≤ e) (h : |x| < 2 ^ (e + 53)) : |rnd x - x| ≤ 2 ^ e / 2 := by
  by_cases hx : x = 0
  · subst hx
    rw [rnd_zero, sub_self, abs_zero]
    have := zpow2_pos e
    linarith
  refine le_trans (rnd_error x) ?_
  have : expo x ≤ e := by
    by_contra hlt
    push Not at hlt
    have h1 := zpow_expo_le hx (by omega)
    have h2 : (2 : ℝ) ^ (e + 53) ≤ 2 ^ (expo x + 52) := zpow_le_zpow_right₀ (by norm_num) (by omega)
    linarith
  have := zpow_le_zpow_right₀ (a := (2 : ℝ)) (by norm_num) this
  linarith

theorem expo_eq {x : ℝ} {e : ℤ} (he : -1074 ≤ e) (hlo : 2 ^ (e + 52) ≤ |x|) (hhi : |x| < 2 ^ (e + 53)) :
    expo x = e := by
  have h1 : Int.log 2 |x| = e + 52 := by
    have hp : 0 < |x| := lt_of_lt_of_le (zpow2_pos _) hlo
    apply le_antisymm
    · have := (Int.lt_zpow_iff_log_lt (b := 2) (by norm_num) hp (x := e + 53)).mp (by exact_mod_cast hhi)
      omega
    · exact (Int.zpow_le_iff_le_log (b := 2) (by norm_num) hp).mp (by exact_mod_cast hlo)
  unfold expo
  rw [h1]
  omega

/-- Computation of a rounded value which is not a tie. -/
theorem rnd_eq {x : ℝ} {n e : ℤ} (he : -1074 ≤ e) (hlo : 2 ^ (e + 52) ≤ |x|) (hhi : |x| < 2 ^ (e + 53))
    (h : |x - n * 2 ^ e| < 2 ^ e / 2) : rnd x = n * 2 ^ e := by
  have hx : expo x = e := expo_eq he hlo hhi
  have hp := zpow2_pos e
  have : roundEven (x / 2 ^ e) = n := by
    apply roundEven_eq
    rw [show x / 2 ^ e - n = (x - n * 2 ^ e) / 2 ^ e by field_simp, abs_div, abs_of_pos hp, div_lt_iff₀ hp]
    linarith
  rw [rnd, hx, this]

/-- Computation of a rounded value in the middle of two. -/
theorem rnd_tie {x : ℝ} {n e : ℤ} (he : -1074 ≤ e) (hlo : 2 ^ (e + 52) ≤ |x|) (hhi : |x| < 2 ^ (e + 53))
    (hn : Even n) (h : x = (n + 1 / 2) * 2 ^ e ∨ x = (n - 1 / 2) * 2 ^ e) : rnd x = n * 2 ^ e := by
  have hx : expo x = e := expo_eq he hlo hhi
  have hp := (zpow2_pos e).ne'
  obtain ⟨t1, t2⟩ := roundEven_tie hn
  rw [rnd, hx]
  rcases h with rfl | rfl
  · rw [mul_div_assoc, div_self hp, mul_one, t1]
  · rw [mul_div_assoc, div_self hp, mul_one, t2]

end Verif.F64
