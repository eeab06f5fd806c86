import Verif.Lemmas.F64
import Verif.Lemmas.FullFact
import Verif.Model.DoeF64
import Verif.Props.Doe

/-!
# Samples in floating point arithmetic (C131)
-/

set_option autoImplicit false
set_option linter.unusedSectionVars false

namespace Verif.Props

open Verif F64 Spec

variable {ns nx : ℕ}

/-! ## Scaling -/

theorem lt_one_f64 {v : ℝ} (hv : IsF64 v) (h : v < 1) : v ≤ 1 - 2 ^ (-53 : ℤ) := by
  have h2 : (2 : ℝ) ^ (-53 : ℤ) ≤ 1 / 2 := by norm_num
  have h3 : (2 : ℝ) ^ ((-53 : ℤ) + 52) = 1 / 2 := by norm_num
  have hm := fun hh => isF64_multiple hv (e := -53) (Or.inr hh)
  have h53 : (2 : ℝ) ^ (-53 : ℤ) * 2 ^ 53 = 1 := by norm_num
  have hp := zpow2_pos (-53)
  rw [h3] at hm
  generalize (2 : ℝ) ^ (-53 : ℤ) = ε at *
  by_contra hc
  push Not at hc
  obtain ⟨j, rfl⟩ := hm (by rw [abs_of_pos (by linarith)]; linarith)
  have h3 : (j : ℝ) < 2 ^ 53 := by
    by_contra h4
    push Not at h4
    have := mul_le_mul_of_nonneg_right h4 hp.le
    linarith
  have h4 : (2 : ℝ) ^ 53 - 1 < j := by
    by_contra h5
    push Not at h5
    have := mul_le_mul_of_nonneg_right h5 hp.le
    linarith
  have h5 : j < 2 ^ 53 := by exact_mod_cast h3
  have h6 : 2 ^ 53 - 1 < j := by exact_mod_cast h4
  omega

/-- A product by a number below one, when the second factor was rounded up. -/
theorem mul_le_exact {d v : ℝ} (hd : 0 ≤ d) (hup : d < rnd d) (hv0 : 0 ≤ v) (hv : v ≤ 1 - 2 ^ (-53 : ℤ))
    (hmin : -1074 < expo d) : rnd (v * rnd d) ≤ d := by
  set w := rnd d with hw
  have hd0 : d ≠ 0 := by rintro rfl; rw [hw, rnd_zero] at hup; exact lt_irrefl _ hup
  have hdp : 0 < d := lt_of_le_of_ne hd (Ne.symm hd0)
  set e := expo d with he
  have hlo := zpow_expo_le hd0 hmin
  have hhi := lt_zpow_expo d
  rw [abs_of_pos hdp] at hlo hhi
  have herr := rnd_error d
  rw [← he, ← hw, abs_of_pos (by linarith)] at herr
  have hp := zpow2_pos e
  have e53 : (2 : ℝ) ^ (e + 53) = 2 ^ 53 * 2 ^ e := by rw [zpow_add₀ (by norm_num), mul_comm]; norm_cast
  have e52 : (2 : ℝ) ^ (e + 52) = 2 ^ 52 * 2 ^ e := by rw [zpow_add₀ (by norm_num), mul_comm]; norm_cast
  -- the product is at more than half a unit below `w`
  have hw2 : w ≤ 2 ^ (e + 53) := rnd_le (isF64_zpow (by have := le_expo d; omega)) hhi.le
  have hz : v * w < w - 2 ^ e / 2 := by
    have h1 : v * w ≤ (1 - 2 ^ (-53 : ℤ)) * w := mul_le_mul_of_nonneg_right hv (by linarith)
    have h2 : 2 ^ e / 2 < 2 ^ (-53 : ℤ) * w := by
      have : (2 : ℝ) ^ e / 2 = 2 ^ (-53 : ℤ) * 2 ^ (e + 52) := by rw [e52]; norm_num; ring
      rw [this]
      exact mul_lt_mul_of_pos_left (by linarith) (zpow2_pos _)
    generalize (2 : ℝ) ^ (-53 : ℤ) = ε at *
    linarith
  have hz0 : 0 ≤ v * w := mul_nonneg hv0 (by linarith)
  have herr2 := rnd_error_of_lt (x := v * w) (e := e) hmin.le (by rw [abs_of_nonneg hz0]; linarith)
  have hlt : rnd (v * w) < w := by
    have := (abs_le.mp herr2).2
    linarith
  by_contra hc
  push Not at hc
  obtain ⟨j, hj⟩ := isF64_multiple (rnd_isF64 (v * w)) (e := e) (Or.inr (by
    rw [abs_of_pos (by linarith)]; linarith))
  obtain ⟨k, hk⟩ := isF64_multiple (rnd_isF64 d) (e := e) (Or.inr (by
    rw [← hw, abs_of_pos (by linarith)]; linarith))
  rw [← hw] at hk
  rw [hj, hk] at hlt
  have hjk : (j : ℝ) < k := lt_of_mul_lt_mul_right hlt hp.le
  have hjk' : (j : ℝ) ≤ k - 1 := by
    have : j < k := by exact_mod_cast hjk
    have : j ≤ k - 1 := by omega
    exact_mod_cast this
  have := mul_le_mul_of_nonneg_right hjk' hp.le
  rw [hj] at hc
  rw [hk] at herr
  linarith

/-- The lower bound is always respected. -/
theorem scale_lower {l u v : ℝ} (hl : IsF64 l) (h : l ≤ u) (hv : 0 ≤ v) : l ≤ DoeF64.scale l u v := by
  unfold DoeF64.scale add mul sub
  refine le_rnd hl ?_
  have h1 : 0 ≤ rnd (u - l) := le_rnd isF64_zero (by linarith)
  have h2 : 0 ≤ rnd (v * rnd (u - l)) := le_rnd isF64_zero (mul_nonneg hv h1)
  linarith

theorem scale_mono {l u v v' : ℝ} (h : l ≤ u) (hv : v ≤ v') : DoeF64.scale l u v ≤ DoeF64.scale l u v' := by
  unfold DoeF64.scale add mul sub
  have h1 : 0 ≤ rnd (u - l) := le_rnd isF64_zero (by linarith)
  have := rnd_mono (mul_le_mul_of_nonneg_right hv h1)
  exact rnd_mono (by linarith)

theorem scale_one (l u : ℝ) : DoeF64.scale l u 1 = add (sub u l) l := by
  unfold DoeF64.scale mul sub
  rw [one_mul, rnd_of_isF64 (rnd_isF64 _)]

/-- A difference of two numbers which is not exact is not small. -/
theorem expo_of_inexact {l u : ℝ} (hl : IsF64 l) (hu : IsF64 u) (h : rnd (u - l) ≠ u - l) : -1074 < expo (u - l) := by
  by_contra hc
  apply h
  have he : expo (u - l) = -1074 := le_antisymm (by omega) (le_expo _)
  obtain ⟨a, ha⟩ := isF64_multiple hu (e := -1074) (Or.inl rfl)
  obtain ⟨b, hb⟩ := isF64_multiple hl (e := -1074) (Or.inl rfl)
  have := rnd_multiple (u - l) (a - b)
  rw [he] at this
  have h0 : ((a - b : ℤ) : ℝ) * 2 ^ (-1074 : ℤ) - (u - l) = 0 := by
    rw [ha, hb]; push_cast; ring
  rw [h0, abs_zero] at this
  exact sub_eq_zero.mp (abs_eq_zero.mp (le_antisymm this (abs_nonneg _)))

/-- **C131**, scaling: a number in `[0, 1)` is scaled to a number within the bounds, whatever the bounds. -/
theorem C131_scale {l u v : ℝ} (hl : IsF64 l) (hu : IsF64 u) (hv : IsF64 v) (h : l ≤ u) (h0 : 0 ≤ v) (h1 : v < 1) :
    l ≤ DoeF64.scale l u v ∧ DoeF64.scale l u v ≤ u := by
  refine ⟨scale_lower hl h h0, ?_⟩
  have hv' := lt_one_f64 hv h1
  unfold DoeF64.scale add mul sub
  refine rnd_le hu ?_
  by_cases hup : rnd (u - l) ≤ u - l
  · have hw : 0 ≤ rnd (u - l) := le_rnd isF64_zero (by linarith)
    have : rnd (v * rnd (u - l)) ≤ rnd (u - l) := rnd_le (rnd_isF64 _) (mul_le_of_le_one_left hw h1.le)
    linarith
  · push Not at hup
    have := mul_le_exact (sub_nonneg.mpr h) hup h0 hv' (expo_of_inexact hl hu hup.ne')
    exact le_sub_iff_add_le.mp this

/-- C131: when the width of the bounds is a `f64` the whole of `[0, 1]` is scaled within the bounds, and `1` to the
upper bound. -/
theorem C131_scale_exact {l u v : ℝ} (hl : IsF64 l) (hu : IsF64 u) (hw : IsF64 (u - l)) (h : l ≤ u) (h0 : 0 ≤ v)
    (h1 : v ≤ 1) : l ≤ DoeF64.scale l u v ∧ DoeF64.scale l u v ≤ u ∧ DoeF64.scale l u 1 = u := by
  have h2 : DoeF64.scale l u 1 = u := by
    rw [scale_one, add, sub, rnd_of_isF64 hw, sub_add_cancel, rnd_of_isF64 hu]
  exact ⟨scale_lower hl h h0, (scale_mono h h1).trans h2.le, h2⟩

/-- C131: no operation overflows if the width of the bounds does not. -/
theorem C131_no_overflow {l u v : ℝ} (hl : IsF64 l) (hu : IsF64 u) (hv : IsF64 v) (h : l ≤ u) (h0 : 0 ≤ v)
    (h1 : v < 1) (ol : ¬ Overflows l) (ou : ¬ Overflows u) (ow : ¬ Overflows (sub u l)) :
    ¬ Overflows (mul v (sub u l)) ∧ ¬ Overflows (DoeF64.scale l u v) := by
  obtain ⟨h2, h3⟩ := C131_scale hl hu hv h h0 h1
  unfold Overflows at *
  have hw : 0 ≤ sub u l := le_rnd isF64_zero (sub_nonneg.mpr h)
  constructor
  · refine fun hc => ow (hc.trans ?_)
    have h4 : 0 ≤ mul v (sub u l) := le_rnd isF64_zero (mul_nonneg h0 hw)
    rw [abs_of_nonneg h4, abs_of_nonneg hw]
    exact rnd_le (rnd_isF64 _) (mul_le_of_le_one_left hw h1.le)
  · intro hc
    rcases abs_le_max_abs_abs h2 h3 |>.trans' hc |> le_max_iff.mp with h4 | h4
    · exact ol h4
    · exact ou h4

/-- Relative error of a rounding. -/
theorem rnd_rel {x : ℝ} (h : -1074 < expo x) : |rnd x - x| ≤ 2 ^ (-53 : ℤ) * |x| := by
  by_cases hx : x = 0
  · subst hx; simp [rnd_zero]
  refine le_trans (rnd_error x) ?_
  have := mul_le_mul_of_nonneg_left (zpow_expo_le hx h) (zpow2_pos (-53)).le
  refine le_trans (le_of_eq ?_) this
  rw [← zpow_add₀ (by norm_num), show (-53 : ℤ) + (expo x + 52) = expo x + -1 by ring, zpow_add₀ (by norm_num)]
  norm_num; ring

theorem rnd_rel_sub {l u : ℝ} (hl : IsF64 l) (hu : IsF64 u) : |rnd (u - l) - (u - l)| ≤ 2 ^ (-53 : ℤ) * |u - l| := by
  by_cases h : rnd (u - l) = u - l
  · rw [h, sub_self, abs_zero]; exact mul_nonneg (zpow2_pos _).le (abs_nonneg _)
  · exact rnd_rel (expo_of_inexact hl hu h)

theorem rnd_rel_add {l u : ℝ} (hl : IsF64 l) (hu : IsF64 u) : |rnd (u + l) - (u + l)| ≤ 2 ^ (-53 : ℤ) * |u + l| := by
  have := rnd_rel_sub (isF64_neg hl) hu
  rwa [sub_neg_eq_add] at this

/-- C131: the upper bound is exceeded by a few units in the last place at most. -/
theorem C131_excess {l u v : ℝ} (hl : IsF64 l) (hu : IsF64 u) (h : l ≤ u) (h1 : v ≤ 1) :
    DoeF64.scale l u v ≤ u + 2 ^ (-51 : ℤ) * max |l| |u| := by
  refine le_trans (scale_mono h h1) ?_
  rw [scale_one, add, sub]
  have e1 := rnd_rel_sub hl hu
  have e2 := rnd_rel_add hl (rnd_isF64 (u - l))
  set w := rnd (u - l)
  set M := max |l| |u|
  have hM1 : |l| ≤ M := le_max_left _ _
  have hM2 : |u| ≤ M := le_max_right _ _
  have h51 : (2 : ℝ) ^ (-51 : ℤ) = 4 * 2 ^ (-53 : ℤ) := by norm_num
  have h53 : (2 : ℝ) ^ (-53 : ℤ) ≤ 1 / 4 := by norm_num
  have hp := zpow2_pos (-53)
  rw [h51]
  generalize (2 : ℝ) ^ (-53 : ℤ) = ε at *
  have hl' := abs_le.mp hM1
  have hu' := abs_le.mp hM2
  rw [abs_of_nonneg (sub_nonneg.mpr h)] at e1
  have hd : u - l ≤ 2 * M := by linarith
  have h2 := (abs_le.mp e1)
  have h3 : ε * (u - l) ≤ ε * (2 * M) := mul_le_mul_of_nonneg_left hd hp.le
  have h4 : |w + l| ≤ M + ε * (2 * M) := by
    rw [abs_le]; constructor <;> linarith
  have h5 := mul_le_mul_of_nonneg_left h4 hp.le
  have h6 := (abs_le.mp e2).2
  have hM : 0 ≤ M := le_trans (abs_nonneg _) hM1
  have h7 : ε * (ε * (2 * M)) ≤ ε * M := by
    have : ε * (2 * M) ≤ M := by nlinarith
    exact mul_le_mul_of_nonneg_left this hp.le
  linarith

/-! ## Latin hypercubes -/

theorem isF64_nat {n : ℕ} (h : n ≤ 2 ^ 53) : IsF64 (n : ℝ) := by
  have := isF64_mul_zpow (m := n) (e := 0) (by rw [abs_of_nonneg (by positivity)]; exact_mod_cast h) (by norm_num)
  simpa using this

theorem isF64_one : IsF64 1 := by simpa using isF64_nat (n := 1) (by norm_num)

theorem isF64_two_mul {x : ℝ} (h : IsF64 x) : IsF64 (2 * x) := by
  obtain ⟨m, e, hm, he, rfl⟩ := h
  exact ⟨m, e + 1, hm, by omega, by rw [zpow_add₀ (by norm_num)]; ring⟩

theorem cut_eq (ns i : ℕ) : DoeF64.cut ns i = rnd (rnd (1 / ns) * i) := by
  unfold DoeF64.cut add mul div sub
  rw [zero_add, sub_zero, rnd_of_isF64 isF64_one, rnd_of_isF64 (rnd_isF64 (rnd (1 / ns) * i))]

theorem cut_isF64 (ns i : ℕ) : IsF64 (DoeF64.cut ns i) := by rw [cut_eq]; exact rnd_isF64 _

theorem cut_zero (ns : ℕ) : DoeF64.cut ns 0 = 0 := by rw [cut_eq, Nat.cast_zero, mul_zero, rnd_zero]

theorem cut_mono (ns : ℕ) {i j : ℕ} (h : i ≤ j) : DoeF64.cut ns i ≤ DoeF64.cut ns j := by
  rw [cut_eq, cut_eq]
  refine rnd_mono (mul_le_mul_of_nonneg_left (by exact_mod_cast h) (le_rnd isF64_zero (by positivity)))

theorem cut_nonneg (ns i : ℕ) : 0 ≤ DoeF64.cut ns i := by
  have := cut_mono ns (Nat.zero_le i); rwa [cut_zero] at this

theorem expo_gt {x : ℝ} (h : 2 ^ (-1021 : ℤ) ≤ |x|) : -1074 < expo x := by
  have h1 : (-1021 : ℤ) ≤ Int.log 2 |x| :=
    (Int.zpow_le_iff_le_log (b := 2) (by norm_num) (lt_of_lt_of_le (zpow2_pos _) h)).mp (by exact_mod_cast h)
  have := le_max_left (Int.log 2 |x| - 52) (-1074)
  unfold expo; omega

/-- The rounded step. -/
theorem step_error (h1 : 1 ≤ ns) (h : ns ≤ 2 ^ 48) : |rnd (1 / ns) - 1 / ns| ≤ 2 ^ (-53 : ℤ) * (1 / ns) := by
  have hn : (0 : ℝ) < ns := by exact_mod_cast h1
  have hp : (0 : ℝ) ≤ 1 / ns := by positivity
  have := rnd_rel (x := 1 / ns) (expo_gt (by
    rw [abs_of_nonneg hp, le_div_iff₀ hn]
    have h2 : (ns : ℝ) ≤ 2 ^ (48 : ℤ) := by exact_mod_cast h
    refine le_trans (mul_le_mul_of_nonneg_left h2 (zpow2_pos _).le) ?_
    rw [← zpow_add₀ (by norm_num)]
    exact zpow_le_one_of_nonpos₀ (by norm_num) (by norm_num)))
  rwa [abs_of_nonneg hp] at this

theorem rnd_le_one {x : ℝ} (h : x ≤ 1 + 2 ^ (-53 : ℤ)) : rnd x ≤ 1 := by
  refine le_trans (rnd_mono h) (le_of_eq ?_)
  rw [rnd_tie (n := 2 ^ 52) (e := -52)] <;> norm_num
  decide

theorem step_mul (h1 : 1 ≤ ns) (h : ns ≤ 2 ^ 48) (i : ℕ) :
    |rnd (1 / ns) * i - i / ns| ≤ 2 ^ (-53 : ℤ) * (i / ns) := by
  have := mul_le_mul_of_nonneg_right (step_error h1 h) (Nat.cast_nonneg (α := ℝ) i)
  rw [← abs_of_nonneg (Nat.cast_nonneg (α := ℝ) i), ← abs_mul, abs_of_nonneg (Nat.cast_nonneg (α := ℝ) i)] at this
  refine le_trans (le_of_eq ?_) (le_trans this (le_of_eq ?_))
  · congr 1; ring
  · ring

theorem div_le_one_nat {i : ℕ} (h1 : 1 ≤ ns) (hi : i ≤ ns) : (i : ℝ) / ns ≤ 1 := by
  rw [div_le_one (by exact_mod_cast h1)]; exact_mod_cast hi

theorem cut_le_one (h1 : 1 ≤ ns) (h : ns ≤ 2 ^ 48) {i : ℕ} (hi : i ≤ ns) : DoeF64.cut ns i ≤ 1 := by
  rw [cut_eq]
  apply rnd_le_one
  have h2 := (abs_le.mp (step_mul h1 h i)).2
  have h3 := div_le_one_nat h1 hi
  have hp := zpow2_pos (-53)
  generalize (2 : ℝ) ^ (-53 : ℤ) = ε at *
  have := mul_le_mul_of_nonneg_left h3 hp.le
  linarith

/-- The limits of the strata are exact up to rounding. -/
theorem cut_error (h1 : 1 ≤ ns) (h : ns ≤ 2 ^ 48) {i : ℕ} (hi : i ≤ ns) :
    |DoeF64.cut ns i - i / ns| ≤ 2 ^ (-52 : ℤ) := by
  rw [cut_eq]
  have h2 := abs_le.mp (step_mul h1 h i)
  have h3 := div_le_one_nat h1 hi
  have h0 : (0 : ℝ) ≤ i / ns := by positivity
  have hp := zpow2_pos (-53)
  have e52 : (2 : ℝ) ^ (-52 : ℤ) = 2 * 2 ^ (-53 : ℤ) := by norm_num
  have e1 : (2 : ℝ) ^ ((-52 : ℤ) + 53) = 2 := by norm_num
  have h53 : (2 : ℝ) ^ (-53 : ℤ) < 1 / 4 := by norm_num
  have h4 := fun hh => rnd_error_of_lt (x := rnd (1 / ns) * i) (e := -52) (by norm_num) hh
  rw [e52, e1] at h4
  rw [e52]
  generalize (2 : ℝ) ^ (-53 : ℤ) = ε at *
  have h5 := mul_le_mul_of_nonneg_left h3 hp.le
  have h6 := abs_le.mp (h4 (by rw [abs_lt]; constructor <;> nlinarith))
  rw [abs_le]
  constructor <;> nlinarith

/-- Draws of type `f64` in `[0, 1)`. -/
def UniformF64 (x : Fin ns → Fin nx → ℝ) : Prop := ∀ i j, IsF64 (x i j) ∧ 0 ≤ x i j ∧ x i j < 1

/-- Draws of a call. -/
def UniformCallF64 : DoeF64.LhsCall ns nx → Prop
  | .classic d => UniformF64 d.rnd
  | .centered _ => True
  | .maximin ds _ => ∀ d ∈ ds, UniformF64 d.rnd
  | .centeredMaximin _ _ => True
  | .optimized d _ => UniformF64 d.rnd

/-- In each column one value is in each stratum. -/
def Stratified (x : Fin ns → Fin nx → ℝ) : Prop :=
  ∀ j, ∃ σ : Equiv.Perm (Fin ns), ∀ i, IsF64 (x i j) ∧ DoeF64.cut ns (σ i) ≤ x i j ∧ x i j ≤ DoeF64.cut ns (σ i + 1)

theorem classic_stratified (d : Doe.Draw ns nx) (h : UniformF64 d.rnd) : Stratified (DoeF64.classic d) := by
  intro j
  refine ⟨d.shuffle j, fun i => ⟨rnd_isF64 _, ?_⟩⟩
  obtain ⟨h1, h2, h3⟩ := h (d.shuffle j i) j
  exact C131_scale (cut_isF64 _ _) (cut_isF64 _ _) h1 (cut_mono _ (Nat.le_succ _)) h2 h3

theorem half_isF64 (a b : ℝ) (ha : IsF64 a) (hb : IsF64 b) (h : a ≤ b) :
    a ≤ div (add a b) 2 ∧ div (add a b) 2 ≤ b := by
  unfold div add
  constructor
  · refine le_rnd ha ?_
    have := le_rnd (isF64_two_mul ha) (y := a + b) (by linarith)
    linarith
  · refine rnd_le hb ?_
    have := rnd_le (isF64_two_mul hb) (x := a + b) (by linarith)
    linarith

theorem reshuffle_perm {α : Type} (c : Fin ns → ℝ) (sh : ℕ → Equiv.Perm (Fin ns)) (_ : α) (j : ℕ) :
    ∃ σ : Equiv.Perm (Fin ns), ∀ i, Doe.reshuffle c sh j i = c (σ i) := by
  induction j with
  | zero => exact ⟨sh 0, fun i => rfl⟩
  | succ j ih =>
    obtain ⟨σ, h⟩ := ih
    exact ⟨(sh (j + 1)).trans σ, fun i => by simp [Doe.reshuffle, h]⟩

theorem centered_stratified (sh : ℕ → Equiv.Perm (Fin ns)) : Stratified (DoeF64.centered sh : Doe.Design ns nx) := by
  intro j
  obtain ⟨σ, h⟩ := reshuffle_perm (fun k : Fin ns => div (add (DoeF64.cut ns k) (DoeF64.cut ns (k + 1))) 2) sh () j
  refine ⟨σ, fun i => ?_⟩
  unfold DoeF64.centered
  rw [h]
  exact ⟨rnd_isF64 _, half_isF64 _ _ (cut_isF64 _ _) (cut_isF64 _ _) (cut_mono _ (Nat.le_succ _))⟩

theorem swapCell_stratified (x : Fin ns → Fin nx → ℝ) (k : Fin nx) (a b : Fin ns) (h : Stratified x) :
    Stratified (Doe.swapCell x k a b) := by
  intro j
  obtain ⟨σ, hσ⟩ := h j
  by_cases hj : j = k
  · refine ⟨(Equiv.swap a b).trans σ, fun i => ?_⟩
    simp only [Doe.swapCell, if_pos hj, Equiv.trans_apply]
    exact hσ _
  · refine ⟨σ, fun i => ?_⟩
    simp only [Doe.swapCell, if_neg hj]
    exact hσ i

theorem swaps_stratified (l : List (Fin nx × Fin ns × Fin ns)) (x : Fin ns → Fin nx → ℝ) (h : Stratified x) :
    Stratified (l.foldl (fun x s => Doe.swapCell x s.1 s.2.1 s.2.2) x) := by
  induction l generalizing x with
  | nil => exact h
  | cons a l ih => exact ih _ (swapCell_stratified _ _ _ _ h)

theorem lhs_stratified (call : DoeF64.LhsCall ns nx) (h : UniformCallF64 call) : Stratified (DoeF64.lhsSample call) := by
  cases call with
  | classic d => exact classic_stratified d h
  | centered sh => exact centered_stratified sh
  | maximin ds k => exact classic_stratified _ (h _ (List.getElem_mem _))
  | centeredMaximin ds k => exact centered_stratified _
  | optimized d swaps => exact swaps_stratified _ _ (classic_stratified d h)

theorem stratified_unit (hns : ns ≤ 2 ^ 48) {x : Fin ns → Fin nx → ℝ} (h : Stratified x) (i : Fin ns) (j : Fin nx) :
    IsF64 (x i j) ∧ 0 ≤ x i j ∧ x i j ≤ 1 := by
  obtain ⟨σ, hσ⟩ := h j
  obtain ⟨h1, h2, h3⟩ := hσ i
  have hpos : 1 ≤ ns := by have := i.2; omega
  exact ⟨h1, (cut_nonneg _ _).trans h2, h3.trans (cut_le_one hpos hns (σ i).2)⟩

/-- **C131**, strata: in each column of a Latin hypercube of any kind each of the `ns` strata has one point, up to
the rounding of its limits, and all numbers are in `[0, 1]`. -/
theorem C131_lhs_strata_partial (hns : ns ≤ 2 ^ 48) (call : DoeF64.LhsCall ns nx) (h : UniformCallF64 call) :
    InUnit (DoeF64.lhsSample call) ∧ ∀ j, ∃ σ : Equiv.Perm (Fin ns), ∀ i,
      (σ i : ℝ) / ns - 2 ^ (-52 : ℤ) ≤ DoeF64.lhsSample call i j ∧
      DoeF64.lhsSample call i j ≤ ((σ i : ℝ) + 1) / ns + 2 ^ (-52 : ℤ) := by
  have hs := lhs_stratified call h
  refine ⟨fun i j => (stratified_unit hns hs i j).2, fun j => ?_⟩
  obtain ⟨σ, hσ⟩ := hs j
  refine ⟨σ, fun i => ?_⟩
  obtain ⟨_, h2, h3⟩ := hσ i
  have hpos : 1 ≤ ns := by have := i.2; omega
  have e1 := (abs_le.mp (cut_error hpos hns (σ i).2.le)).1
  have e2 := (abs_le.mp (cut_error hpos hns (Nat.succ_le_of_lt (σ i).2))).2
  push_cast at e2
  generalize (2 : ℝ) ^ (-52 : ℤ) = ε at *
  constructor <;> linarith

/-! ## Samples within the bounds -/

/-- **C131**, Latin hypercubes of all kinds: samples are within the bounds if and only if no normalized number which is
1 is scaled beyond its upper bound. -/
theorem C131_lhs_iff (hns : ns ≤ 2 ^ 48) (call : DoeF64.LhsCall ns nx) (h : UniformCallF64 call)
    (lower upper : Fin nx → ℝ) (hl : ∀ j, IsF64 (lower j)) (hu : ∀ j, IsF64 (upper j)) (hb : ∀ j, lower j ≤ upper j) :
    (∀ i j, lower j ≤ DoeF64.sample lower upper (DoeF64.lhsSample call) i j) ∧
    (InBounds lower upper (DoeF64.sample lower upper (DoeF64.lhsSample call)) ↔
      ∀ i j, DoeF64.lhsSample call i j = 1 → rnd (rnd (upper j - lower j) + lower j) ≤ upper j) := by
  have hx := stratified_unit hns (lhs_stratified call h)
  refine ⟨fun i j => scale_lower (hl j) (hb j) (hx i j).2.1, fun hin i j h1 => ?_, fun hone i j => ?_⟩
  · have := (hin i j).2
    rwa [DoeF64.sample, h1, scale_one] at this
  · obtain ⟨h1, h2, h3⟩ := hx i j
    rcases h3.lt_or_eq with h4 | h4
    · exact C131_scale (hl j) (hu j) h1 (hb j) h2 h4
    · refine ⟨scale_lower (hl j) (hb j) h2, ?_⟩
      rw [DoeF64.sample, h4, scale_one]
      exact hone i j h4

/-- C131: Latin hypercubes of all kinds are within bounds whose widths are numbers of type `f64`. -/
theorem C131_lhs_exact_width (hns : ns ≤ 2 ^ 48) (call : DoeF64.LhsCall ns nx) (h : UniformCallF64 call)
    (lower upper : Fin nx → ℝ) (hl : ∀ j, IsF64 (lower j)) (hu : ∀ j, IsF64 (upper j)) (hb : ∀ j, lower j ≤ upper j)
    (hw : ∀ j, IsF64 (upper j - lower j)) :
    InBounds lower upper (DoeF64.sample lower upper (DoeF64.lhsSample call)) := by
  refine (C131_lhs_iff hns call h lower upper hl hu hb).2.mpr fun i j _ => ?_
  rw [rnd_of_isF64 (hw j), sub_add_cancel, rnd_of_isF64 (hu j)]

theorem centered_lt_one (hns : ns ≤ 2 ^ 48) (sh : ℕ → Equiv.Perm (Fin ns)) (i : Fin ns) (j : Fin nx) :
    (DoeF64.centered sh : Doe.Design ns nx) i j < 1 := by
  obtain ⟨σ, h⟩ := reshuffle_perm (fun k : Fin ns => div (add (DoeF64.cut ns k) (DoeF64.cut ns (k + 1))) 2) sh () j
  unfold DoeF64.centered
  rw [h]
  generalize σ i = k
  have hpos : 1 ≤ ns := by have := i.2; omega
  have hn : (0 : ℝ) < ns := by exact_mod_cast hpos
  have h1 := cut_le_one hpos hns (Nat.succ_le_of_lt k.2)
  have h2 := (abs_le.mp (cut_error hpos hns k.2.le)).2
  have h3 : ((k : ℕ) : ℝ) / ns ≤ 1 - 2 ^ (-48 : ℤ) := by
    rw [div_le_iff₀ hn]
    have h4 : ((k : ℕ) : ℝ) + 1 ≤ ns := by exact_mod_cast k.2
    have h5 : (2 : ℝ) ^ (-48 : ℤ) * ns ≤ 1 := by
      have : (ns : ℝ) ≤ 2 ^ (48 : ℤ) := by exact_mod_cast hns
      refine le_trans (mul_le_mul_of_nonneg_left this (zpow2_pos _).le) ?_
      rw [← zpow_add₀ (by norm_num)]; norm_num
    rw [sub_mul, one_mul]
    generalize (2 : ℝ) ^ (-48 : ℤ) = ε at *
    linarith
  have e48 : (2 : ℝ) ^ (-48 : ℤ) = 16 * 2 ^ (-52 : ℤ) := by norm_num
  have h6 : IsF64 (2 - 2 * 2 ^ (-52 : ℤ)) := by
    have := isF64_mul_zpow (m := 2 ^ 52 - 1) (e := -51) (by norm_num) (by norm_num)
    refine cast (congrArg IsF64 ?_) this
    norm_num
  have h7 : IsF64 (1 - 2 ^ (-52 : ℤ)) := by
    have := isF64_mul_zpow (m := 2 ^ 52 - 1) (e := -52) (by norm_num) (by norm_num)
    refine cast (congrArg IsF64 ?_) this
    norm_num
  have hp := zpow2_pos (-52)
  rw [e48] at h3
  generalize (2 : ℝ) ^ (-52 : ℤ) = ε at *
  have h8 : add (DoeF64.cut ns k) (DoeF64.cut ns (k + 1)) ≤ 2 - 2 * ε := rnd_le h6 (by linarith)
  have h9 : div (add (DoeF64.cut ns k) (DoeF64.cut ns (k + 1))) 2 ≤ 1 - ε := rnd_le h7 (by linarith)
  linarith

/-- **C131**, centered Latin hypercubes: samples are within the bounds, whatever the bounds. -/
theorem C131_centered (hns : ns ≤ 2 ^ 48) (lower upper : Fin nx → ℝ) (hl : ∀ j, IsF64 (lower j))
    (hu : ∀ j, IsF64 (upper j)) (hb : ∀ j, lower j ≤ upper j) :
    (∀ sh, InBounds lower upper (DoeF64.sample lower upper (DoeF64.lhsSample (.centered sh : DoeF64.LhsCall ns nx)))) ∧
    ∀ ds k, InBounds lower upper
      (DoeF64.sample lower upper (DoeF64.lhsSample (.centeredMaximin ds k : DoeF64.LhsCall ns nx))) := by
  have key : ∀ sh, InBounds lower upper (DoeF64.sample lower upper (DoeF64.centered sh : Doe.Design ns nx)) := by
    intro sh i j
    obtain ⟨h1, h2, _⟩ := stratified_unit hns (centered_stratified (nx := nx) sh) i j
    exact C131_scale (hl j) (hu j) h1 (hb j) h2 (centered_lt_one hns sh i j)
  exact ⟨key, fun ds k => key _⟩

/-- **C131**, random samples are within the bounds, whatever the bounds. -/
theorem C131_random (x : Fin ns → Fin nx → ℝ) (h : UniformF64 x) (lower upper : Fin nx → ℝ)
    (hl : ∀ j, IsF64 (lower j)) (hu : ∀ j, IsF64 (upper j)) (hb : ∀ j, lower j ≤ upper j) :
    InBounds lower upper (DoeF64.sample lower upper (Doe.randomSample x)) := by
  intro i j
  obtain ⟨h1, h2, h3⟩ := h i j
  exact C131_scale (hl j) (hu j) h1 (hb j) h2 h3

/-! ## Full factorial designs -/

theorem argmaxLoop_congr {α : Type} (f g : α → ℝ) (l : List α) (c : α) (ci i : ℕ)
    (h : ∀ a ∈ c :: l, ∀ b ∈ c :: l, (f a < f b ↔ g a < g b)) :
    MixInt.argmaxLoop (f c) ci i (l.map f) = MixInt.argmaxLoop (g c) ci i (l.map g) := by
  induction l generalizing c ci i with
  | nil => rfl
  | cons e l ih =>
    simp only [List.map_cons, MixInt.argmaxLoop, h c (by simp) e (by simp)]
    split_ifs
    · exact ih e i (i + 1) fun a ha b hb => h a (List.mem_cons_of_mem _ ha) b (List.mem_cons_of_mem _ hb)
    · refine ih c ci (i + 1) fun a ha b hb => h a ?_ b ?_
      · simp only [List.mem_cons] at ha ⊢; tauto
      · simp only [List.mem_cons] at hb ⊢; tauto

theorem argmax_congr {α : Type} (f g : α → ℝ) (l : List α) (h : ∀ a ∈ l, ∀ b ∈ l, (f a < f b ↔ g a < g b)) :
    MixInt.argmax (l.map f) = MixInt.argmax (l.map g) := by
  cases l with
  | nil => rfl
  | cons e l =>
    simp only [List.map_cons, MixInt.argmax]
    congr 1
    have := argmaxLoop_congr f g (e :: l) e 0 0 (by
      intro a ha b hb
      simp only [List.mem_cons, or_self_left] at ha hb
      exact h a (by simpa using ha) b (by simpa using hb))
    simpa using this

/-- Rounding does not change the comparison of proportions. -/
theorem levels_order (n s a b : ℕ) (hs : 1 ≤ s) (hs2 : s ≤ 2 ^ 50) (hn : 1 ≤ n) (ha : a ≤ s) (hb : b ≤ s) :
    (sub (div 1 n) (div a s) < sub (div 1 n) (div b s)) ↔ ((1 : ℝ) / n - a / s < 1 / n - b / s) := by
  have hsr : (0 : ℝ) < s := by exact_mod_cast hs
  have key : ∀ a b : ℕ, a ≤ s → b ≤ s → b < a → sub (div 1 n) (div a s) < sub (div 1 n) (div b s) := by
    intro a b ha hb hlt
    have hgap : (b : ℝ) / s + 4 * 2 ^ (-52 : ℤ) ≤ a / s := by
      rw [← sub_nonneg]
      have h1 : (a : ℝ) / s - (b / s + 4 * 2 ^ (-52 : ℤ)) = ((a - b) - 4 * 2 ^ (-52 : ℤ) * s) / s := by
        field_simp
        ring
      rw [h1]
      apply div_nonneg _ hsr.le
      have h2 : (b : ℝ) + 1 ≤ a := by exact_mod_cast hlt
      have h3 : (s : ℝ) ≤ 2 ^ (50 : ℤ) := by exact_mod_cast hs2
      have h4 : 4 * (2 : ℝ) ^ (-52 : ℤ) * s ≤ 1 := by
        refine le_trans (mul_le_mul_of_nonneg_left h3 (by positivity)) ?_
        norm_num
      linarith
    have err : ∀ x : ℝ, |x| < 2 → |rnd x - x| ≤ 2 ^ (-52 : ℤ) / 2 := fun x hx =>
      rnd_error_of_lt (by norm_num) (by norm_num; exact hx)
    have small : ∀ c : ℕ, c ≤ s → 0 ≤ (c : ℝ) / s ∧ (c : ℝ) / s ≤ 1 := fun c hc =>
      ⟨by positivity, div_le_one_nat hs hc⟩
    have smalln : 0 ≤ (1 : ℝ) / n ∧ (1 : ℝ) / n ≤ 1 :=
      ⟨by positivity, by simpa using div_le_one_nat (ns := n) (i := 1) hn hn⟩
    unfold sub div
    obtain ⟨a0, a1⟩ := small a ha
    obtain ⟨b0, b1⟩ := small b hb
    have r0 : ∀ c : ℝ, 0 ≤ c → c ≤ 1 → 0 ≤ rnd c ∧ rnd c ≤ 1 := fun c h0 h1 =>
      ⟨le_rnd isF64_zero h0, rnd_le isF64_one h1⟩
    obtain ⟨n0, n1⟩ := r0 _ smalln.1 smalln.2
    obtain ⟨ra0, ra1⟩ := r0 _ a0 a1
    obtain ⟨rb0, rb1⟩ := r0 _ b0 b1
    have ea := abs_le.mp (err (a / s) (by rw [abs_lt]; constructor <;> linarith))
    have eb := abs_le.mp (err (b / s) (by rw [abs_lt]; constructor <;> linarith))
    have fa := abs_le.mp (err (rnd (1 / n) - rnd (a / s)) (by rw [abs_lt]; constructor <;> linarith))
    have fb := abs_le.mp (err (rnd (1 / n) - rnd (b / s)) (by rw [abs_lt]; constructor <;> linarith))
    have hp := zpow2_pos (-52)
    generalize (2 : ℝ) ^ (-52 : ℤ) = ε at *
    linarith
  constructor
  · intro h
    by_contra hc
    push Not at hc
    have : (a : ℝ) / s ≤ b / s := by linarith
    rw [div_le_div_iff_of_pos_right hsr] at this
    have hab : a ≤ b := by exact_mod_cast this
    rcases hab.lt_or_eq with h2 | h2
    · exact lt_asymm h (key b a hb ha h2)
    · rw [h2] at h; exact lt_irrefl _ h
  · intro h
    have : (b : ℝ) / s < a / s := by linarith
    rw [div_lt_div_iff_of_pos_right hsr] at this
    exact key a b ha hb (by exact_mod_cast this)

theorem sum_bump (l : List ℕ) (i : ℕ) : (Doe.bump l i).sum ≤ l.sum + 1 := by
  unfold Doe.bump
  induction l generalizing i with
  | nil => simp
  | cons a l ih =>
    cases i with
    | zero => simp; omega
    | succ i => simp only [List.modify_succ_cons, List.sum_cons]; have := ih i; omega

theorem length_bump (l : List ℕ) (i : ℕ) : (Doe.bump l i).length = l.length := by simp [Doe.bump]

theorem bump_pos (l : List ℕ) (i : ℕ) (h : ∀ n ∈ l, 1 ≤ n) : ∀ n ∈ Doe.bump l i, 1 ≤ n := by
  unfold Doe.bump
  induction l generalizing i with
  | nil => simp
  | cons a l ih =>
    cases i with
    | zero =>
      intro n hn
      simp only [List.modify_zero_cons, List.mem_cons] at hn
      rcases hn with rfl | hn
      · omega
      · exact h n (by simp [hn])
    | succ i =>
      intro n hn
      simp only [List.modify_succ_cons, List.mem_cons] at hn
      rcases hn with rfl | hn
      · exact h n (by simp)
      · exact ih i (fun m hm => h m (by simp [hm])) n hn

/-- The numbers of levels are those of exact arithmetic. -/
theorem levelLoop_f64 (ns fuel : ℕ) (nums : List ℕ) (h1 : ∀ n ∈ nums, 1 ≤ n) (h : nums.sum + fuel ≤ 2 ^ 50) :
    DoeF64.levelLoop ns fuel nums = Doe.levelLoop ℝ ns fuel nums := by
  induction fuel generalizing nums with
  | zero => rfl
  | succ fuel ih =>
    unfold DoeF64.levelLoop Doe.levelLoop
    split_ifs with hlt
    · simp only [List.map_map]
      have : MixInt.argmax (nums.map ((fun v => sub (div 1 (nums.length : ℕ)) v) ∘ fun v : ℕ => div v (nums.sum : ℕ))) =
          MixInt.argmax (nums.map ((fun v : ℝ => 1 / (nums.length : ℕ) - v) ∘ fun v : ℕ => (v : ℝ) / (nums.sum : ℕ))) := by
        apply argmax_congr
        intro a ha b hb
        have hsa : a ≤ nums.sum := List.single_le_sum (by simp) a ha
        have hsb : b ≤ nums.sum := List.single_le_sum (by simp) b hb
        have := h1 a ha
        exact levels_order _ _ a b (by omega) (by omega) (List.length_pos_of_mem ha) hsa hsb
      rw [this]
      cases MixInt.argmax (nums.map ((fun v : ℝ => 1 / (nums.length : ℕ) - v) ∘
          fun v : ℕ => (v : ℝ) / (nums.sum : ℕ))) with
      | error e => rfl
      | ok k =>
        show DoeF64.levelLoop ns fuel (Doe.bump nums k) = Doe.levelLoop ℝ ns fuel (Doe.bump nums k)
        exact ih _ (bump_pos _ _ h1) (by have := sum_bump nums k; omega)
    · rfl

theorem levelValue_f64 (n i : ℕ) (h : i < n) : DoeF64.levelValue n i = rnd (Doe.levelValue ℝ n i) := by
  unfold DoeF64.levelValue Doe.levelValue
  split_ifs with h1
  · rfl
  · have : i = 0 := by omega
    rw [this, Nat.cast_zero, rnd_zero]

theorem ffColumn_f64 (n a b : ℕ) : DoeF64.ffColumn n a b = (Doe.ffColumn ℝ n a b).map rnd := by
  unfold DoeF64.ffColumn Doe.ffColumn
  simp only [List.map_flatten, List.map_replicate]
  congr 2
  rw [List.map_flatMap]
  apply List.flatMap_congr
  intro i hi
  rw [List.map_replicate, levelValue_f64 n i (List.mem_range.mp hi)]

theorem ffColumns_f64 (l : List ℕ) (a b : ℕ) : DoeF64.ffColumns l a b = (Doe.ffColumns ℝ l a b).map (List.map rnd) := by
  induction l generalizing a b with
  | nil => rfl
  | cons n l ih => simp only [DoeF64.ffColumns, Doe.ffColumns, List.map_cons, ffColumn_f64, ih]

theorem mapM_map_ok {α β γ : Type} (f : α → Except Panic β) (g : β → γ) (l : List α) :
    l.mapM (fun a => Except.map g (f a)) = Except.map (List.map g) (l.mapM f) := by
  induction l with
  | nil => rfl
  | cons a l ih =>
    rw [List.mapM_cons, List.mapM_cons, ih]
    cases f a with
    | error e => rfl
    | ok v => cases l.mapM f <;> rfl

/-- **C131**, full factorial designs: rounding changes neither the numbers of levels nor the order of the points; each
number is the nearest one to the exact level. -/
theorem C131_full_factorial_levels (nx ns : ℕ) (h : nx + ns ≤ 2 ^ 50) :
    DoeF64.fullFactorial nx ns = Except.map (List.map (List.map rnd)) (Doe.fullFactorial ℝ nx ns) := by
  unfold DoeF64.fullFactorial Doe.fullFactorial
  rw [levelLoop_f64 _ _ _ (by intro n hn; rw [List.eq_of_mem_replicate hn])
    (by simp only [List.sum_replicate, smul_eq_mul, mul_one]; omega)]
  cases Doe.levelLoop ℝ ns ns (List.replicate nx 1) with
  | error e => rfl
  | ok nums =>
    show (List.range ns).mapM (fun r => (DoeF64.ffColumns nums nums.prod 1).mapM _) = Except.map _ ((List.range ns).mapM _)
    rw [← mapM_map_ok]
    congr 1
    funext r
    rw [ffColumns_f64]
    generalize Doe.ffColumns ℝ nums nums.prod 1 = cols
    induction cols with
    | nil => rfl
    | cons c cols ih =>
      rw [List.map_cons, List.mapM_cons, List.mapM_cons, ih, List.getElem?_map]
      generalize List.mapM (m := Except Panic) _ cols = m
      cases c[r]? with
      | none => rfl
      | some v => cases m <;> rfl

theorem scale_forall (bounds : List (ℝ × ℝ)) (vs : List ℝ) (hv : ∀ v ∈ vs, 0 ≤ v ∧ v ≤ 1)
    (hlen : vs.length = bounds.length) (hf : ∀ b ∈ bounds, IsF64 b.1) (hb : ∀ b ∈ bounds, b.1 ≤ b.2)
    (hone : ∀ b ∈ bounds, rnd (rnd (b.2 - b.1) + b.1) ≤ b.2) :
    List.Forall₂ (fun v (b : ℝ × ℝ) => b.1 ≤ v ∧ v ≤ b.2) (DoeF64.sampleRow bounds (vs.map rnd)) bounds := by
  induction bounds generalizing vs with
  | nil => cases vs <;> simp [DoeF64.sampleRow] at hlen ⊢
  | cons b bounds ih =>
    cases vs with
    | nil => simp at hlen
    | cons v vs =>
      have h1 := hv v (by simp)
      refine List.Forall₂.cons ⟨scale_lower (hf b (by simp)) (hb b (by simp)) (le_rnd isF64_zero h1.1), ?_⟩ ?_
      · refine le_trans (scale_mono (hb b (by simp)) (rnd_le isF64_one h1.2)) ?_
        rw [scale_one]
        exact hone b (by simp)
      · exact ih vs (fun w hw => hv w (by simp [hw])) (by simpa using hlen) (fun c hc => hf c (by simp [hc]))
          (fun c hc => hb c (by simp [hc])) (fun c hc => hone c (by simp [hc]))

/-- **C131**, full factorial designs are within the bounds when each variable has its upper bound as last level. -/
theorem C131_full_factorial_partial (bounds : List (ℝ × ℝ)) (ns : ℕ) (hx : bounds ≠ []) (h : bounds.length + ns ≤ 2 ^ 50)
    (hf : ∀ b ∈ bounds, IsF64 b.1) (hb : ∀ b ∈ bounds, b.1 ≤ b.2)
    (hone : ∀ b ∈ bounds, rnd (rnd (b.2 - b.1) + b.1) ≤ b.2) :
    ∃ rows, DoeF64.fullFactorial bounds.length ns = .ok rows ∧ rows.length = ns ∧ ∀ row ∈ rows,
      List.Forall₂ (fun v (b : ℝ × ℝ) => b.1 ≤ v ∧ v ≤ b.2) (DoeF64.sampleRow bounds row) bounds := by
  obtain ⟨t, rows, h1, h2, _, h3, _⟩ := C06_full_factorial (K := ℝ) bounds.length ns (List.length_pos_iff.mpr hx)
  refine ⟨rows.map (List.map rnd), by rw [C131_full_factorial_levels _ _ h, h1]; rfl, by simpa using h2, fun row hrow => ?_⟩
  obtain ⟨r, hr, rfl⟩ := List.mem_map.mp hrow
  obtain ⟨ds, hds, rfl⟩ := h3 r hr
  obtain ⟨h4, h5⟩ := zipWith_grid_mem (K := ℝ) _ _ hds
  exact scale_forall _ _ h5 (by rw [h4, Doe.levelsAfter_length]) hf hb hone

/-- C131: with one variable and two points or more the condition is needed. -/
theorem C131_full_factorial_iff (l u : ℝ) (ns : ℕ) (hn : 2 ≤ ns) (h : ns ≤ 2 ^ 49) (hl : IsF64 l) (hb : l ≤ u) :
    (∃ rows, DoeF64.fullFactorial 1 ns = .ok rows ∧ ∀ row ∈ rows, ∀ v ∈ DoeF64.sampleRow [(l, u)] row, l ≤ v ∧ v ≤ u) ↔
      rnd (rnd (u - l) + l) ≤ u := by
  constructor
  · rintro ⟨rows, h1, h2⟩
    obtain ⟨t, rs, h3, _, _, _, h4, h5, h6⟩ := C06_full_factorial (K := ℝ) 1 ns le_rfl
    have hlev : ∀ t, Spec.levelsAfter 1 t = [1 + t] := by intro t; simp [Spec.levelsAfter]
    rw [hlev] at h4 h6
    simp only [List.prod_cons, List.prod_nil, mul_one] at h4 h6
    have ht : ns = 1 + t := by
      rcases Nat.eq_zero_or_pos t with rfl | ht
      · omega
      · have := h5 (t - 1) (by omega)
        rw [hlev] at this
        simp only [List.prod_cons, List.prod_nil, mul_one] at this
        omega
    have hrow := h6 ht [t] [1] ⟨by simp, by
      have : t ≠ 0 := by omega
      have h0 : (t : ℝ) ≠ 0 := by exact_mod_cast this
      simp [Spec.gridValue, this, h0]⟩
    rw [C131_full_factorial_levels _ _ (by omega), h3] at h1
    have h1 : rs.map (List.map rnd) = rows := by simpa [Except.map] using h1
    have := (h2 [1] (by
      rw [← h1]
      exact List.mem_map.mpr ⟨_, hrow, by simp [rnd_of_isF64 isF64_one]⟩) (DoeF64.scale l u 1) (by
      simp [DoeF64.sampleRow])).2
    rwa [scale_one] at this
  · intro hone
    obtain ⟨rows, h1, _, h2⟩ := C131_full_factorial_partial [(l, u)] ns (by simp) (by simp; omega) (by simpa using hl)
      (by simpa using hb) (by simpa using hone)
    refine ⟨rows, h1, fun row hrow v hv => ?_⟩
    have := h2 row hrow
    generalize DoeF64.sampleRow [(l, u)] row = vs at *
    cases this with
    | cons h3 h4 =>
      cases h4
      simp only [List.mem_singleton] at hv
      rw [hv]; exact h3

/-! ## Bounds which are exceeded -/

theorem rnd_neg_three_tenths : rnd (-(3 / 10)) = (-5404319552844595 : ℤ) * 2 ^ (-54 : ℤ) :=
  rnd_eq (by norm_num) (by norm_num) (by norm_num) (by norm_num)

theorem rnd_one_tenth : rnd (1 / 10) = (7205759403792794 : ℤ) * 2 ^ (-56 : ℤ) :=
  rnd_eq (by norm_num) (by norm_num) (by norm_num) (by norm_num)

theorem width_rnd : rnd (rnd (1 / 10) - rnd (-(3 / 10))) = (7205759403792794 : ℤ) * 2 ^ (-54 : ℤ) := by
  rw [rnd_neg_three_tenths, rnd_one_tenth]
  refine rnd_tie (by norm_num) (by norm_num) (by norm_num) (by decide) (Or.inr (by norm_num))

theorem upper_rnd : rnd (1 / 10) < rnd (rnd (rnd (1 / 10) - rnd (-(3 / 10))) + rnd (-(3 / 10))) := by
  have h : rnd (rnd (rnd (1 / 10) - rnd (-(3 / 10))) + rnd (-(3 / 10))) = (7205759403792796 : ℤ) * 2 ^ (-56 : ℤ) := by
    rw [width_rnd, rnd_neg_three_tenths]
    refine rnd_eq (by norm_num) (by norm_num) (by norm_num) (by norm_num)
  rw [h, rnd_one_tenth]
  norm_num

theorem lower_le_upper : rnd (-(3 / 10)) ≤ rnd (1 / 10) := rnd_mono (by norm_num)

/-- **C131** is false for full factorial designs: with the limits `[-0.3, 0.1]` there is always a point above 0.1. -/
theorem C131_refuted_full_factorial (ns : ℕ) (hn : 2 ≤ ns) (h : ns ≤ 2 ^ 49) :
    ∃ rows, DoeF64.fullFactorial 1 ns = .ok rows ∧
      ∃ row ∈ rows, ∃ v ∈ DoeF64.sampleRow [(rnd (-(3 / 10)), rnd (1 / 10))] row, rnd (1 / 10) < v := by
  have hiff := C131_full_factorial_iff (rnd (-(3 / 10))) (rnd (1 / 10)) ns hn h (rnd_isF64 _) lower_le_upper
  obtain ⟨t, rows, h1, _, _, h3, _⟩ := C06_full_factorial (K := ℝ) 1 ns le_rfl
  have h2 : DoeF64.fullFactorial 1 ns = .ok (rows.map (List.map rnd)) := by
    rw [C131_full_factorial_levels _ _ (by omega), h1]; rfl
  refine ⟨_, h2, ?_⟩
  by_contra hc
  push Not at hc
  refine absurd (hiff.mp ⟨_, h2, fun row hrow v hv => ⟨?_, hc row hrow v hv⟩⟩) (not_le.mpr upper_rnd)
  obtain ⟨r, hr, rfl⟩ := List.mem_map.mp hrow
  obtain ⟨ds, hds, rfl⟩ := h3 r hr
  obtain ⟨_, h5⟩ := zipWith_grid_mem (K := ℝ) _ _ hds
  generalize List.zipWith (Spec.gridValue ℝ) (Spec.levelsAfter 1 t) ds = vs at *
  cases vs with
  | nil => simp [DoeF64.sampleRow] at hv
  | cons a as =>
    simp only [List.map_cons, DoeF64.sampleRow, List.zipWith_cons_cons, List.zipWith_nil_right, List.mem_singleton] at hv
    rw [hv]
    exact scale_lower (rnd_isF64 _) lower_le_upper (le_rnd isF64_zero (h5 a (by simp)).1)

/-- Draws of a Latin hypercube of four points: the largest number that the generator gives. -/
noncomputable def largestDraw : Doe.Draw 4 1 := ⟨fun _ _ => 1 - 2 ^ (-52 : ℤ), fun _ => Equiv.refl _⟩

theorem largestDraw_isF64 : IsF64 (1 - 2 ^ (-52 : ℤ)) := by
  have := isF64_mul_zpow (m := 2 ^ 52 - 1) (e := -52) (by norm_num) (by norm_num)
  refine cast (congrArg IsF64 ?_) this
  norm_num

theorem largestDraw_uniform : UniformF64 largestDraw.rnd := by
  intro i j
  refine ⟨largestDraw_isF64, ?_, ?_⟩ <;> simp only [largestDraw] <;> norm_num

theorem classic_one : DoeF64.classic largestDraw 3 0 = 1 := by
  have hquarter : rnd (1 / (4 : ℕ)) = 1 / 4 := by
    have : IsF64 (1 / 4 : ℝ) := ⟨1, -2, by norm_num, by norm_num, by norm_num⟩
    rw [show ((1 : ℝ) / (4 : ℕ)) = 1 / 4 by norm_num]
    exact rnd_of_isF64 this
  have h3 : DoeF64.cut 4 3 = 3 / 4 := by
    rw [cut_eq, hquarter]
    rw [show (1 / 4 : ℝ) * (3 : ℕ) = 3 / 4 by norm_num]
    exact rnd_of_isF64 ⟨3, -2, by norm_num, by norm_num, by norm_num⟩
  have h4 : DoeF64.cut 4 4 = 1 := by
    rw [cut_eq, hquarter]
    rw [show (1 / 4 : ℝ) * (4 : ℕ) = 1 by norm_num]
    exact rnd_of_isF64 isF64_one
  show add (mul (1 - 2 ^ (-52 : ℤ)) (sub (DoeF64.cut 4 4) (DoeF64.cut 4 3))) (DoeF64.cut 4 3) = 1
  rw [h3, h4, add, mul, sub]
  rw [show (1 : ℝ) - 3 / 4 = 1 / 4 by norm_num, rnd_of_isF64 (x := 1 / 4) ⟨1, -2, by norm_num, by norm_num, by norm_num⟩]
  rw [rnd_of_isF64 (x := (1 - 2 ^ (-52 : ℤ)) * (1 / 4)) ⟨2 ^ 52 - 1, -54, by norm_num, by norm_num, by norm_num⟩]
  rw [rnd_tie (n := 2 ^ 53) (e := -53)] <;> norm_num
  decide

/-- **C131** is false for Latin hypercubes: the largest draw may be rounded to 1, then to a number above the upper
bound. -/
theorem C131_refuted_lhs : UniformCallF64 (.classic largestDraw) ∧
    rnd (1 / 10) < DoeF64.sample (fun _ => rnd (-(3 / 10))) (fun _ => rnd (1 / 10))
      (DoeF64.lhsSample (.classic largestDraw)) 3 0 := by
  refine ⟨largestDraw_uniform, ?_⟩
  show rnd (1 / 10) < DoeF64.scale _ _ (DoeF64.classic largestDraw 3 0)
  rw [classic_one, scale_one]
  exact upper_rnd

/-! ## Examples -/

example : DoeF64.lhsSample (.classic largestDraw) 3 0 = 1 := classic_one

example : InBounds (fun _ : Fin 1 => (-1 : ℝ)) (fun _ => 3)
    (DoeF64.sample (fun _ => -1) (fun _ => 3) (DoeF64.lhsSample (.classic largestDraw))) :=
  C131_lhs_exact_width (by norm_num) (.classic largestDraw) largestDraw_uniform _ _ (fun _ => ⟨-1, 0, by norm_num, by norm_num, by norm_num⟩)
    (fun _ => ⟨3, 0, by norm_num, by norm_num, by norm_num⟩) (fun _ => by norm_num)
    (fun _ => ⟨4, 0, by norm_num, by norm_num, by norm_num⟩)

example : rnd (-(3 / 10)) ≤ DoeF64.scale (rnd (-(3 / 10))) (rnd (1 / 10)) (1 - 2 ^ (-52 : ℤ)) ∧
    DoeF64.scale (rnd (-(3 / 10))) (rnd (1 / 10)) (1 - 2 ^ (-52 : ℤ)) ≤ rnd (1 / 10) :=
  C131_scale (rnd_isF64 _) (rnd_isF64 _) largestDraw_isF64 lower_le_upper (by norm_num) (by norm_num)

end Verif.Props
