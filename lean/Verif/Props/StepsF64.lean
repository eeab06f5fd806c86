import Verif.Props.DoeF64
import Verif.Props.Steps
import Verif.Model.StepsF64

/-!
# Starts of the optimization of the infill criterion in floating point arithmetic (C133)
-/

set_option autoImplicit false
set_option linter.unusedSectionVars false

namespace Verif.Props

open Verif F64 Spec Doe

variable {n d : ℕ}

/-! ## Midpoints -/

theorem rnd_half {x : ℝ} (h : -1074 < expo x) (hx : x ≠ 0) : rnd (x / 2) = rnd x / 2 := by
  have h1 := zpow_expo_le hx h
  have h2 := lt_zpow_expo x
  have hp : (2 : ℝ) ≠ 0 := by norm_num
  have e : expo (x / 2) = expo x - 1 := by
    refine expo_eq (by omega) ?_ ?_
    · rw [abs_div, abs_of_pos (by norm_num : (0 : ℝ) < 2), show expo x - 1 + 52 = (expo x + 52) - 1 by ring,
        zpow_sub_one₀ hp, ← div_eq_mul_inv]
      exact div_le_div_of_nonneg_right h1 (by norm_num)
    · rw [abs_div, abs_of_pos (by norm_num : (0 : ℝ) < 2), show expo x - 1 + 53 = (expo x + 53) - 1 by ring,
        zpow_sub_one₀ hp, ← div_eq_mul_inv]
      exact div_lt_div_of_pos_right h2 (by norm_num)
  unfold rnd
  rw [e, zpow_sub_one₀ hp]
  have : x / 2 / (2 ^ expo x * 2⁻¹) = x / 2 ^ expo x := by
    have := (zpow2_pos (expo x)).ne'
    field_simp
  rw [this]
  ring

/-- The midpoint of two numbers is the number nearest to the exact midpoint, in spite of the two roundings. -/
theorem middle_rnd {a b : ℝ} (ha : IsF64 a) (hb : IsF64 b) : div (add a b) 2 = rnd ((a + b) / 2) := by
  unfold div add
  by_cases h : rnd (a + b) = a + b
  · rw [h]
  · have h1 : -1074 < expo (a + b) := by
      have := expo_of_inexact (l := -b) (u := a) (isF64_neg hb) ha (by rwa [sub_neg_eq_add])
      rwa [sub_neg_eq_add] at this
    have h0 : a + b ≠ 0 := fun h0 => h (by rw [h0, rnd_zero])
    rw [rnd_half h1 h0, ← rnd_half h1 h0, rnd_of_isF64 (rnd_isF64 _)]

open Classical in
theorem startLoop_f64_mem (x : Design n d) (good : List (Fin d → ℝ) → Fin n → Fin n → Bool) (nMax : Option ℕ)
    (ps : List (Fin n × Fin n)) (starts : List (Fin d → ℝ)) :
    ∀ s ∈ StepsF64.startLoop x good nMax ps starts, s ∈ starts ∨ ∃ p ∈ ps, s = StepsF64.middle (x p.1) (x p.2) := by
  induction ps generalizing starts with
  | nil => intro s hs; exact Or.inl hs
  | cons p ps ih =>
    obtain ⟨i, j⟩ := p
    intro s hs
    simp only [StepsF64.startLoop] at hs
    have key : ∀ s, s ∈ (if good starts i j then starts ++ [StepsF64.middle (x i) (x j)] else starts) →
        s ∈ starts ∨ ∃ p ∈ (i, j) :: ps, s = StepsF64.middle (x p.1) (x p.2) := by
      intro s hs
      split_ifs at hs with hg
      · rcases List.mem_append.mp hs with h | h
        · exact Or.inl h
        · exact Or.inr ⟨(i, j), by simp, by simpa using h⟩
      · exact Or.inl hs
    by_cases hc : ∃ m, nMax = some m ∧
        (if good starts i j then starts ++ [StepsF64.middle (x i) (x j)] else starts).length ≥ m
    · rw [if_pos hc] at hs
      exact key s hs
    · rw [if_neg hc] at hs
      rcases ih _ s hs with h | ⟨p, hp, h⟩
      · exact key s h
      · exact Or.inr ⟨p, by simp [hp], h⟩

open Classical in
theorem startLoop_f64_length (x : Design n d) (good : List (Fin d → ℝ) → Fin n → Fin n → Bool) (m : ℕ)
    (ps : List (Fin n × Fin n)) (starts : List (Fin d → ℝ)) (h : starts.length < max m 1) :
    (StepsF64.startLoop x good (some m) ps starts).length ≤ max m 1 := by
  induction ps generalizing starts with
  | nil => exact h.le
  | cons p ps ih =>
    obtain ⟨i, j⟩ := p
    simp only [StepsF64.startLoop]
    have hlen : (if good starts i j then starts ++ [StepsF64.middle (x i) (x j)] else starts).length ≤ max m 1 := by
      split_ifs
      · rw [List.length_append, List.length_singleton]; omega
      · exact h.le
    by_cases hc : ∃ k, some m = some k ∧
        (if good starts i j then starts ++ [StepsF64.middle (x i) (x j)] else starts).length ≥ k
    · rw [if_pos hc]; exact hlen
    · rw [if_neg hc]
      refine ih _ ?_
      have : ¬ (if good starts i j then starts ++ [StepsF64.middle (x i) (x j)] else starts).length ≥ m :=
        fun h => hc ⟨m, rfl, h⟩
      exact lt_of_lt_of_le (not_le.mp this) (le_max_left _ _)

theorem startPairs_lt {p : Fin n × Fin n} (h : p ∈ Steps.startPairs n) : p.2 < p.1 := by
  unfold Steps.startPairs at h
  simp only [List.mem_flatMap, List.mem_map, List.mem_filter, List.mem_finRange, true_and, decide_eq_true_eq] at h
  obtain ⟨i, j, hj, rfl⟩ := h
  exact hj

/-- **C133**, midpoints. Whatever the order of the pairs and the pairs picked, a start made of the data is the number nearest
to the exact midpoint of two different data points, for each variable. -/
theorem C133_midpoints (x : Design n d) (hx : ∀ i j, IsF64 (x i j)) (good : List (Fin d → ℝ) → Fin n → Fin n → Bool)
    (sort : List (Fin n × Fin n) → List (Fin n × Fin n)) (hs : ∀ l, (sort l).Perm l) (nMax : Option ℕ) :
    ∀ s ∈ StepsF64.startPoints x good sort nMax, ∃ i j, i ≠ j ∧ ∀ c, IsNearestF64 ((x i c + x j c) / 2) (s c) := by
  intro s h
  rcases startLoop_f64_mem x good nMax _ [] s h with h | ⟨p, hp, rfl⟩
  · simp at h
  · have := startPairs_lt ((hs _).mem_iff.mp hp)
    refine ⟨p.1, p.2, this.ne', fun c => ?_⟩
    show IsNearestF64 _ (div (add (x p.1 c) (x p.2 c)) 2)
    rw [middle_rnd (hx _ _) (hx _ _)]
    exact rnd_nearest _

/-- **C133**, midpoints are within the bounds when the data are, and at most as many as asked for (at least one). -/
theorem C133_midpoints_in_bounds (x : Design n d) (hx : ∀ i j, IsF64 (x i j)) (xl xu : Fin d → ℝ)
    (hb : Spec.InBounds xl xu x) (hl : ∀ j, IsF64 (xl j)) (hu : ∀ j, IsF64 (xu j))
    (good : List (Fin d → ℝ) → Fin n → Fin n → Bool)
    (sort : List (Fin n × Fin n) → List (Fin n × Fin n)) (m : ℕ) :
    (StepsF64.startPoints x good sort (some m)).length ≤ max m 1 ∧
    ∀ s ∈ StepsF64.startPoints x good sort (some m), ∀ c, IsF64 (s c) ∧ xl c ≤ s c ∧ s c ≤ xu c := by
  refine ⟨startLoop_f64_length x good m _ [] (by simp), fun s h c => ?_⟩
  rcases startLoop_f64_mem x good _ _ [] s h with h | ⟨p, hp, rfl⟩
  · simp at h
  · show IsF64 (div (add (x p.1 c) (x p.2 c)) 2) ∧ xl c ≤ div (add (x p.1 c) (x p.2 c)) 2 ∧ _
    rw [middle_rnd (hx _ _) (hx _ _)]
    have h1 := hb p.1 c
    have h2 := hb p.2 c
    refine ⟨rnd_isF64 _, le_rnd (hl c) (by linarith), ?_⟩
    show div (add (x p.1 c) (x p.2 c)) 2 ≤ xu c
    rw [middle_rnd (hx _ _) (hx _ _)]
    exact rnd_le (hu c) (by linarith)

theorem rnd_abs_le {x y : ℝ} (hy : IsF64 y) (h : |x| ≤ y) : |rnd x| ≤ y :=
  abs_le.mpr ⟨le_rnd (isF64_neg hy) (abs_le.mp h).1, rnd_le hy (abs_le.mp h).2⟩

/-- C133: no overflow for data below `2 ^ 1023`. -/
theorem C133_no_overflow (a b : ℝ) (ha : IsF64 a) (hb : IsF64 b) (h1 : |a| < 2 ^ 1023) (h2 : |b| < 2 ^ 1023) :
    ¬ Overflows (add a b) := by
  have key : ∀ a b : ℝ, IsF64 a → |a| < 2 ^ 1023 → |b| ≤ |a| → ¬ Overflows (add a b) := by
    intro a b ha h1 h2
    have h3 : IsF64 (2 * |a|) := by
      refine isF64_two_mul ?_
      rcases abs_choice a with h | h <;> rw [h]
      exacts [ha, isF64_neg ha]
    have h4 : |a + b| ≤ 2 * |a| := (abs_add_le a b).trans (by linarith)
    have h5 : |add a b| ≤ 2 * |a| := rnd_abs_le h3 h4
    unfold Overflows
    have h6 : (2 : ℝ) ^ 1024 = 2 * 2 ^ 1023 := by rw [pow_succ, mul_comm]
    rw [not_le, h6]
    generalize (2 : ℝ) ^ 1023 = B at *
    linarith
  rcases le_total |b| |a| with h | h
  · exact key a b ha h1 h
  · have := key b a hb h2 h
    unfold add at this ⊢
    rwa [add_comm a b]

/-- **C133** fails for large data: the sum of two finite numbers overflows, so that the midpoint is not finite. -/
theorem C133_refuted_overflow : IsF64 (2 ^ 1023) ∧ ¬ Overflows (2 ^ 1023) ∧ Overflows (add (2 ^ 1023) (2 ^ 1023)) := by
  have h6 : (2 : ℝ) ^ 1024 = 2 * 2 ^ 1023 := by rw [pow_succ, mul_comm]
  have h7 : (0 : ℝ) < 2 ^ 1023 := by positivity
  have h8 : IsF64 ((2 : ℝ) ^ 1023) := by
    have := isF64_zpow (e := 1023) (by norm_num)
    rwa [show (1023 : ℤ) = ((1023 : ℕ) : ℤ) by norm_num, zpow_natCast] at this
  refine ⟨h8, ?_, ?_⟩
  · unfold Overflows
    rw [abs_of_pos h7, h6]
    clear h6 h8
    generalize (2 : ℝ) ^ 1023 = B at *
    linarith
  · unfold Overflows add
    rw [← two_mul, rnd_of_isF64 (isF64_two_mul h8), h6]
    exact le_abs_self _

/-! ## Starts of global steps -/

theorem scale_bounds {l u v : ℝ} (hl : IsF64 l) (hu : IsF64 u) (h : l ≤ u) (h0 : 0 ≤ v) (h1 : v ≤ 1) :
    l ≤ DoeF64.scale l u v ∧ DoeF64.scale l u v ≤ u + 2 ^ (-51 : ℤ) * max |l| |u| ∧
      (rnd (rnd (u - l) + l) ≤ u → DoeF64.scale l u v ≤ u) := by
  refine ⟨scale_lower hl h h0, C131_excess hl hu h h1, fun hone => ?_⟩
  refine (scale_mono h h1).trans ?_
  rw [scale_one]
  exact hone

/-- **C133**, starts of global steps. At least as many starts as asked for, none below the lower bounds, none above
the upper bounds by more than the rounding, and none above the bounds that are not rounded up. -/
theorem C133_starts (x : Design n d) (hx : ∀ i j, IsF64 (x i j)) (xl xu : Fin d → ℝ) (hb : Spec.InBounds xl xu x)
    (hle : ∀ j, xl j ≤ xu j) (hl : ∀ j, IsF64 (xl j)) (hu : ∀ j, IsF64 (xu j))
    (good : List (Fin d → ℝ) → Fin n → Fin n → Bool)
    (sort : List (Fin n × Fin n) → List (Fin n × Fin n)) (nStart : ℕ)
    (hn : nStart ≤ 2 ^ 48) (lhs : (m : ℕ) → DoeF64.LhsCall m d) (hlhs : ∀ m, UniformCallF64 (lhs m)) :
    (1 ≤ nStart → (StepsF64.multistart x good sort xl xu nStart lhs).length = nStart) ∧
    ∀ s ∈ StepsF64.multistart x good sort xl xu nStart lhs, ∀ j, xl j ≤ s j ∧
      s j ≤ xu j + 2 ^ (-51 : ℤ) * max |xl j| |xu j| ∧ (rnd (rnd (xu j - xl j) + xl j) ≤ xu j → s j ≤ xu j) := by
  obtain ⟨hlen, hmid⟩ := C133_midpoints_in_bounds x hx xl xu hb hl hu good sort nStart
  have hmid' : ∀ s ∈ StepsF64.startPoints x good sort (some nStart), ∀ j, xl j ≤ s j ∧
      s j ≤ xu j + 2 ^ (-51 : ℤ) * max |xl j| |xu j| ∧ (rnd (rnd (xu j - xl j) + xl j) ≤ xu j → s j ≤ xu j) := by
    intro s h j
    obtain ⟨_, h1, h2⟩ := hmid s h j
    refine ⟨h1, h2.trans (le_add_of_nonneg_right (mul_nonneg (zpow2_pos _).le (le_max_of_le_left (abs_nonneg _)))),
      fun _ => h2⟩
  simp only [StepsF64.multistart]
  split_ifs with hc
  · exact ⟨fun h1 => le_antisymm (by simpa [max_eq_left h1] using hlen) hc, hmid'⟩
  · push Not at hc
    set k := nStart - (StepsF64.startPoints x good sort (some nStart)).length with hk
    refine ⟨fun _ => ?_, fun s h j => ?_⟩
    · rw [List.length_append, List.length_take, List.length_ofFn, min_eq_left (le_max_left _ _)]
      omega
    · rcases List.mem_append.mp h with h | h
      · exact hmid' s h j
      · obtain ⟨i, rfl⟩ := (List.mem_ofFn' _ _).1 (List.mem_of_mem_take h)
        have := (stratified_unit (by
          have : (3 : ℕ) ≤ 2 ^ 48 := by norm_num
          exact max_le (by omega) this) (lhs_stratified _ (hlhs (max k 3))) i j).2
        exact scale_bounds (hl j) (hu j) (hle j) this.1 this.2

/-! ## Local area -/

/-- **C133**, local area. It is within the design space and contains the best point; its bounds are those of the design
space or the numbers nearest to the ones at the given distances. -/
theorem C133_local_box_partial (lims dist : ℝ × ℝ) (x : ℝ) (h1 : lims.1 ≤ x) (h2 : x ≤ lims.2) (hx : IsF64 x)
    (hl : IsF64 lims.1) (hu : IsF64 lims.2) (hd : 0 ≤ dist.1 ∧ 0 ≤ dist.2) :
    IsF64 (StepsF64.localBox lims dist x).1 ∧ IsF64 (StepsF64.localBox lims dist x).2 ∧
    lims.1 ≤ (StepsF64.localBox lims dist x).1 ∧ (StepsF64.localBox lims dist x).1 ≤ x ∧
    x ≤ (StepsF64.localBox lims dist x).2 ∧ (StepsF64.localBox lims dist x).2 ≤ lims.2 ∧
    ((StepsF64.localBox lims dist x).1 = lims.1 ∨ IsNearestF64 (x - dist.1) (StepsF64.localBox lims dist x).1) ∧
    ((StepsF64.localBox lims dist x).2 = lims.2 ∨ IsNearestF64 (x + dist.2) (StepsF64.localBox lims dist x).2) := by
  unfold StepsF64.localBox sub add
  refine ⟨?_, ?_, le_max_left _ _, max_le h1 (rnd_le hx (by linarith)), le_min h2 (le_rnd hx (by linarith)),
    min_le_left _ _, (max_choice _ _).imp_right fun h => ?_, (min_choice _ _).imp_right fun h => ?_⟩
  · rcases max_choice lims.1 (rnd (x - dist.1)) with h | h <;> simp only [h]
    exacts [hl, rnd_isF64 _]
  · rcases min_choice lims.2 (rnd (x + dist.2)) with h | h <;> simp only [h]
    exacts [hu, rnd_isF64 _]
  · simp only [h]; exact rnd_nearest _
  · simp only [h]; exact rnd_nearest _

/-- **C133**, starts of local steps are within the local area and the design space, but for the rounding of upper
bounds. -/
theorem C133_local_starts_partial {m : ℕ} (hm : m ≤ 2 ^ 48) (lims : Fin d → ℝ × ℝ) (dist : ℝ × ℝ) (best : Fin d → ℝ)
    (h1 : ∀ j, (lims j).1 ≤ best j) (h2 : ∀ j, best j ≤ (lims j).2) (hx : ∀ j, IsF64 (best j))
    (hl : ∀ j, IsF64 (lims j).1) (hu : ∀ j, IsF64 (lims j).2) (hd : 0 ≤ dist.1 ∧ 0 ≤ dist.2)
    (call : DoeF64.LhsCall m d) (hc : UniformCallF64 call) (i : Fin m) (j : Fin d) :
    (StepsF64.localBox (lims j) dist (best j)).1 ≤ StepsF64.localStarts lims dist best call i j ∧
    StepsF64.localStarts lims dist best call i j ≤ (StepsF64.localBox (lims j) dist (best j)).2 +
      2 ^ (-51 : ℤ) * max |(lims j).1| |(lims j).2| ∧
    (lims j).1 ≤ StepsF64.localStarts lims dist best call i j ∧
    StepsF64.localStarts lims dist best call i j ≤ (lims j).2 + 2 ^ (-51 : ℤ) * max |(lims j).1| |(lims j).2| := by
  obtain ⟨b1, b2, b3, b4, b5, b6, _⟩ := C133_local_box_partial (lims j) dist (best j) (h1 j) (h2 j) (hx j) (hl j) (hu j) hd
  have hv := (stratified_unit hm (lhs_stratified call hc) i j).2
  obtain ⟨s1, s2, _⟩ := scale_bounds b1 b2 (b4.trans b5) hv.1 hv.2
  have a1 : |(StepsF64.localBox (lims j) dist (best j)).1| ≤ max |(lims j).1| |(lims j).2| :=
    abs_le_max_abs_abs b3 (b4.trans (h2 j))
  have a2 : |(StepsF64.localBox (lims j) dist (best j)).2| ≤ max |(lims j).1| |(lims j).2| :=
    abs_le_max_abs_abs ((h1 j).trans b5) b6
  have s3 := s2.trans (add_le_add le_rfl (mul_le_mul_of_nonneg_left (max_le a1 a2) (zpow2_pos _).le))
  exact ⟨s1, s3, b3.trans s1, s3.trans (add_le_add b6 le_rfl)⟩

/-- **C133** fails: with the default distances, the local area of a best point at a large upper bound is a point. -/
theorem C133_refuted_local_area (l : ℝ) (hl : l ≤ 2 ^ 40) :
    StepsF64.localBox (l, 2 ^ 40) (rnd (1 / 10 ^ 6), 1) (2 ^ 40) = (2 ^ 40, 2 ^ 40) := by
  have d1 : rnd (1 / 10 ^ 6) ≤ 2 ^ (-19 : ℤ) := rnd_le (isF64_zpow (by norm_num)) (by norm_num)
  have d2 : 2 ^ (-20 : ℤ) ≤ rnd (1 / 10 ^ 6) := le_rnd (isF64_zpow (by norm_num)) (by norm_num)
  norm_num only at d1 d2
  have e : rnd (2 ^ 40 - rnd (1 / 10 ^ 6)) = 2 ^ 40 := by
    have := rnd_eq (x := 2 ^ 40 - rnd (1 / 10 ^ 6)) (n := 2 ^ 53) (e := -13) (by norm_num)
      (by rw [abs_of_pos (by linarith)]; norm_num only; linarith)
      (by rw [abs_of_pos (by linarith)]; norm_num only; linarith)
      (by rw [abs_lt]; constructor <;> norm_num only <;> linarith)
    rw [this]; norm_num
  unfold StepsF64.localBox sub add
  have h2 : (2 : ℝ) ^ 40 ≤ rnd (2 ^ 40 + 1) := by
    refine le_rnd ?_ (by norm_num)
    have := isF64_zpow (e := 40) (by norm_num)
    rwa [show (40 : ℤ) = ((40 : ℕ) : ℤ) by norm_num, zpow_natCast] at this
  simp only [e, max_eq_right hl, min_eq_left h2]

/-- **C133** fails: a start of a local step is above the upper bound of the design space. -/
theorem C133_refuted_local_starts : UniformCallF64 (.classic largestDraw) ∧
    rnd (1 / 10) < StepsF64.localStarts (fun _ => (rnd (-(3 / 10)), rnd (1 / 10))) (1, 1)
      (fun _ => 0) (.classic largestDraw) 3 0 := by
  refine ⟨largestDraw_uniform, ?_⟩
  have b1 : StepsF64.localBox (rnd (-(3 / 10)), rnd (1 / 10)) (1, 1) 0 = (rnd (-(3 / 10)), rnd (1 / 10)) := by
    unfold StepsF64.localBox sub add
    rw [zero_sub, zero_add, rnd_of_isF64 (isF64_neg isF64_one), rnd_of_isF64 isF64_one,
      max_eq_left (le_rnd (isF64_neg isF64_one) (by norm_num)), min_eq_left (rnd_le isF64_one (by norm_num))]
  show rnd (1 / 10) < DoeF64.scale (StepsF64.localBox _ _ _).1 (StepsF64.localBox _ _ _).2 (DoeF64.classic largestDraw 3 0)
  rw [b1, classic_one, scale_one]
  exact upper_rnd

/-! ## Examples -/

/-- Two points of an interval: the hypotheses of the theorems on midpoints, and the start. -/
example : (∀ i j, IsF64 ((fun (i : Fin 2) (_ : Fin 1) => if i = 0 then 0 else 1 : Design 2 1) i j)) ∧
    Spec.InBounds (fun _ => 0) (fun _ => 1) (fun (i : Fin 2) (_ : Fin 1) => if i = 0 then 0 else 1 : Design 2 1) ∧
    StepsF64.startPoints (fun (i : Fin 2) (_ : Fin 1) => if i = 0 then 0 else 1 : Design 2 1) (fun _ _ _ => true) id
      (some 3) = [fun _ => 1 / 2] := by
  have h : IsF64 (1 / 2 : ℝ) := ⟨1, -1, by norm_num, by norm_num, by norm_num⟩
  refine ⟨fun i j => ?_, fun i j => ?_, ?_⟩
  · by_cases hi : i = 0
    · simpa [hi] using isF64_zero
    · simpa [hi] using isF64_one
  · by_cases hi : i = 0 <;> simp [hi]
  · have hp : Steps.startPairs 2 = [(1, 0)] := by decide
    simp only [StepsF64.startPoints, id, hp, StepsF64.startLoop]
    norm_num
    funext j
    show div (add 1 0) 2 = 1 / 2
    rw [middle_rnd isF64_one isF64_zero, add_zero, rnd_of_isF64 h]

end Verif.Props
