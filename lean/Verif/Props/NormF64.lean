import Verif.Model.NormF64
import Verif.Props.DoeF64
import Verif.Props.EiF64
import Verif.Props.PofF64
import Verif.Props.StepsF64

/-!
# C156: normalization in double precision
-/

set_option autoImplicit false

namespace Verif.Props

open Verif Verif.F64 Verif.Spec Verif.NormF64

/-! ## One value -/

theorem nrm_sub_near {x m : ℝ} (hx : IsF64 x) (hm : IsF64 m) :
    |sub x m - (x - m)| ≤ 2 ^ (-53 : ℤ) * |x - m| := rnd_rel_sub hm hx

/-- Normalizing keeps the order of values. -/
theorem C156_monotone (m s x y : ℝ) (hs : 0 < s) (h : x ≤ y) : center m s x ≤ center m s y := by
  unfold center div sub
  exact rnd_mono (div_le_div_of_nonneg_right (rnd_mono (by linarith)) hs.le)

/-- What is normalized then restored comes back up to three rounding errors of its distance to the mean, one of itself, and what a
deviation times the smallest positive number allows. -/
theorem C156_round_trip (m s x : ℝ) (hx : IsF64 x) (hm : IsF64 m) (hs : 0 < s) :
    |restore m s (center m s x) - x| ≤
      2 ^ (-51 : ℤ) * |x - m| + 2 ^ (-53 : ℤ) * |x| + (s + 1) * 2 ^ (-1074 : ℤ) := by
  set u : ℝ := 2 ^ (-53 : ℤ) with hu
  have hu0 : 0 < u := zpow2_pos _
  have hu1 : u ≤ 1 / 1000 := by rw [hu]; norm_num
  have e51 : (2 : ℝ) ^ (-51 : ℤ) = 4 * u := by rw [hu]; norm_num
  set t : ℝ := 2 ^ (-1075 : ℤ) with ht
  have ht0 : 0 < t := zpow2_pos _
  have e74 : (2 : ℝ) ^ (-1074 : ℤ) = 2 * t := by
    rw [ht, show (-1074 : ℤ) = 1 + -1075 by norm_num, zpow_add₀ (by norm_num)]; norm_num
  rw [e51, e74]
  have hrt : ∀ z : ℝ, |rnd z - z| ≤ u * |z| + t := rnd_rel_tiny
  have hra : ∀ z : ℝ, IsF64 z → |rnd (z + m) - (z + m)| ≤ u * |z + m| := fun z hz => rnd_rel_add hm hz
  have h1 : |sub x m - (x - m)| ≤ u * |x - m| := nrm_sub_near hx hm
  clear_value u t
  set d := x - m with hd
  set d1 := sub x m with hd1
  set v := div d1 s with hv
  have h2 : |v - d1 / s| ≤ u * |d1 / s| + t := hrt _
  have h2' : |v * s - d1| ≤ u * |d1| + t * s := by
    have e : v * s - d1 = (v - d1 / s) * s := by field_simp
    rw [e, abs_mul, abs_of_pos hs]
    have := mul_le_mul_of_nonneg_right h2 hs.le
    rw [add_mul, abs_div, abs_of_pos hs, mul_assoc, div_mul_cancel₀ _ hs.ne'] at this
    exact this
  set w := mul v s with hw
  have h3 : |w - v * s| ≤ u * |v * s| + t := hrt _
  have h4 : |restore m s v - (w + m)| ≤ u * |w + m| := hra _ (rnd_isF64 _)
  have a1 : |d1| ≤ |d| + u * |d| := by
    have := abs_sub_abs_le_abs_sub d1 d
    linarith
  have hd0 := abs_nonneg d
  have a2 : |v * s| ≤ |d1| + (u * |d1| + t * s) := by
    have := abs_sub_abs_le_abs_sub (v * s) d1
    linarith
  have b1 : u * |d1| ≤ u * (|d| + u * |d|) := mul_le_mul_of_nonneg_left a1 hu0.le
  have b2 : u * |v * s| ≤ u * (|d1| + (u * |d1| + t * s)) := mul_le_mul_of_nonneg_left a2 hu0.le
  have hts : 0 < t * s := mul_pos ht0 hs
  -- w is near d
  have c0 : u * (u * |d|) ≤ 1 / 1000 * (u * |d|) := mul_le_mul_of_nonneg_right hu1 (mul_nonneg hu0.le hd0)
  have c1 : u * |d1| ≤ 1.001 * (u * |d|) := by rw [mul_add] at b1; linarith
  have c2 : u * (u * |d1|) ≤ 1 / 1000 * (u * |d1|) :=
    mul_le_mul_of_nonneg_right hu1 (mul_nonneg hu0.le (abs_nonneg _))
  have c3 : u * (t * s) ≤ 1 / 1000 * (t * s) := mul_le_mul_of_nonneg_right hu1 hts.le
  have hwd : |w - d| ≤ 3.01 * (u * |d|) + 1.001 * (t * s) + t := by
    have e : w - d = (w - v * s) + (v * s - d1) + (d1 - d) := by ring
    have t1 := abs_add_le ((w - v * s) + (v * s - d1)) (d1 - d)
    have t2 := abs_add_le (w - v * s) (v * s - d1)
    rw [e]
    have hud : 0 ≤ u * |d| := mul_nonneg hu0.le hd0
    rw [mul_add, mul_add] at b2
    linarith
  have hwm : |w + m| ≤ |x| + |w - d| := by
    have e : w + m = x + (w - d) := by rw [hd]; ring
    rw [e]
    exact abs_add_le _ _
  have e : restore m s v - x = (restore m s v - (w + m)) + (w - d) := by rw [hd]; ring
  have t3 := abs_add_le (restore m s v - (w + m)) (w - d)
  rw [show restore m s (center m s x) = restore m s v from rfl, e]
  have b3 : u * |w + m| ≤ u * (|x| + |w - d|) := mul_le_mul_of_nonneg_left hwm hu0.le
  have b4 : u * |w - d| ≤ 1 / 1000 * |w - d| := mul_le_mul_of_nonneg_right hu1 (abs_nonneg _)
  have hud : 0 ≤ u * |d| := mul_nonneg hu0.le hd0
  rw [mul_add] at b3
  linarith

/-- Two values with the same normalized value are close to one another, relatively to their distances to the mean. -/
theorem C156_separated_partial (m s x y : ℝ) (hx : IsF64 x) (hy : IsF64 y) (hm : IsF64 m) (hs : 0 < s)
    (h : center m s x = center m s y) :
    |x - y| ≤ 2 ^ (-51 : ℤ) * (|x - m| + |y - m|) + s * 2 ^ (-1073 : ℤ) := by
  set u : ℝ := 2 ^ (-53 : ℤ) with hu
  have hu0 : 0 < u := zpow2_pos _
  have hu1 : u ≤ 1 / 1000 := by rw [hu]; norm_num
  have e51 : (2 : ℝ) ^ (-51 : ℤ) = 4 * u := by rw [hu]; norm_num
  set t : ℝ := 2 ^ (-1075 : ℤ) with ht
  have ht0 : 0 < t := zpow2_pos _
  have e73 : (2 : ℝ) ^ (-1073 : ℤ) = 4 * t := by
    rw [ht, show (-1073 : ℤ) = 2 + -1075 by norm_num, zpow_add₀ (by norm_num)]; norm_num
  rw [e51, e73]
  have hrt : ∀ z : ℝ, |rnd z - z| ≤ u * |z| + t := rnd_rel_tiny
  have hsn : ∀ z, IsF64 z → |sub z m - (z - m)| ≤ u * |z - m| := fun z hz => nrm_sub_near hz hm
  clear_value u t
  have key : ∀ z, IsF64 z → |center m s z * s - (z - m)| ≤ 3 * u * |z - m| + t * s := by
    intro z hz
    have h1 := hsn z hz
    have h2 : |center m s z - sub z m / s| ≤ u * |sub z m / s| + t := hrt _
    have e : center m s z * s - sub z m = (center m s z - sub z m / s) * s := by field_simp
    have h3 := mul_le_mul_of_nonneg_right h2 hs.le
    rw [add_mul, abs_div, abs_of_pos hs, mul_assoc, div_mul_cancel₀ _ hs.ne'] at h3
    have h4 : |center m s z * s - sub z m| ≤ u * |sub z m| + t * s := by
      rw [e, abs_mul, abs_of_pos hs]; exact h3
    have a1 := abs_sub_abs_le_abs_sub (sub z m) (z - m)
    have hd0 := abs_nonneg (z - m)
    have e2 : center m s z * s - (z - m) = (center m s z * s - sub z m) + (sub z m - (z - m)) := by ring
    have t1 := abs_add_le (center m s z * s - sub z m) (sub z m - (z - m))
    rw [e2]
    have b1 : u * |sub z m| ≤ u * (|z - m| + u * |z - m|) := mul_le_mul_of_nonneg_left (by linarith) hu0.le
    have c0 : u * (u * |z - m|) ≤ 1 / 1000 * (u * |z - m|) := mul_le_mul_of_nonneg_right hu1 (mul_nonneg hu0.le hd0)
    have := mul_nonneg hu0.le hd0
    rw [mul_add] at b1
    linarith
  have k1 := key x hx
  have k2 := key y hy
  rw [h] at k1
  have e : x - y = (center m s y * s - (y - m)) - (center m s y * s - (x - m)) := by ring
  rw [e]
  have t1 := abs_sub (center m s y * s - (y - m)) (center m s y * s - (x - m))
  have := mul_nonneg hu0.le (abs_nonneg (x - m))
  have := mul_nonneg hu0.le (abs_nonneg (y - m))
  have := mul_pos ht0 hs
  linarith

/-! ## Merged values -/

/-- Distinct numbers are apart. -/
theorem nrm_spacing {y m : ℝ} (hy : IsF64 y) (hm : IsF64 m) (h : y ≠ m) : 2 ^ (-54 : ℤ) * |m| ≤ |y - m| := by
  by_cases hm0 : m = 0
  · subst hm0; simp
  set e := expo m with he
  have hlt := lt_zpow_expo m
  rw [← he] at hlt
  have hmul : ∀ f : ℤ, (∃ j : ℤ, m = j * (2 : ℝ) ^ f) → (∃ j : ℤ, y = j * (2 : ℝ) ^ f) → (2 : ℝ) ^ f ≤ |y - m| := by
    rintro f ⟨j, hj⟩ ⟨k, hk⟩
    have hne : k - j ≠ 0 := by
      intro h0
      apply h
      rw [hj, hk, show k = j by omega]
    have : (1 : ℝ) ≤ |((k - j : ℤ) : ℝ)| := by
      rw [← Int.cast_abs]
      exact_mod_cast Int.one_le_abs hne
    rw [hj, hk, ← sub_mul, abs_mul, abs_of_pos (zpow2_pos f), ← Int.cast_sub]
    have := mul_le_mul_of_nonneg_right this (zpow2_pos f).le
    linarith
  have hm_mult : ∃ j : ℤ, m = j * (2 : ℝ) ^ e := by
    refine isF64_multiple hm ?_
    rcases eq_or_lt_of_le (le_expo m) with h1 | h1
    · exact Or.inl h1
    · exact Or.inr (zpow_expo_le hm0 h1)
  have hsmall : ∀ f : ℤ, e ≤ f + 1 → (2 : ℝ) ^ (-54 : ℤ) * |m| ≤ 2 ^ f := by
    intro f hf
    have : (2 : ℝ) ^ (-54 : ℤ) * |m| ≤ 2 ^ (-54 : ℤ) * 2 ^ (e + 53) :=
      mul_le_mul_of_nonneg_left hlt.le (zpow2_pos _).le
    refine this.trans ?_
    rw [← zpow_add₀ (by norm_num)]
    exact zpow_le_zpow_right₀ (by norm_num) (by omega)
  by_cases hc : -1074 = e ∨ 2 ^ (e + 52) ≤ |y|
  · exact (hsmall e (by omega)).trans (hmul e hm_mult (isF64_multiple hy hc))
  · push Not at hc
    have hlt' : -1074 < e := lt_of_le_of_ne (le_expo m) hc.1
    by_cases hc2 : 2 ^ (e - 1 + 52) ≤ |y|
    · refine (hsmall (e - 1) (by omega)).trans (hmul (e - 1) ?_ (isF64_multiple hy (Or.inr hc2)))
      obtain ⟨j, hj⟩ := hm_mult
      refine ⟨j * 2, ?_⟩
      rw [hj, show e = (e - 1) + 1 by ring, zpow_add₀ (by norm_num)]
      push_cast
      simp only [add_sub_cancel_right, zpow_one]
      ring
    · push Not at hc2
      have hb := zpow_expo_le hm0 hlt'
      rw [← he, show e + 52 = (e - 1 + 52) + 1 by ring, zpow_add₀ (by norm_num), zpow_one] at hb
      have h1 : (2 : ℝ) ^ (e - 1 + 52) ≤ |y - m| := by
        have := abs_sub_abs_le_abs_sub m y
        rw [abs_sub_comm m y] at this
        linarith
      exact (hsmall (e - 1 + 52) (by omega)).trans h1

/-- All values below `2^-55` times the mean have the normalized value of zero: points which differ only there are the same
training point for the model. -/
theorem C156_refuted_merge (m s x : ℝ) (hm : IsF64 m) (h : |x| < 2 ^ (-55 : ℤ) * |m|) :
    center m s x = center m s 0 := by
  have hn := (rnd_nearest (x - m)).2 _ (isF64_neg hm)
  rw [show -m - (x - m) = -x by ring, abs_neg] at hn
  have h1 : rnd (x - m) = -m := by
    by_contra hne
    have := nrm_spacing (rnd_isF64 (x - m)) (isF64_neg hm) hne
    rw [abs_neg] at this
    have t := abs_add_le (rnd (x - m) - (x - m)) x
    rw [show rnd (x - m) - (x - m) + x = rnd (x - m) - -m by ring] at t
    have e : (2 : ℝ) ^ (-54 : ℤ) = 2 * 2 ^ (-55 : ℤ) := by norm_num
    rw [e] at this
    linarith
  unfold center sub
  rw [h1, zero_sub, rnd_of_isF64 (isF64_neg hm)]

/-! ## The deviation -/

theorem nrm_tiny_multiple {y : ℝ} (hy : IsF64 y) : ∃ j : ℤ, y = j * (2 : ℝ) ^ (-1074 : ℤ) :=
  isF64_multiple hy (Or.inl rfl)

/-- The step of the mean is no larger than the difference. -/
theorem nrm_step_le {x m : ℝ} {k : ℕ} (hx : IsF64 x) (hm : IsF64 m) (h : m ≤ x) (hk : 1 ≤ k) :
    0 ≤ div (sub x m) (k + 1) ∧ div (sub x m) (k + 1) ≤ x - m := by
  have hd : 0 ≤ x - m := by linarith
  have hd1 : 0 ≤ sub x m := rnd_nonneg hd
  have hk1 : (1 : ℝ) ≤ k := by exact_mod_cast hk
  have hk2 : (0 : ℝ) < (k : ℝ) + 1 := by linarith
  refine ⟨rnd_nonneg (div_nonneg hd1 hk2.le), ?_⟩
  have hle : sub x m / (k + 1) ≤ sub x m / 2 :=
    div_le_div_of_nonneg_left hd1 (by norm_num) (by linarith)
  refine (rnd_mono hle).trans ?_
  have e74 : (2 : ℝ) ^ (-1074 : ℤ) = 2 * 2 ^ (-1075 : ℤ) := by
    rw [show (-1074 : ℤ) = 1 + -1075 by norm_num, zpow_add₀ (by norm_num)]; norm_num
  have ht := zpow2_pos (-1075)
  by_cases hsm : x - m ≤ 2 ^ (-1074 : ℤ)
  · have h1 : sub x m ≤ 2 ^ (-1074 : ℤ) := rnd_le (isF64_zpow le_rfl) hsm
    have : rnd (sub x m / 2) = 0 := by
      rw [rnd_eq_zero_iff, abs_of_nonneg (by linarith)]
      linarith
    rw [this]
    exact hd
  · push Not at hsm
    obtain ⟨a, ha⟩ := nrm_tiny_multiple hx
    obtain ⟨b, hb⟩ := nrm_tiny_multiple hm
    have hab : 2 * (2 : ℝ) ^ (-1074 : ℤ) ≤ x - m := by
      rw [ha, hb, ← sub_mul, ← Int.cast_sub] at hsm ⊢
      have h2 : (1 : ℝ) < ((a - b : ℤ) : ℝ) := by
        by_contra hc
        push Not at hc
        have := mul_le_mul_of_nonneg_right hc (zpow2_pos (-1074)).le
        linarith
      have h3 : (2 : ℝ) ≤ ((a - b : ℤ) : ℝ) := by exact_mod_cast h2
      exact mul_le_mul_of_nonneg_right h3 (zpow2_pos _).le
    have h1 := nrm_sub_near hx hm
    rw [abs_of_nonneg hd] at h1
    have h2 := rnd_rel_tiny (sub x m / 2)
    rw [abs_of_nonneg (a := sub x m / 2) (by linarith)] at h2
    have hu : (2 : ℝ) ^ (-53 : ℤ) ≤ 1 / 1000 := by norm_num
    have hu0 := zpow2_pos (-53)
    rw [e74] at hab
    generalize (2 : ℝ) ^ (-53 : ℤ) = u at *
    generalize (2 : ℝ) ^ (-1075 : ℤ) = t at *
    have g1 := (abs_le.1 h1).2
    have g2 := (abs_le.1 h2).2
    have p1 : u * (x - m) ≤ 1 / 1000 * (x - m) := mul_le_mul_of_nonneg_right hu hd
    have p2 : u * (sub x m / 2) ≤ 1 / 1000 * (sub x m / 2) := mul_le_mul_of_nonneg_right hu (by linarith)
    linarith

theorem nrm_roundEven_neg (x : ℝ) : roundEven (-x) = -roundEven x := by
  by_cases h : Int.fract x = 1 / 2
  · have hx : x = ⌊x⌋ + 1 / 2 := by
      have := Int.floor_add_fract x
      rw [h] at this
      linarith
    set n := ⌊x⌋ with hn
    rcases Int.even_or_odd n with he | ho
    · have h1 := (roundEven_tie he).1
      have h2 := (roundEven_tie he.neg).2
      rw [← hx] at h1
      rw [h1, show -x = ((-n : ℤ) : ℝ) - 1 / 2 by rw [hx]; push_cast; ring, h2]
    · have he : Even (n + 1) := ho.add_one
      have h1 := (roundEven_tie he).2
      have h2 := (roundEven_tie he.neg).1
      rw [show (((n + 1 : ℤ) : ℝ) - 1 / 2) = x by rw [hx]; push_cast; ring] at h1
      rw [h1, show -x = ((-(n + 1) : ℤ) : ℝ) + 1 / 2 by rw [hx]; push_cast; ring, h2]
  · have hlt : |x - round x| < 1 / 2 := by
      refine lt_of_le_of_ne (abs_sub_round x) fun hc => h ?_
      rw [abs_sub_round_eq_min] at hc
      rcases min_choice (Int.fract x) (1 - Int.fract x) with h1 | h1 <;> rw [h1] at hc <;> linarith
    have h1 : roundEven x = round x := roundEven_eq hlt
    rw [h1]
    refine roundEven_eq ?_
    push_cast
    rwa [show -x - -(round x : ℝ) = -(x - round x) by ring, abs_neg]

theorem nrm_rnd_neg (x : ℝ) : rnd (-x) = -rnd x := by
  have : expo (-x) = expo x := by unfold expo; rw [abs_neg]
  unfold rnd
  rw [this, neg_div, nrm_roundEven_neg]
  push_cast
  ring

/-- The mean moves towards the value read, not beyond. -/
theorem nrm_between {x m : ℝ} {k : ℕ} (hx : IsF64 x) (hm : IsF64 m) (hk : 1 ≤ k) :
    (m ≤ x → m ≤ add m (div (sub x m) (k + 1)) ∧ add m (div (sub x m) (k + 1)) ≤ x) ∧
      (x ≤ m → x ≤ add m (div (sub x m) (k + 1)) ∧ add m (div (sub x m) (k + 1)) ≤ m) := by
  constructor
  · intro h
    obtain ⟨h1, h2⟩ := nrm_step_le hx hm h hk
    exact ⟨le_rnd hm (by linarith), rnd_le hx (by linarith)⟩
  · intro h
    obtain ⟨h1, h2⟩ := nrm_step_le (isF64_neg hx) (isF64_neg hm) (neg_le_neg h) hk
    have e : div (sub (-x) (-m)) (k + 1) = -div (sub x m) (k + 1) := by
      unfold div sub
      rw [show -x - -m = -(x - m) by ring, nrm_rnd_neg, neg_div, nrm_rnd_neg]
    rw [e] at h1 h2
    exact ⟨le_rnd hx (by linarith), rnd_le hm (by linarith)⟩

/-- One row: the term added to the sum of squares is not negative. -/
theorem nrm_term {x m : ℝ} {k : ℕ} (hx : IsF64 x) (hm : IsF64 m) (hk : 1 ≤ k) :
    0 ≤ sub x (add m (div (sub x m) (k + 1))) * sub x m := by
  obtain ⟨h1, h2⟩ := nrm_between hx hm hk
  rcases le_total m x with h | h
  · exact mul_nonneg (rnd_nonneg (by linarith [(h1 h).2])) (rnd_nonneg (by linarith))
  · exact mul_nonneg_of_nonpos_of_nonpos (rnd_nonpos (by linarith [(h2 h).1])) (rnd_nonpos (by linarith))

theorem nrm_welford_nonneg (xs : List ℝ) (hx : ∀ x ∈ xs, IsF64 x) : ∀ (k : ℕ) (m q : ℝ), 1 ≤ k → IsF64 m → 0 ≤ q →
    0 ≤ welford k m q xs := by
  induction xs with
  | nil => intro k m q _ _ h; exact h
  | cons x xs ih =>
    intro k m q hk hm hq
    have h1 := nrm_term (hx x (by simp)) hm hk
    exact ih (fun y hy => hx y (by simp [hy])) _ _ _ (by omega) (rnd_isF64 _) (rnd_nonneg (by linarith))

/-- The first row. -/
theorem nrm_welford_first (x : ℝ) (xs : List ℝ) (hx : IsF64 x) : welford 0 0 0 (x :: xs) = welford 1 x 0 xs := by
  simp only [welford, sub, add, div, sub_zero, zero_add, Nat.cast_zero, div_one, rnd_of_isF64 hx, sub_self, rnd_zero,
    zero_mul]

/-- The square root is never that of a negative number and the deviation is positive, whatever the column: normalized values are
numbers. -/
theorem C156_scale_pos (xs : List ℝ) (hx : ∀ x ∈ xs, IsF64 x) :
    0 ≤ welford 0 0 0 xs ∧ 0 < scale xs := by
  refine ⟨?_, ?_⟩
  · cases xs with
    | nil => exact le_rfl
    | cons x xs =>
      rw [nrm_welford_first _ _ (hx x (by simp))]
      exact nrm_welford_nonneg xs (fun y hy => hx y (by simp [hy])) 1 x 0 le_rfl (hx x (by simp)) le_rfl
  · unfold scale
    split_ifs with h
    · exact one_pos
    · exact lt_of_le_of_ne (rnd_nonneg (Real.sqrt_nonneg _)) (Ne.symm h)

theorem nrm_welford_const (c : ℝ) (n : ℕ) : ∀ k, 1 ≤ k → IsF64 c → welford k c 0 (List.replicate n c) = 0 := by
  induction n with
  | zero => intro k _ _; rfl
  | succ n ih =>
    intro k hk hc
    rw [List.replicate_succ]
    simp only [welford, sub, add, div, sub_self, rnd_zero, zero_div, add_zero, rnd_of_isF64 hc, zero_mul]
    exact ih _ (by omega) hc

/-- A constant column has deviation exactly one, and all its normalized values are equal: the inputs contribute nothing to
distances between training points. -/
theorem C156_constant (c : ℝ) (hc : IsF64 c) (n : ℕ) :
    scale (List.replicate n c) = 1 ∧ ∀ v ∈ NormF64.normalize (List.replicate n c), ∀ w ∈ NormF64.normalize (List.replicate n c), v = w := by
  constructor
  · unfold scale std
    rw [if_pos]
    have : welford 0 0 0 (List.replicate n c) = 0 := by
      cases n with
      | zero => rfl
      | succ n => rw [List.replicate_succ, nrm_welford_first _ _ hc, nrm_welford_const c n 1 le_rfl hc]
    rw [this]
    simp [div, rnd_zero]
  · intro v hv w hw
    simp only [NormF64.normalize, List.map_replicate, List.mem_replicate] at hv hw
    rw [hv.2, hw.2]

theorem nrm_welford_tiny (xs : List ℝ) (hx : ∀ x ∈ xs, IsF64 x ∧ |x| ≤ 2 ^ (-540 : ℤ)) : ∀ (k : ℕ) (m : ℝ), 1 ≤ k → IsF64 m →
    |m| ≤ 2 ^ (-540 : ℤ) → welford k m 0 xs = 0 := by
  induction xs with
  | nil => intros; rfl
  | cons x xs ih =>
    intro k m hk hm hmb
    obtain ⟨hx1, hx2⟩ := hx x (by simp)
    obtain ⟨b1, b2⟩ := nrm_between hx1 hm hk
    have hsub : ∀ a : ℝ, |a| ≤ 2 ^ (-540 : ℤ) → |sub x a| ≤ 2 ^ (-539 : ℤ) := by
      intro a ha
      refine rnd_abs_le (isF64_zpow (by norm_num)) ?_
      have e : (2 : ℝ) ^ (-539 : ℤ) = 2 ^ (-540 : ℤ) + 2 ^ (-540 : ℤ) := by
        rw [show (-539 : ℤ) = 1 + -540 by norm_num, zpow_add₀ (by norm_num), zpow_one]; ring
      rw [e]
      exact (abs_sub _ _).trans (add_le_add hx2 ha)
    have hm' : |add m (div (sub x m) (k + 1))| ≤ 2 ^ (-540 : ℤ) := by
      rw [abs_le] at hx2 hmb ⊢
      rcases le_total m x with h | h
      · obtain ⟨c1, c2⟩ := b1 h
        exact ⟨by linarith, by linarith⟩
      · obtain ⟨c1, c2⟩ := b2 h
        exact ⟨by linarith, by linarith⟩
    have hz : rnd (sub x (add m (div (sub x m) (k + 1))) * sub x m + 0) = 0 := by
      rw [add_zero, rnd_eq_zero_iff, abs_mul]
      refine (mul_le_mul (hsub _ hm') (hsub _ hmb) (abs_nonneg _) (zpow2_pos _).le).trans ?_
      rw [← zpow_add₀ (by norm_num)]
      exact zpow_le_zpow_right₀ (by norm_num) (by norm_num)
    simp only [welford]
    rw [hz]
    exact ih (fun y hy => hx y (by simp [hy])) _ _ (by omega) (rnd_isF64 _) hm'

theorem nrm_scale_one {xs : List ℝ} (h : welford 0 0 0 xs = 0) :
    scale xs = 1 ∧ NormF64.normalize xs = xs.map fun x => sub x (mean xs) := by
  have hs : scale xs = 1 := by
    unfold scale std
    rw [if_pos]
    rw [h]
    simp [div, rnd_zero]
  refine ⟨hs, ?_⟩
  unfold NormF64.normalize
  rw [hs]
  refine List.map_congr_left fun x _ => ?_
  simp only [center, div, div_one]
  exact rnd_of_isF64 (rnd_isF64 _)

/-- Columns whose values are all below `2^-540` have deviation one, constant or not: they are centered but not put to scale. -/
theorem C156_refuted_small_values (xs : List ℝ) (hx : ∀ x ∈ xs, IsF64 x ∧ |x| ≤ 2 ^ (-540 : ℤ)) :
    scale xs = 1 ∧ NormF64.normalize xs = xs.map fun x => sub x (mean xs) := by
  apply nrm_scale_one
  cases xs with
  | nil => rfl
  | cons x xs =>
    obtain ⟨h1, h2⟩ := hx x (by simp)
    rw [nrm_welford_first _ _ h1]
    exact nrm_welford_tiny xs (fun y hy => hx y (by simp [hy])) 1 x le_rfl h1 h2

/-- Two rows which hold a number and the next one have deviation one if the first is odd, in units of the last place: the mean of
the one pass algorithm is the second row. -/
theorem C156_refuted_adjacent (n e : ℤ) (hn : Odd n) (h1 : 2 ^ 52 ≤ n) (h2 : n < 2 ^ 53) (he : -1073 ≤ e) :
    let x := (n : ℝ) * 2 ^ e
    let y := ((n + 1 : ℤ) : ℝ) * 2 ^ e
    IsF64 x ∧ IsF64 y ∧ x < y ∧ scale [x, y] = 1 := by
  intro x y
  have hp := zpow2_pos e
  have hx : IsF64 x := isF64_mul_zpow (by rw [abs_of_pos (by omega)]; omega) (by omega)
  have hy : IsF64 y := isF64_mul_zpow (by rw [abs_of_pos (by omega)]; omega) (by omega)
  have hxy : x < y := mul_lt_mul_of_pos_right (by push_cast; linarith) hp
  refine ⟨hx, hy, hxy, ?_⟩
  refine (nrm_scale_one ?_).1
  rw [nrm_welford_first _ _ hx]
  have hd : sub y x = 2 ^ e := by
    have : y - x = 2 ^ e := by simp only [x, y]; push_cast; ring
    rw [sub, this]
    exact rnd_of_isF64 (isF64_zpow (by omega))
  have hd2 : div (2 ^ e) ((1 : ℕ) + 1) = 2 ^ (e - 1) := by
    have : (2 : ℝ) ^ e / ((1 : ℕ) + 1) = 2 ^ (e - 1) := by
      rw [zpow_sub_one₀ (by norm_num)]; push_cast; norm_num; ring
    rw [div, this]
    exact rnd_of_isF64 (isF64_zpow (by omega))
  have hn1 : (2 : ℝ) ^ (52 : ℤ) ≤ n := by exact_mod_cast h1
  have hn2 : (n : ℝ) + 1 ≤ 2 ^ (53 : ℤ) := by exact_mod_cast h2
  have hm : add x (2 ^ (e - 1)) = y := by
    have hv : x + 2 ^ (e - 1) = ((n + 1 : ℤ) - 1 / 2) * 2 ^ e := by
      simp only [x]; rw [zpow_sub_one₀ (by norm_num)]; push_cast; ring
    rw [add]
    have hpos : 0 < x + 2 ^ (e - 1) := by
      have : 0 < x := mul_pos (by have := zpow2_pos 52; linarith) hp
      have := zpow2_pos (e - 1)
      linarith
    refine rnd_tie (by omega) ?_ ?_ hn.add_one (Or.inr hv)
    · rw [abs_of_pos hpos, hv, zpow_add₀ (by norm_num), mul_comm]
      refine mul_le_mul_of_nonneg_right ?_ hp.le
      push_cast
      linarith
    · rw [abs_of_pos hpos, hv, zpow_add₀ (by norm_num), mul_comm]
      refine mul_lt_mul_of_pos_left ?_ hp
      push_cast
      linarith
  simp only [welford]
  rw [hd, hd2, hm]
  simp [sub, rnd_zero]

/-! ## The mean -/

theorem nrm_sum (M : ℝ) (hM : 0 ≤ M) (xs : List ℝ) (hx : ∀ x ∈ xs, IsF64 x ∧ |x| ≤ M) : ∀ (k : ℕ) (S T : ℝ),
    (k + xs.length : ℕ) ≤ 2 ^ 52 → IsF64 S → |T| ≤ k * M → |S - T| ≤ (k : ℝ) ^ 2 * 2 ^ (-52 : ℤ) * M →
    |xs.foldl add S - (T + xs.sum)| ≤ ((k + xs.length : ℕ) : ℝ) ^ 2 * 2 ^ (-52 : ℤ) * M := by
  induction xs with
  | nil => intro k S T _ _ _ h; simpa using h
  | cons x xs ih =>
    intro k S T hk hS hT h
    obtain ⟨hx1, hx2⟩ := hx x (by simp)
    simp only [List.foldl_cons, List.sum_cons, List.length_cons] at hk ⊢
    have := ih (fun y hy => hx y (by simp [hy])) (k + 1) (add S x) (T + x) (by omega) (rnd_isF64 _) ?_ ?_
    · rw [show T + (x + xs.sum) = T + x + xs.sum by ring, show k + (xs.length + 1) = k + 1 + xs.length by ring]
      exact this
    · push_cast
      have := abs_add_le T x
      linarith
    · have h1 : |add S x - (S + x)| ≤ 2 ^ (-53 : ℤ) * |S + x| := rnd_rel_add hx1 hS
      have e : (2 : ℝ) ^ (-52 : ℤ) = 2 * 2 ^ (-53 : ℤ) := by norm_num
      have hkl : (k : ℝ) * 2 ^ (-52 : ℤ) ≤ 1 := by
        have : (k : ℝ) ≤ 2 ^ 52 := by
          have : k ≤ 2 ^ 52 := by omega
          exact_mod_cast this
        have := mul_le_mul_of_nonneg_right this (zpow2_pos (-52)).le
        refine this.trans ?_
        norm_num
      have h2 : |S| ≤ k * M + k * M := by
        have a := abs_sub_abs_le_abs_sub S T
        have b : (k : ℝ) ^ 2 * 2 ^ (-52 : ℤ) * M ≤ k * M := by
          have := mul_le_mul_of_nonneg_right hkl (mul_nonneg (Nat.cast_nonneg k : (0 : ℝ) ≤ k) hM)
          nlinarith
        linarith
      have hu := zpow2_pos (-53)
      have h3 := abs_add_le S x
      have h4 := mul_le_mul_of_nonneg_left (show |S + x| ≤ 2 * (k * M) + M by linarith) hu.le
      have h5 := abs_add_le (add S x - (S + x)) (S - T)
      rw [show add S x - (S + x) + (S - T) = add S x - (T + x) by ring] at h5
      have hc : ((k + 1 : ℕ) : ℝ) = k + 1 := by push_cast; ring
      rw [hc]
      rw [e] at h ⊢
      generalize (2 : ℝ) ^ (-53 : ℤ) = u at *
      have p1 : 0 ≤ u * ((k : ℝ) * M) := mul_nonneg hu.le (mul_nonneg (Nat.cast_nonneg k) hM)
      have p2 : 0 ≤ u * M := mul_nonneg hu.le hM
      have e2 : ((k : ℝ) + 1) ^ 2 * (2 * u) * M = (k : ℝ) ^ 2 * (2 * u) * M + 4 * (u * (k * M)) + 2 * (u * M) := by ring
      rw [e2]
      linarith

/-- The mean is exact up to `n + 1` units of `2^-52` times the largest value. -/
theorem C156_mean (xs : List ℝ) (M : ℝ) (hx : ∀ x ∈ xs, IsF64 x ∧ |x| ≤ M) (h0 : xs ≠ []) (hn : xs.length ≤ 2 ^ 52) :
    |mean xs - xs.sum / xs.length| ≤ (xs.length + 1) * 2 ^ (-52 : ℤ) * M + 2 ^ (-1075 : ℤ) := by
  have hM : 0 ≤ M := by
    obtain ⟨x, hx'⟩ := List.exists_mem_of_ne_nil xs h0
    exact (abs_nonneg x).trans (hx x hx').2
  have hnp : (0 : ℝ) < xs.length := by exact_mod_cast List.length_pos_iff.2 h0
  have hs := nrm_sum M hM xs hx 0 0 0 (by simpa using hn) isF64_zero (by simp) (by simp)
  simp only [zero_add] at hs
  set S := xs.foldl add 0 with hS
  set n : ℝ := (xs.length : ℝ) with hnd
  have hsum : |xs.sum| ≤ n * M := by
    have : ∀ l : List ℝ, (∀ x ∈ l, |x| ≤ M) → |l.sum| ≤ l.length * M := by
      intro l
      induction l with
      | nil => simp
      | cons a l ih =>
        intro h
        have h1 := ih fun y hy => h y (by simp [hy])
        have h2 := h a (by simp)
        have := abs_add_le a l.sum
        simp only [List.sum_cons, List.length_cons, Nat.cast_add, Nat.cast_one]
        linarith
    exact this xs fun x h => (hx x h).2
  have h1 : |mean xs - S / n| ≤ 2 ^ (-53 : ℤ) * |S / n| + 2 ^ (-1075 : ℤ) := rnd_rel_tiny _
  have hd : |S / n - xs.sum / n| ≤ n * 2 ^ (-52 : ℤ) * M := by
    rw [← sub_div, abs_div, abs_of_pos hnp, div_le_iff₀ hnp]
    refine hs.trans (le_of_eq ?_)
    ring
  have hq : |xs.sum / n| ≤ M := by
    rw [abs_div, abs_of_pos hnp, div_le_iff₀ hnp]
    linarith
  have hkl : n * 2 ^ (-52 : ℤ) ≤ 1 := by
    have : n ≤ 2 ^ 52 := by rw [hnd]; exact_mod_cast hn
    have := mul_le_mul_of_nonneg_right this (zpow2_pos (-52)).le
    refine this.trans ?_
    norm_num
  have h2 : |S / n| ≤ 2 * M := by
    have a := abs_sub_abs_le_abs_sub (S / n) (xs.sum / n)
    have b := hd.trans (mul_le_mul_of_nonneg_right hkl hM)
    generalize |S / n - xs.sum / n| = z at *
    linarith
  have h3 := mul_le_mul_of_nonneg_left h2 (zpow2_pos (-53)).le
  have h4 := abs_add_le (mean xs - S / n) (S / n - xs.sum / n)
  rw [show mean xs - S / n + (S / n - xs.sum / n) = mean xs - xs.sum / n by ring] at h4
  have e : (2 : ℝ) ^ (-52 : ℤ) = 2 * 2 ^ (-53 : ℤ) := by norm_num
  have h5 : (n + 1) * 2 ^ (-52 : ℤ) * M = n * 2 ^ (-52 : ℤ) * M + 2 ^ (-53 : ℤ) * (2 * M) := by rw [e]; ring
  rw [h5]
  linarith

theorem nrm_abs_between {x m B : ℝ} {k : ℕ} (hx : IsF64 x) (hm : IsF64 m) (hk : 1 ≤ k) (h1 : |x| ≤ B) (h2 : |m| ≤ B) :
    |add m (div (sub x m) (k + 1))| ≤ B := by
  obtain ⟨b1, b2⟩ := nrm_between hx hm hk
  rw [abs_le] at h1 h2 ⊢
  rcases le_total m x with h | h
  · obtain ⟨c1, c2⟩ := b1 h
    exact ⟨by linarith, by linarith⟩
  · obtain ⟨c1, c2⟩ := b2 h
    exact ⟨by linarith, by linarith⟩

/-- One row of the one pass algorithm. -/
theorem nrm_row {x m B q T P : ℝ} {k : ℕ} {u t : ℝ} (hu0 : 0 < u) (hu1 : u * (2 : ℝ) ^ 45 ≤ 1) (ht0 : 0 ≤ t)
    (hrt : ∀ z : ℝ, |rnd z - z| ≤ u * |z| + t) (hrs : ∀ a b : ℝ, IsF64 a → IsF64 b → |rnd (a - b) - (a - b)| ≤ u * |a - b|)
    (hB : 0 ≤ B) (ht1 : t ≤ u * B) (ht2 : t ≤ u * B ^ 2) (hx : IsF64 x) (hm : IsF64 m) (hk : 1 ≤ k) (hk2 : (k : ℝ) ≤ 2 ^ 40)
    (hxB : |x| ≤ B) (hmB : |m| ≤ B) (hT : |T| ≤ k * B) (he : |m - T / k| ≤ 7 * k * (u * B)) (hq : |q| ≤ 5 * k * B ^ 2)
    (hQ : |q - (P - T ^ 2 / k)| ≤ 62 * (k : ℝ) ^ 2 * (u * B ^ 2)) :
    let m' := add m (div (sub x m) (k + 1))
    let q' := rnd (sub x m' * sub x m + q)
    |m'| ≤ B ∧ |T + x| ≤ (k + 1) * B ∧ |m' - (T + x) / (k + 1)| ≤ 7 * (k + 1) * (u * B) ∧ |q'| ≤ 5 * (k + 1) * B ^ 2 ∧
      |q' - (P + x ^ 2 - (T + x) ^ 2 / (k + 1))| ≤ 62 * ((k : ℝ) + 1) ^ 2 * (u * B ^ 2) := by
  intro m' q'
  have hk1 : (1 : ℝ) ≤ k := by exact_mod_cast hk
  have hkp : (0 : ℝ) < (k : ℝ) + 1 := by linarith
  have hu2 : u ≤ 1 / 1000 := by
    have : (1000 : ℝ) ≤ 2 ^ 45 := by norm_num
    have := mul_le_mul_of_nonneg_left this hu0.le
    linarith
  have huB : 0 ≤ u * B := mul_nonneg hu0.le hB
  have huB1 : u * B ≤ 1 / 1000 * B := mul_le_mul_of_nonneg_right hu2 hB
  have hB2 : 0 ≤ B ^ 2 := sq_nonneg B
  have huB2 : 0 ≤ u * B ^ 2 := mul_nonneg hu0.le hB2
  have hm'B : |m'| ≤ B := nrm_abs_between hx hm hk hxB hmB
  have hm'F : IsF64 m' := rnd_isF64 _
  have hT' : |T + x| ≤ (k + 1) * B := by
    have := abs_add_le T x
    linarith
  set d := sub x m with hd
  set g := sub x m' with hg
  have hxm : |x - m| ≤ 2 * B := (abs_sub _ _).trans (by linarith)
  have hxm' : |x - m'| ≤ 2 * B := (abs_sub _ _).trans (by linarith)
  have d1 : |d - (x - m)| ≤ 2 * (u * B) :=
    (hrs x m hx hm).trans (by have := mul_le_mul_of_nonneg_left hxm hu0.le; linarith)
  have g1 : |g - (x - m')| ≤ 2 * (u * B) :=
    (hrs x m' hx hm'F).trans (by have := mul_le_mul_of_nonneg_left hxm' hu0.le; linarith)
  have dB : |d| ≤ 2.1 * B := by
    have := abs_sub_abs_le_abs_sub d (x - m)
    linarith
  have gB : |g| ≤ 2.1 * B := by
    have := abs_sub_abs_le_abs_sub g (x - m')
    linarith
  -- the running mean
  set r := div d (k + 1) with hr
  have hdk : |d / (k + 1)| ≤ 1.05 * B := by
    rw [abs_div, abs_of_pos hkp, div_le_iff₀ hkp]
    have : 0 ≤ 1.05 * B * ((k : ℝ) - 1) := mul_nonneg (by linarith) (by linarith)
    linarith
  have r1 : |r - d / (k + 1)| ≤ 2.1 * (u * B) :=
    (hrt _).trans (by have := mul_le_mul_of_nonneg_left hdk hu0.le; linarith)
  have rB : |r| ≤ 1.1 * B := by
    have := abs_sub_abs_le_abs_sub r (d / (k + 1))
    linarith
  have m1 : |m' - (m + r)| ≤ 2.1 * (u * B) := by
    have h := hrs m (-r) hm (isF64_neg (rnd_isF64 _))
    rw [sub_neg_eq_add] at h
    refine h.trans ?_
    have := (abs_add_le m r).trans (add_le_add hmB rB)
    have := mul_le_mul_of_nonneg_left this hu0.le
    linarith
  have hM : |m' - (T + x) / (k + 1)| ≤ 7 * (k + 1) * (u * B) := by
    have e : m' - (T + x) / (k + 1) =
        (m' - (m + r)) + (r - d / (k + 1)) + (d - (x - m)) / (k + 1) + (m - T / k) * (k / (k + 1)) := by
      have : (k : ℝ) ≠ 0 := by linarith
      field_simp
      ring
    rw [e]
    have a1 := abs_add_le ((m' - (m + r)) + (r - d / (k + 1)) + (d - (x - m)) / (k + 1)) ((m - T / k) * (k / (k + 1)))
    have a2 := abs_add_le ((m' - (m + r)) + (r - d / (k + 1))) ((d - (x - m)) / (k + 1))
    have a3 := abs_add_le (m' - (m + r)) (r - d / (k + 1))
    have a4 : |(d - (x - m)) / (k + 1)| ≤ 2 * (u * B) := by
      rw [abs_div, abs_of_pos hkp, div_le_iff₀ hkp]
      have : 0 ≤ 2 * (u * B) * (k : ℝ) := mul_nonneg (by linarith) (by linarith)
      linarith
    have a5 : |(m - T / k) * (k / (k + 1))| ≤ 7 * k * (u * B) := by
      rw [abs_mul, abs_of_nonneg (a := (k : ℝ) / (k + 1)) (by positivity)]
      have h1 : (k : ℝ) / (k + 1) ≤ 1 := by rw [div_le_one hkp]; linarith
      have := mul_le_mul_of_nonneg_left h1 (abs_nonneg (m - T / k))
      linarith
    linarith
  -- the sum of squares
  set δ := x - T / k with hδ
  set γ := x - (T + x) / (k + 1) with hγ
  have hkuB : u * B ≤ k * (u * B) := by have := mul_le_mul_of_nonneg_right hk1 huB; linarith
  have d2 : |d - δ| ≤ 9 * (k * (u * B)) := by
    have e : d - δ = (d - (x - m)) - (m - T / k) := by rw [hδ]; ring
    rw [e]
    have := abs_sub (d - (x - m)) (m - T / k)
    linarith
  have g2 : |g - γ| ≤ 16 * (k * (u * B)) := by
    have e : g - γ = (g - (x - m')) - (m' - (T + x) / (k + 1)) := by rw [hγ]; ring
    rw [e]
    have := abs_sub (g - (x - m')) (m' - (T + x) / (k + 1))
    linarith
  have hδB : |δ| ≤ 2 * B := by
    have h1 : |T / k| ≤ B := by
      rw [abs_div, abs_of_pos (by linarith : (0 : ℝ) < k), div_le_iff₀ (by linarith)]
      linarith
    exact (abs_sub _ _).trans (by linarith)
  have hprod : |g * d - γ * δ| ≤ 51 * (k * (u * B ^ 2)) := by
    have e : g * d - γ * δ = g * (d - δ) + (g - γ) * δ := by ring
    rw [e]
    have a1 := abs_add_le (g * (d - δ)) ((g - γ) * δ)
    rw [abs_mul, abs_mul] at a1
    have a2 := mul_le_mul gB d2 (abs_nonneg _) (by linarith)
    have a3 := mul_le_mul g2 hδB (abs_nonneg _) (by positivity)
    have e1 : 2.1 * B * (9 * (k * (u * B))) = 18.9 * (k * (u * B ^ 2)) := by ring
    have e2 : 16 * (k * (u * B)) * (2 * B) = 32 * (k * (u * B ^ 2)) := by ring
    have : 0 ≤ (k : ℝ) * (u * B ^ 2) := by positivity
    linarith
  have hgd : |g * d| ≤ 4.41 * B ^ 2 := by
    rw [abs_mul]
    have := mul_le_mul gB dB (abs_nonneg _) (by linarith)
    have e : 2.1 * B * (2.1 * B) = 4.41 * B ^ 2 := by ring
    linarith
  have hgdq : |g * d + q| ≤ 4.41 * B ^ 2 + 5 * k * B ^ 2 := (abs_add_le _ _).trans (by linarith)
  have q1 : |q' - (g * d + q)| ≤ 11 * (k * (u * B ^ 2)) := by
    refine (hrt _).trans ?_
    have a1 := mul_le_mul_of_nonneg_left hgdq hu0.le
    have e : u * (4.41 * B ^ 2 + 5 * k * B ^ 2) = 4.41 * (u * B ^ 2) + 5 * (k * (u * B ^ 2)) := by ring
    have a2 := mul_le_mul_of_nonneg_right hk1 huB2
    linarith
  have q2 : |q'| ≤ 5 * (k + 1) * B ^ 2 := by
    have hu3 : (k : ℝ) * u ≤ 1 / 20 := by
      have h1 := mul_le_mul_of_nonneg_right hk2 hu0.le
      have e : (2 : ℝ) ^ 45 = 2 ^ 40 * 32 := by norm_num
      rw [e] at hu1
      linarith
    have a1 := abs_sub_abs_le_abs_sub q' (g * d + q)
    have a2 : (k : ℝ) * (u * B ^ 2) ≤ 1 / 20 * B ^ 2 := by
      have := mul_le_mul_of_nonneg_right hu3 hB2
      linarith
    linarith
  refine ⟨hm'B, hT', hM, q2, ?_⟩
  have e : q' - (P + x ^ 2 - (T + x) ^ 2 / (k + 1)) =
      (q' - (g * d + q)) + (g * d - γ * δ) + (q - (P - T ^ 2 / k)) := by
    have : (k : ℝ) ≠ 0 := by linarith
    rw [hγ, hδ]
    field_simp
    ring
  rw [e]
  have a1 := abs_add_le ((q' - (g * d + q)) + (g * d - γ * δ)) (q - (P - T ^ 2 / k))
  have a2 := abs_add_le (q' - (g * d + q)) (g * d - γ * δ)
  have e2 : 62 * ((k : ℝ) + 1) ^ 2 * (u * B ^ 2) =
      62 * (k : ℝ) ^ 2 * (u * B ^ 2) + 124 * (k * (u * B ^ 2)) + 62 * (u * B ^ 2) := by ring
  have : 0 ≤ (k : ℝ) * (u * B ^ 2) := by positivity
  rw [e2]
  linarith

theorem nrm_welford_near (B : ℝ) (hB : 2 ^ (-500 : ℤ) ≤ B) (xs : List ℝ) (hx : ∀ x ∈ xs, IsF64 x ∧ |x| ≤ B) :
    ∀ (k : ℕ) (m q T P : ℝ), 1 ≤ k → k + xs.length ≤ 2 ^ 40 → IsF64 m → |m| ≤ B → |T| ≤ k * B →
      |m - T / k| ≤ 7 * k * (2 ^ (-53 : ℤ) * B) → |q| ≤ 5 * k * B ^ 2 →
      |q - (P - T ^ 2 / k)| ≤ 62 * (k : ℝ) ^ 2 * (2 ^ (-53 : ℤ) * B ^ 2) →
      |welford k m q xs| ≤ 5 * (k + xs.length : ℕ) * B ^ 2 ∧
      |welford k m q xs - (P + (xs.map (· ^ 2)).sum - (T + xs.sum) ^ 2 / (k + xs.length : ℕ))| ≤
        62 * ((k + xs.length : ℕ) : ℝ) ^ 2 * (2 ^ (-53 : ℤ) * B ^ 2) := by
  have hB0 : 0 ≤ B := (zpow2_pos _).le.trans hB
  have hu0 := zpow2_pos (-53)
  have ht1 : (2 : ℝ) ^ (-1075 : ℤ) ≤ 2 ^ (-53 : ℤ) * B := by
    refine le_trans ?_ (mul_le_mul_of_nonneg_left hB hu0.le)
    rw [← zpow_add₀ (by norm_num)]
    exact zpow_le_zpow_right₀ (by norm_num) (by norm_num)
  have ht2 : (2 : ℝ) ^ (-1075 : ℤ) ≤ 2 ^ (-53 : ℤ) * B ^ 2 := by
    have h1 := mul_le_mul hB hB (zpow2_pos _).le hB0
    rw [← zpow_add₀ (by norm_num), ← sq] at h1
    refine le_trans ?_ (mul_le_mul_of_nonneg_left h1 hu0.le)
    rw [← zpow_add₀ (by norm_num)]
    exact zpow_le_zpow_right₀ (by norm_num) (by norm_num)
  induction xs with
  | nil =>
    intro k m q T P hk _ _ _ _ _ hq hQ
    simpa [welford] using ⟨hq, hQ⟩
  | cons x xs ih =>
    intro k m q T P hk hl hm hmB hT he hq hQ
    obtain ⟨hx1, hx2⟩ := hx x (by simp)
    simp only [List.length_cons] at hl
    have hk2 : (k : ℝ) ≤ 2 ^ 40 := by
      have : k ≤ 2 ^ 40 := by omega
      exact_mod_cast this
    obtain ⟨r1, r2, r3, r4, r5⟩ := nrm_row (P := P) hu0 (by norm_num) (zpow2_pos (-1075)).le rnd_rel_tiny
      (fun a b ha hb => rnd_rel_sub hb ha) hB0 ht1 ht2 hx1 hm hk hk2 hx2 hmB hT he hq hQ
    have := ih (fun y hy => hx y (by simp [hy])) (k + 1) _ _ (T + x) (P + x ^ 2) (by omega) (by omega) (rnd_isF64 _)
      r1 (by push_cast; exact r2) (by push_cast; exact r3) (by push_cast; exact r4) (by push_cast; exact r5)
    simp only [List.map_cons, List.sum_cons, List.length_cons]
    rw [show k + (xs.length + 1) = k + 1 + xs.length by ring, ← add_assoc P, ← add_assoc T]
    exact this

/-- Sum of the squares of the differences to the mean. -/
noncomputable def squares (xs : List ℝ) : ℝ := (xs.map fun x => (x - xs.sum / xs.length) ^ 2).sum

theorem nrm_squares (xs : List ℝ) (h : xs ≠ []) : squares xs = (xs.map (· ^ 2)).sum - xs.sum ^ 2 / xs.length := by
  have key : ∀ (c : ℝ) (l : List ℝ), (l.map fun x => (x - c) ^ 2).sum = (l.map (· ^ 2)).sum - 2 * c * l.sum + l.length * c ^ 2 := by
    intro c l
    induction l with
    | nil => simp
    | cons a l ih =>
      simp only [List.map_cons, List.sum_cons, List.length_cons, ih]
      push_cast
      ring
  have hn : (xs.length : ℝ) ≠ 0 := by
    have := List.length_pos_iff.2 h
    positivity
  rw [squares, key]
  field_simp
  ring

theorem nrm_welford_all (xs : List ℝ) (B : ℝ) (hB : 2 ^ (-500 : ℤ) ≤ B) (hx : ∀ x ∈ xs, IsF64 x ∧ |x| ≤ B) (h0 : xs ≠ [])
    (hn : xs.length ≤ 2 ^ 40) :
    |welford 0 0 0 xs| ≤ 5 * xs.length * B ^ 2 ∧
      |welford 0 0 0 xs - squares xs| ≤ 62 * (xs.length : ℝ) ^ 2 * (2 ^ (-53 : ℤ) * B ^ 2) := by
  rw [nrm_squares xs h0]
  cases xs with
  | nil => exact absurd rfl h0
  | cons x xs =>
    obtain ⟨h1, h2⟩ := hx x (by simp)
    have hB0 : 0 ≤ B := (zpow2_pos _).le.trans hB
    have hu := (zpow2_pos (-53)).le
    rw [nrm_welford_first _ _ h1]
    simp only [List.length_cons] at hn
    have := nrm_welford_near B hB xs (fun y hy => hx y (by simp [hy])) 1 x 0 x (x ^ 2) le_rfl (by omega) h1 h2
      (by push_cast; linarith) (by
        rw [Nat.cast_one, div_one, sub_self, abs_zero]
        exact mul_nonneg (by norm_num) (mul_nonneg hu hB0))
      (by rw [abs_zero]; positivity) (by
        rw [Nat.cast_one, div_one, sub_self, sub_self, abs_zero]
        exact mul_nonneg (by norm_num) (mul_nonneg hu (sq_nonneg B)))
    simp only [List.map_cons, List.sum_cons, List.length_cons]
    rw [add_comm xs.length 1]
    exact this

/-- The sum of squares is exact up to `n²` units of `2^-47` times the square of the largest value, the values being
neither all below `2^-500` nor more than `2^40`. -/
theorem C156_squares (xs : List ℝ) (B : ℝ) (hB : 2 ^ (-500 : ℤ) ≤ B) (hx : ∀ x ∈ xs, IsF64 x ∧ |x| ≤ B) (h0 : xs ≠ [])
    (hn : xs.length ≤ 2 ^ 40) :
    |welford 0 0 0 xs - squares xs| ≤ (xs.length : ℝ) ^ 2 * 2 ^ (-47 : ℤ) * B ^ 2 := by
  refine (nrm_welford_all xs B hB hx h0 hn).2.trans ?_
  have e : (2 : ℝ) ^ (-47 : ℤ) = 64 * 2 ^ (-53 : ℤ) := by norm_num
  rw [e]
  have : 0 ≤ (xs.length : ℝ) ^ 2 * (2 ^ (-53 : ℤ) * B ^ 2) :=
    mul_nonneg (sq_nonneg _) (mul_nonneg (zpow2_pos _).le (sq_nonneg _))
  linarith

/-- The square of the deviation is the variance of the sample up to `n` units of `2^-45` times the square of the largest value. -/
theorem C156_deviation (xs : List ℝ) (B : ℝ) (hB : 2 ^ (-500 : ℤ) ≤ B) (hx : ∀ x ∈ xs, IsF64 x ∧ |x| ≤ B)
    (h2 : 2 ≤ xs.length) (hn : xs.length ≤ 2 ^ 40) :
    |std xs ^ 2 - squares xs / (xs.length - 1)| ≤ xs.length * 2 ^ (-45 : ℤ) * B ^ 2 := by
  have h0 : xs ≠ [] := by rintro rfl; simp at h2
  obtain ⟨hw, hq⟩ := nrm_welford_all xs B hB hx h0 hn
  have hpos := (C156_scale_pos xs fun x h => (hx x h).1).1
  have hB0 : 0 ≤ B := (zpow2_pos _).le.trans hB
  set u : ℝ := 2 ^ (-53 : ℤ) with hu
  have hu0 : 0 < u := zpow2_pos _
  have hu1 : u ≤ 1 / 1000 := by rw [hu]; norm_num
  have e45 : (2 : ℝ) ^ (-45 : ℤ) = 256 * u := by rw [hu]; norm_num
  have ht1 : (2 : ℝ) ^ (-1075 : ℤ) ≤ u * B := by
    refine le_trans ?_ (mul_le_mul_of_nonneg_left hB hu0.le)
    rw [hu, ← zpow_add₀ (by norm_num)]
    exact zpow_le_zpow_right₀ (by norm_num) (by norm_num)
  have ht2 : (2 : ℝ) ^ (-1075 : ℤ) ≤ u * B ^ 2 := by
    have h1 := mul_le_mul hB hB (zpow2_pos _).le hB0
    rw [← zpow_add₀ (by norm_num), ← sq] at h1
    refine le_trans ?_ (mul_le_mul_of_nonneg_left h1 hu0.le)
    rw [hu, ← zpow_add₀ (by norm_num)]
    exact zpow_le_zpow_right₀ (by norm_num) (by norm_num)
  have hrt : ∀ z : ℝ, |rnd z - z| ≤ u * |z| + 2 ^ (-1075 : ℤ) := rnd_rel_tiny
  rw [e45]
  clear_value u
  generalize (2 : ℝ) ^ (-1075 : ℤ) = t at *
  set n : ℝ := (xs.length : ℝ) with hnd
  have hn2 : (2 : ℝ) ≤ n := by rw [hnd]; exact_mod_cast h2
  have hn1 : 0 < n - 1 := by linarith
  rw [abs_of_nonneg hpos] at hw
  set W := welford 0 0 0 xs with hW
  set v := div W (n - 1) with hv
  have hB2 : 0 ≤ B ^ 2 := sq_nonneg B
  have huB2 : 0 ≤ u * B ^ 2 := mul_nonneg hu0.le hB2
  have huB : 0 ≤ u * B := mul_nonneg hu0.le hB0
  have hWn0 : 0 ≤ W / (n - 1) := div_nonneg hpos hn1.le
  have hWn : W / (n - 1) ≤ 10 * B ^ 2 := by
    rw [div_le_iff₀ hn1]
    have := mul_nonneg hB2 (by linarith : (0 : ℝ) ≤ n - 2)
    linarith
  have v1 : |v - W / (n - 1)| ≤ 11 * (u * B ^ 2) := by
    refine (hrt _).trans ?_
    rw [abs_of_nonneg hWn0]
    have := mul_le_mul_of_nonneg_left hWn hu0.le
    linarith
  have hv0 : 0 ≤ v := rnd_nonneg hWn0
  have hvB : v ≤ 16 * B ^ 2 := by
    have := (abs_le.1 v1).2
    have := mul_le_mul_of_nonneg_right hu1 hB2
    linarith
  have hs : √v ≤ 4 * B := by
    rw [Real.sqrt_le_left (by linarith)]
    linarith
  have hs0 := Real.sqrt_nonneg v
  have hr : |std xs - √v| ≤ 5 * (u * B) := by
    refine (hrt _).trans ?_
    rw [abs_of_nonneg hs0]
    have := mul_le_mul_of_nonneg_left hs hu0.le
    linarith
  have hsum : |std xs + √v| ≤ 9 * B := by
    have e : std xs + √v = (std xs - √v) + 2 * √v := by ring
    rw [e]
    refine (abs_add_le _ _).trans ?_
    rw [abs_of_nonneg (by linarith : 0 ≤ 2 * √v)]
    have := mul_le_mul_of_nonneg_right hu1 hB0
    linarith
  have hsq : |std xs ^ 2 - v| ≤ 45 * (u * B ^ 2) := by
    have e : std xs ^ 2 - v = (std xs - √v) * (std xs + √v) := by
      have := Real.sq_sqrt hv0
      nlinarith
    rw [e, abs_mul]
    have := mul_le_mul hr hsum (abs_nonneg _) (by linarith)
    have e2 : 5 * (u * B) * (9 * B) = 45 * (u * B ^ 2) := by ring
    linarith
  have hQ : |W / (n - 1) - squares xs / (n - 1)| ≤ 124 * (n * (u * B ^ 2)) := by
    rw [← sub_div, abs_div, abs_of_pos hn1, div_le_iff₀ hn1]
    have hnn : 0 ≤ n * (u * B ^ 2) := mul_nonneg (by linarith) huB2
    have := mul_nonneg hnn (by linarith : (0 : ℝ) ≤ n - 2)
    nlinarith
  have e : std xs ^ 2 - squares xs / (n - 1) =
      (std xs ^ 2 - v) + (v - W / (n - 1)) + (W / (n - 1) - squares xs / (n - 1)) := by ring
  rw [e]
  have a1 := abs_add_le ((std xs ^ 2 - v) + (v - W / (n - 1))) (W / (n - 1) - squares xs / (n - 1))
  have a2 := abs_add_le (std xs ^ 2 - v) (v - W / (n - 1))
  have a3 := mul_le_mul_of_nonneg_right hn2 huB2
  have e3 : n * (256 * u) * B ^ 2 = 256 * (n * (u * B ^ 2)) := by ring
  rw [e3]
  linarith

/-- A column whose variance is above that error is divided by its deviation, up to that error. -/
theorem C156_standardized_partial (xs : List ℝ) (B : ℝ) (hB : 2 ^ (-500 : ℤ) ≤ B) (hx : ∀ x ∈ xs, IsF64 x ∧ |x| ≤ B)
    (h2 : 2 ≤ xs.length) (hn : xs.length ≤ 2 ^ 40)
    (hv : xs.length * 2 ^ (-45 : ℤ) * B ^ 2 < squares xs / (xs.length - 1)) :
    |scale xs ^ 2 - squares xs / (xs.length - 1)| ≤ xs.length * 2 ^ (-45 : ℤ) * B ^ 2 := by
  have h := C156_deviation xs B hB hx h2 hn
  have h0 : std xs ≠ 0 := by
    intro h0
    rw [h0] at h
    have h3 := (abs_le.1 h).1
    have e : (0 : ℝ) ^ 2 = 0 := by norm_num
    rw [e] at h3
    generalize (2 : ℝ) ^ (-45 : ℤ) = z at *
    linarith
  rw [scale, if_neg h0]
  exact h

/-- The normalized values of a constant column need not be zero: here they are `-2^k`, for any `k`. -/
theorem C156_refuted_zero_mean (k : ℕ) :
    let c := (3 * 2 ^ 51 + 2 : ℝ) * 2 ^ (k : ℤ)
    IsF64 c ∧ NormF64.normalize [c, c, c] = [-2 ^ (k : ℤ), -2 ^ (k : ℤ), -2 ^ (k : ℤ)] := by
  intro c
  have hp := zpow2_pos (k : ℤ)
  have hc : IsF64 c := by
    refine ⟨3 * 2 ^ 51 + 2, k, by norm_num, by omega, ?_⟩
    simp only [c]
    push_cast
    norm_num
  refine ⟨hc, ?_⟩
  have hs := (C156_constant c hc 3).1
  have hmean : mean [c, c, c] = (3 * 2 ^ 51 + 3 : ℝ) * 2 ^ (k : ℤ) := by
    have s1 : add 0 c = c := by rw [add, zero_add]; exact rnd_of_isF64 hc
    have s2 : add c c = 2 * c := by
      rw [add, ← two_mul]
      refine rnd_of_isF64 ⟨3 * 2 ^ 51 + 2, k + 1, by norm_num, by omega, ?_⟩
      rw [zpow_add₀ (by norm_num)]
      simp only [c]
      push_cast
      rw [zpow_one]
      ring
    have e2 : (2 : ℝ) ^ ((k : ℤ) + 2) = 4 * 2 ^ (k : ℤ) := by rw [zpow_add₀ (by norm_num)]; norm_num; ring
    have s3 : add (2 * c) c = (9 * 2 ^ 51 + 8 : ℝ) * 2 ^ (k : ℤ) := by
      have hv : 2 * c + c = ((9 * 2 ^ 49 + 2 : ℤ) - 1 / 2) * 2 ^ ((k : ℤ) + 2) := by
        rw [e2]; simp only [c]; push_cast; ring
      have hpos : 0 < 2 * c + c := by
        have : 0 < c := mul_pos (by norm_num) hp
        linarith
      rw [add, rnd_tie (n := 9 * 2 ^ 49 + 2) (e := k + 2) (by omega) ?_ ?_ (by decide) (Or.inr hv), e2]
      · push_cast; ring
      · rw [abs_of_pos hpos, hv, zpow_add₀ (by norm_num) ((k : ℤ) + 2) 52, mul_comm]
        refine mul_le_mul_of_nonneg_right ?_ (zpow2_pos _).le
        norm_num
      · rw [abs_of_pos hpos, hv, zpow_add₀ (by norm_num) ((k : ℤ) + 2) 53, mul_comm]
        refine mul_lt_mul_of_pos_left ?_ (zpow2_pos _)
        norm_num
    have hm : mean [c, c, c] = rnd ((9 * 2 ^ 51 + 8 : ℝ) * 2 ^ (k : ℤ) / 3) := by
      simp only [mean, List.foldl_cons, List.foldl_nil, s1, s2, s3, List.length_cons, List.length_nil, div]
      norm_num
    rw [hm]
    have hpos : 0 < (9 * 2 ^ 51 + 8 : ℝ) * 2 ^ (k : ℤ) / 3 := by positivity
    rw [rnd_eq (n := 3 * 2 ^ 51 + 3) (e := k) (by omega) ?_ ?_ ?_]
    · push_cast; ring
    · rw [abs_of_pos hpos, zpow_add₀ (by norm_num)]
      generalize (2 : ℝ) ^ (k : ℤ) = q at *
      norm_num
      linarith
    · rw [abs_of_pos hpos, zpow_add₀ (by norm_num)]
      generalize (2 : ℝ) ^ (k : ℤ) = q at *
      norm_num
      linarith
    · push_cast
      generalize (2 : ℝ) ^ (k : ℤ) = q at *
      rw [abs_lt]
      constructor <;> linarith
  have hs' : scale [c, c, c] = 1 := hs
  have hcen : center (mean [c, c, c]) (scale [c, c, c]) c = -2 ^ (k : ℤ) := by
    have hf : IsF64 (-(2 : ℝ) ^ (k : ℤ)) := isF64_neg (isF64_zpow (by omega))
    rw [hs', hmean, center, div, sub, show c - (3 * 2 ^ 51 + 3 : ℝ) * 2 ^ (k : ℤ) = -2 ^ (k : ℤ) by simp only [c]; ring,
      rnd_of_isF64 hf, div_one, rnd_of_isF64 hf]
  simp only [NormF64.normalize, List.map_cons, List.map_nil, hcen]

/-- Distinct rows with the same normalized value in an ordinary column. -/
theorem C156_refuted_merged_rows :
    (0 : ℝ) ≠ 2 ^ (-60 : ℤ) ∧
      ∃ v w, NormF64.normalize [0, 2 ^ (-60 : ℤ), 1] = [v, v, w] := by
  refine ⟨(zpow2_pos _).ne, ?_⟩
  refine ⟨center (mean [0, 2 ^ (-60 : ℤ), 1]) (scale [0, 2 ^ (-60 : ℤ), 1]) 0,
    center (mean [0, 2 ^ (-60 : ℤ), 1]) (scale [0, 2 ^ (-60 : ℤ), 1]) 1, ?_⟩
  simp only [NormF64.normalize, List.map_cons, List.map_nil]
  congr 2
  apply C156_refuted_merge
  · exact rnd_isF64 _
  have hm : 1 / 4 ≤ mean [0, 2 ^ (-60 : ℤ), 1] := by
    simp only [mean, List.foldl_cons, List.foldl_nil, List.length_cons, List.length_nil, add, div]
    have h1 : (0 : ℝ) ≤ rnd (rnd (0 + 0) + 2 ^ (-60 : ℤ)) := by
      rw [add_zero, rnd_zero, zero_add]
      exact rnd_nonneg (zpow2_pos _).le
    have h2 : 1 ≤ rnd (rnd (rnd (0 + 0) + 2 ^ (-60 : ℤ)) + 1) :=
      le_rnd (by simpa using isF64_zpow (e := 0) (by norm_num)) (by linarith)
    refine le_rnd ?_ ?_
    · have := isF64_zpow (e := -2) (by norm_num)
      norm_num at this ⊢
      exact this
    · generalize rnd (rnd (rnd (0 + 0) + 2 ^ (-60 : ℤ)) + 1) = z at *
      norm_num
      linarith
  rw [abs_of_pos (zpow2_pos _), abs_of_nonneg (le_trans (by norm_num) hm)]
  have : (2 : ℝ) ^ (-55 : ℤ) * (1 / 4) ≤ 2 ^ (-55 : ℤ) * mean [0, 2 ^ (-60 : ℤ), 1] :=
    mul_le_mul_of_nonneg_left hm (zpow2_pos _).le
  refine lt_of_lt_of_le ?_ this
  norm_num

/-! ## Examples -/

/-- Two rows 0 and 2: the mean is 1. -/
example : mean [0, 2] = 1 ∧ welford 0 0 0 [0, 2] = 2 := by
  have h1 : IsF64 (1 : ℝ) := by simpa using isF64_zpow (e := 0) (by norm_num)
  have h2 : IsF64 (2 : ℝ) := by simpa using isF64_zpow (e := 1) (by norm_num)
  constructor
  · simp [mean, add, div, rnd_zero, rnd_of_isF64 h2, rnd_of_isF64 h1]
  · rw [nrm_welford_first _ _ isF64_zero]
    simp only [welford, sub, add, div]
    norm_num
    rw [rnd_of_isF64 h2, div_self (by norm_num), rnd_of_isF64 h1, rnd_of_isF64 h1]
    norm_num
    rw [rnd_of_isF64 h1, one_mul, rnd_of_isF64 h2]

/-- A column of small values which is not constant. -/
example : ∀ x ∈ [(0 : ℝ), 2 ^ (-541 : ℤ)], IsF64 x ∧ |x| ≤ 2 ^ (-540 : ℤ) := by
  intro x hx
  simp only [List.mem_cons, List.not_mem_nil, or_false] at hx
  rcases hx with rfl | rfl
  · exact ⟨isF64_zero, by rw [abs_zero]; exact (zpow2_pos _).le⟩
  · exact ⟨isF64_zpow (by norm_num), by
      rw [abs_of_pos (zpow2_pos _)]; exact zpow_le_zpow_right₀ (by norm_num) (by norm_num)⟩

/-- The column 0, 2 meets the conditions on the deviation, with `B = 2`; the variance is 2. -/
example : |std [0, 2] ^ 2 - 2| ≤ 2 ^ (-42 : ℤ) := by
  have h2 : IsF64 (2 : ℝ) := by simpa using isF64_zpow (e := 1) (by norm_num)
  have := C156_deviation [0, 2] 2 (le_trans (zpow_le_one_of_nonpos₀ (by norm_num) (by norm_num)) (by norm_num))
    (by
      intro x hx
      simp only [List.mem_cons, List.not_mem_nil, or_false] at hx
      rcases hx with rfl | rfl
      · exact ⟨isF64_zero, by norm_num⟩
      · exact ⟨h2, by norm_num⟩) (by simp) (by norm_num)
  have e : squares [0, 2] / (([0, 2] : List ℝ).length - 1) = 2 := by
    simp [squares]
    norm_num
  rw [e] at this
  refine this.trans ?_
  norm_num

end Verif.Props
