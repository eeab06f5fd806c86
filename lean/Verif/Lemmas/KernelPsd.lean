import Mathlib.Analysis.Matrix.Order
import Mathlib.Analysis.SpecialFunctions.Gamma.Basic
import Mathlib.Analysis.SpecialFunctions.Gaussian.GaussianIntegral
import Mathlib.MeasureTheory.Group.Integral
import Mathlib.Algebra.Order.Star.Real
import Mathlib.Topology.Algebra.InfiniteSum.Order
import Verif.Props.Kernels

/-!
# The correlation models are positive semidefinite functions

The squared exponential by its power series, the others as integrals of products: with `g s = s ^ p * exp (-s)` for
positive `s`, the integral of `g (x - u) * g (y - u)` over `u` is, up to a constant, the absolute exponential
(`p = 0`), the Matern 3/2 (`p = 1`) and the Matern 5/2 (`p = 2`) function of `x - y`.
-/

set_option autoImplicit false

namespace Verif.Kernels

open Matrix MeasureTheory Real

variable {ι : Type} [Fintype ι]

/-- A symmetric matrix with a non negative quadratic form. -/
theorem psd_of_quad (M : Matrix (ι) (ι) ℝ) (hs : ∀ i j, M i j = M j i)
    (h : ∀ c : ι → ℝ, 0 ≤ ∑ i, ∑ j, c i * c j * M i j) : M.PosSemidef := by
  refine Matrix.PosSemidef.of_dotProduct_mulVec_nonneg ?_ fun c => ?_
  · ext i j
    simp [Matrix.conjTranspose_apply, hs i j]
  · have := h c
    simp only [dotProduct, Matrix.mulVec, star_trivial, Finset.mul_sum]
    calc (0 : ℝ) ≤ _ := this
      _ = _ := Finset.sum_congr rfl fun i _ => Finset.sum_congr rfl fun j _ => by ring

/-- A product of functions of one point. -/
theorem psd_rank_one (v : ι → ℝ) : (Matrix.of fun i j => v i * v j : Matrix (ι) (ι) ℝ).PosSemidef := by
  refine psd_of_quad _ (fun i j => mul_comm _ _) fun c => ?_
  have : ∑ i, ∑ j, c i * c j * (Matrix.of fun i j => v i * v j : Matrix (ι) (ι) ℝ) i j =
      (∑ i, c i * v i) * (∑ j, c j * v j) := by
    rw [Finset.sum_mul_sum]
    exact Finset.sum_congr rfl fun i _ => Finset.sum_congr rfl fun j _ => by simp only [Matrix.of_apply]; ring
  rw [this]
  exact mul_self_nonneg _

/-- Schur: the product of positive semidefinite functions. -/
theorem psd_prod {κ : Type} (s : Finset κ) (M : κ → Matrix (ι) (ι) ℝ) (h : ∀ k ∈ s, (M k).PosSemidef) :
    (Matrix.of fun i j => ∏ k ∈ s, M k i j : Matrix (ι) (ι) ℝ).PosSemidef := by
  classical
  induction s using Finset.induction_on with
  | empty =>
    have := psd_rank_one (fun _ : ι => (1 : ℝ))
    simpa using this
  | insert a s ha ih =>
    have h1 := (h a (Finset.mem_insert_self _ _)).hadamard (ih fun k hk => h k (Finset.mem_insert_of_mem hk))
    have e : (Matrix.of fun i j => ∏ k ∈ insert a s, M k i j : Matrix (ι) (ι) ℝ) =
        M a ⊙ Matrix.of fun i j => ∏ k ∈ s, M k i j := by
      funext i j
      simp [Matrix.hadamard_apply, Finset.prod_insert ha]
    rw [e]; exact h1

/-- The exponential of a product. -/
theorem psd_exp_mul (v : ι → ℝ) : (Matrix.of fun i j => rexp (v i * v j) : Matrix (ι) (ι) ℝ).PosSemidef := by
  refine psd_of_quad _ (fun i j => by simp [mul_comm]) fun c => ?_
  have h1 : HasSum (fun k : ℕ => ∑ i, ∑ j, c i * c j * ((v i * v j) ^ k / k.factorial))
      (∑ i, ∑ j, c i * c j * rexp (v i * v j)) := by
    refine hasSum_sum fun i _ => hasSum_sum fun j _ => ?_
    refine HasSum.mul_left _ ?_
    have := NormedSpace.expSeries_div_hasSum_exp (𝔸 := ℝ) (v i * v j)
    rwa [← Real.exp_eq_exp_ℝ] at this
  refine h1.nonneg fun k => ?_
  have : ∑ i, ∑ j, c i * c j * ((v i * v j) ^ k / k.factorial) =
      (∑ i, c i * v i ^ k) * (∑ j, c j * v j ^ k) / k.factorial := by
    rw [Finset.sum_mul_sum, Finset.sum_div]
    refine Finset.sum_congr rfl fun i _ => ?_
    rw [Finset.sum_div]
    exact Finset.sum_congr rfl fun j _ => by rw [mul_pow]; ring
  rw [this]
  exact div_nonneg (mul_self_nonneg _) (by positivity)

/-- One component of the squared exponential. -/
theorem psd_se (a : ℝ) (ha : 0 ≤ a) (x : ι → ℝ) :
    (Matrix.of fun i j => rexp (-0.5 * ((x i - x j) ^ 2 * a)) : Matrix (ι) (ι) ℝ).PosSemidef := by
  have h := (psd_rank_one fun i => rexp (-0.5 * (x i ^ 2 * a))).hadamard (psd_exp_mul fun i => √a * x i)
  refine (congrArg Matrix.PosSemidef ?_).mp h
  funext i j
  simp only [Matrix.hadamard_apply, Matrix.of_apply, ← Real.exp_add]
  congr 1
  have := Real.mul_self_sqrt ha
  linear_combination (x i * x j) * this

/-- The function whose translates are multiplied. -/
noncomputable def bump (p : ℕ) (s : ℝ) : ℝ := Set.indicator (Set.Ioi 0) (fun s => s ^ p * rexp (-s)) s

theorem moment (k : ℕ) : IntegrableOn (fun v : ℝ => v ^ k * rexp (-(2 * v))) (Set.Ioi 0) ∧
    ∫ v in Set.Ioi (0 : ℝ), v ^ k * rexp (-(2 * v)) = k.factorial / 2 ^ (k + 1) := by
  have e : ∀ v ∈ Set.Ioi (0 : ℝ), v ^ ((k + 1 : ℝ) - 1) * rexp (-(2 * v)) = v ^ k * rexp (-(2 * v)) := by
    intro v _
    rw [add_sub_cancel_right, Real.rpow_natCast]
  constructor
  · have := integrableOn_rpow_mul_exp_neg_mul_rpow (p := 1) (s := k) (b := 2) (by
      have : (0 : ℝ) ≤ k := Nat.cast_nonneg k
      linarith) one_pos two_pos
    refine this.congr_fun (fun v _ => ?_) measurableSet_Ioi
    simp only [Real.rpow_natCast, Real.rpow_one]
    ring_nf
  · have := Real.integral_rpow_mul_exp_neg_mul_Ioi (a := (k + 1 : ℝ)) (r := 2) (by positivity) two_pos
    rw [setIntegral_congr_fun measurableSet_Ioi e] at this
    rw [this, Real.Gamma_nat_eq_factorial, show ((k : ℝ) + 1) = ((k + 1 : ℕ) : ℝ) by push_cast; rfl,
      Real.rpow_natCast]
    rw [one_div, inv_pow]; field_simp

/-- The three functions. -/
noncomputable def matern : ℕ → ℝ → ℝ
  | 0, t => rexp (-t) / 2
  | 1, t => (1 + t) * rexp (-t) / 4
  | _, t => 3 / 4 * (1 + t + t ^ 2 / 3) * rexp (-t)

/-- Product of the function and of a translate. -/
theorem bump_mul (p : ℕ) (D : ℝ) (hD : 0 ≤ D) (v : ℝ) :
    bump p v * bump p (v + D) =
      Set.indicator (Set.Ioi 0) (fun v => rexp (-D) * (v ^ p * (v + D) ^ p * rexp (-(2 * v)))) v := by
  unfold bump
  by_cases hv : v ∈ Set.Ioi (0 : ℝ)
  · have hv' : v + D ∈ Set.Ioi (0 : ℝ) := by
      have : (0 : ℝ) < v := hv
      show (0 : ℝ) < v + D
      linarith
    rw [Set.indicator_of_mem hv, Set.indicator_of_mem hv', Set.indicator_of_mem hv]
    have : rexp (-(v + D)) * rexp (-v) = rexp (-D) * rexp (-(2 * v)) := by
      rw [← Real.exp_add, ← Real.exp_add]; congr 1; ring
    linear_combination (v ^ p * (v + D) ^ p) * this
  · rw [Set.indicator_of_notMem hv, Set.indicator_of_notMem hv, zero_mul]

theorem bump_integral (p : ℕ) (hp : p ≤ 2) (D : ℝ) (hD : 0 ≤ D) :
    Integrable (fun v => bump p v * bump p (v + D)) ∧ ∫ v, bump p v * bump p (v + D) = matern p D := by
  have e : (fun v => bump p v * bump p (v + D)) =
      Set.indicator (Set.Ioi 0) (fun v => rexp (-D) * (v ^ p * (v + D) ^ p * rexp (-(2 * v)))) :=
    funext (bump_mul p D hD)
  rw [e, integrable_indicator_iff measurableSet_Ioi, integral_indicator measurableSet_Ioi]
  obtain ⟨i0, m0⟩ := moment 0
  obtain ⟨i1, m1⟩ := moment 1
  obtain ⟨i2, m2⟩ := moment 2
  obtain ⟨i3, m3⟩ := moment 3
  obtain ⟨i4, m4⟩ := moment 4
  interval_cases p
  · have e : (fun v : ℝ => rexp (-D) * (v ^ 0 * (v + D) ^ 0 * rexp (-(2 * v)))) =
        fun v => rexp (-D) * (v ^ 0 * rexp (-(2 * v))) := by funext v; ring
    rw [e]
    refine ⟨i0.const_mul _, ?_⟩
    rw [integral_const_mul, m0]
    simp [matern, Nat.factorial]; ring
  · have e : (fun v : ℝ => rexp (-D) * (v ^ 1 * (v + D) ^ 1 * rexp (-(2 * v)))) =
        fun v => rexp (-D) * (v ^ 2 * rexp (-(2 * v)) + D * (v ^ 1 * rexp (-(2 * v)))) := by funext v; ring
    rw [e]
    refine ⟨(i2.add (i1.const_mul _)).const_mul _, ?_⟩
    rw [integral_const_mul, integral_add i2 (i1.const_mul _), integral_const_mul, m1, m2]
    simp [matern, Nat.factorial]; ring
  · have e : (fun v : ℝ => rexp (-D) * (v ^ 2 * (v + D) ^ 2 * rexp (-(2 * v)))) =
        fun v => rexp (-D) * (v ^ 4 * rexp (-(2 * v)) + (2 * D * (v ^ 3 * rexp (-(2 * v))) +
          D ^ 2 * (v ^ 2 * rexp (-(2 * v))))) := by funext v; ring
    rw [e]
    refine ⟨(i4.add ((i3.const_mul _).add (i2.const_mul _))).const_mul _, ?_⟩
    have i5 : IntegrableOn (fun v : ℝ => 2 * D * (v ^ 3 * rexp (-(2 * v))) + D ^ 2 * (v ^ 2 * rexp (-(2 * v))))
        (Set.Ioi 0) := (i3.const_mul _).add (i2.const_mul _)
    rw [integral_const_mul, integral_add i4 i5,
      integral_add (i3.const_mul _) (i2.const_mul _), integral_const_mul, integral_const_mul, m2, m3, m4]
    simp [matern, Nat.factorial]; ring

theorem bump_pair (p : ℕ) (hp : p ≤ 2) (x y : ℝ) :
    Integrable (fun u => bump p (x - u) * bump p (y - u)) ∧
      ∫ u, bump p (x - u) * bump p (y - u) = matern p |x - y| := by
  wlog h : x ≤ y generalizing x y with H
  · have := H y x (le_of_not_ge h)
    rw [abs_sub_comm] at this
    simpa only [mul_comm] using this
  obtain ⟨h1, h2⟩ := bump_integral p hp (y - x) (sub_nonneg.2 h)
  have e : (fun u => bump p (x - u) * bump p (y - u)) =
      fun u => (fun v => bump p v * bump p (v + (y - x))) (x - u) := by
    funext u
    have : x - u + (y - x) = y - u := by ring
    simp only [this]
  rw [e]
  refine ⟨h1.comp_sub_left x, ?_⟩
  rw [integral_sub_left_eq_self (fun v => bump p v * bump p (v + (y - x))) volume x, h2, abs_sub_comm,
    abs_of_nonneg (sub_nonneg.2 h)]

/-- The three functions of a difference are positive semidefinite. -/
theorem psd_matern (p : ℕ) (hp : p ≤ 2) (x : ι → ℝ) :
    (Matrix.of fun i j => matern p |x i - x j| : Matrix (ι) (ι) ℝ).PosSemidef := by
  refine psd_of_quad _ (fun i j => by simp [abs_sub_comm]) fun c => ?_
  have h1 : ∑ i, ∑ j, c i * c j * matern p |x i - x j| =
      ∫ u, ∑ i, ∑ j, c i * c j * (bump p (x i - u) * bump p (x j - u)) := by
    rw [integral_finsetSum _ fun i _ => integrable_finsetSum _ fun j _ => (bump_pair p hp _ _).1.const_mul _]
    refine Finset.sum_congr rfl fun i _ => ?_
    rw [integral_finsetSum _ fun j _ => (bump_pair p hp _ _).1.const_mul _]
    refine Finset.sum_congr rfl fun j _ => ?_
    rw [integral_const_mul, (bump_pair p hp _ _).2]
  simp only [Matrix.of_apply]
  rw [h1]
  refine integral_nonneg fun u => ?_
  have : ∑ i, ∑ j, c i * c j * (bump p (x i - u) * bump p (x j - u)) =
      (∑ i, c i * bump p (x i - u)) * ∑ j, c j * bump p (x j - u) := by
    rw [Finset.sum_mul_sum]
    exact Finset.sum_congr rfl fun i _ => Finset.sum_congr rfl fun j _ => by ring
  show 0 ≤ ∑ i, ∑ j, c i * c j * (bump p (x i - u) * bump p (x j - u))
  rw [this]
  exact mul_self_nonneg _

/-- One-dimensional correlations are positive semidefinite. -/
theorem psd_corr1 (k : Kernel) (a : ℝ) (ha : 0 ≤ a) (x : ι → ℝ) :
    (Matrix.of fun i j => Spec.corr1 k (a * |x i - x j|) : Matrix ι ι ℝ).PosSemidef := by
  have scale : ∀ b : ℝ, 0 ≤ b → ∀ i j, |b * x i - b * x j| = b * |x i - x j| := by
    intro b hb i j
    rw [← mul_sub, abs_mul, abs_of_nonneg hb]
  cases k with
  | squaredExponential =>
    refine (congrArg Matrix.PosSemidef ?_).mp (psd_se (a ^ 2) (sq_nonneg a) x)
    funext i j
    simp only [Matrix.of_apply, Spec.corr1]
    rw [mul_pow, sq_abs]
    congr 1
    ring
  | absoluteExponential =>
    refine (congrArg Matrix.PosSemidef ?_).mp ((psd_matern 0 (by norm_num) fun i => a * x i).smul (zero_le_two (α := ℝ)))
    funext i j
    simp only [Matrix.of_apply, Spec.corr1, Matrix.smul_apply, scale a ha, matern, smul_eq_mul]
    ring
  | matern32 =>
    have h3 : 0 ≤ √3 * a := by positivity
    refine (congrArg Matrix.PosSemidef ?_).mp
      ((psd_matern 1 (by norm_num) fun i => √3 * a * x i).smul (zero_le_four (α := ℝ)))
    funext i j
    simp only [Matrix.of_apply, Spec.corr1, Matrix.smul_apply, scale _ h3, matern, smul_eq_mul]
    rw [show -√3 * (a * |x i - x j|) = -(√3 * a * |x i - x j|) by ring]
    ring
  | matern52 =>
    have h5 : 0 ≤ √5 * a := by positivity
    refine (congrArg Matrix.PosSemidef ?_).mp
      ((psd_matern 2 le_rfl fun i => √5 * a * x i).smul (show (0 : ℝ) ≤ 4 / 3 by norm_num))
    funext i j
    simp only [Matrix.of_apply, Spec.corr1, Matrix.smul_apply, scale _ h5, matern, smul_eq_mul]
    have hs : (√5) ^ 2 = 5 := Real.sq_sqrt (by norm_num)
    rw [show -√5 * (a * |x i - x j|) = -(√5 * a * |x i - x j|) by ring]
    have : (√5 * a * |x i - x j|) ^ 2 = 5 * (a * |x i - x j|) ^ 2 := by
      rw [mul_assoc, mul_pow, hs]
    rw [this]
    ring

/-- The correlations of any points. -/
theorem psd_kernel {n h : ℕ} (k : Kernel) (θ : Fin h → ℝ) (hθ : ∀ l, 0 ≤ θ l) (w : Fin n → Fin h → ℝ)
    (x : ι → Fin n → ℝ) :
    (Matrix.of fun i j => k.value θ w (x i - x j) : Matrix ι ι ℝ).PosSemidef := by
  have h1 : ∀ j ∈ (Finset.univ : Finset (Fin n)), (Matrix.of fun a b =>
      ∏ l ∈ (Finset.univ : Finset (Fin h)), Spec.corr1 k (θ l * |w j l| * |x a j - x b j|) :
        Matrix ι ι ℝ).PosSemidef := fun j _ =>
    psd_prod Finset.univ (fun l => Matrix.of fun a b => Spec.corr1 k (θ l * |w j l| * |x a j - x b j|))
      fun l _ => psd_corr1 k _ (mul_nonneg (hθ l) (abs_nonneg _)) fun a => x a j
  refine (congrArg Matrix.PosSemidef ?_).mp (psd_prod Finset.univ _ h1)
  funext a b
  simp only [Matrix.of_apply, Props.C40_documented, Spec.corr, Pi.sub_apply]

end Verif.Kernels
