import Verif.Props.Sparse
import Verif.Props.Kernels
import Mathlib.Analysis.Calculus.MeanValue
import Mathlib.Analysis.Calculus.Deriv.Pow
import Mathlib.Analysis.SpecialFunctions.Pow.Real

/-!
# C110: gradients of sparse Gaussian processes by central differences
-/

set_option autoImplicit false

namespace Verif.Props

open Matrix Kernels Sparse Spec Real Filter Topology

variable {n m d h : ℕ}

/-! ## Error of a central difference -/

/-- Bound of a function from a bound of its derivative, on `[0, ∞)`. -/
theorem bound_of_deriv {f f' B B' : ℝ → ℝ} (h0 : f 0 = 0) (hB0 : B 0 = 0) (hf : ∀ s, HasDerivAt f (f' s) s)
    (hB : ∀ s, HasDerivAt B (B' s) s) (hb : ∀ s, 0 ≤ s → |f' s| ≤ B' s) : ∀ s, 0 ≤ s → |f s| ≤ B s := by
  intro s hs
  have := image_norm_le_of_norm_deriv_right_le_deriv_boundary (f := f) (a := 0) (b := s) (f' := f')
    (fun u _ => (hf u).continuousAt.continuousWithinAt) (fun u _ => (hf u).hasDerivWithinAt) (by simp [h0, hB0]) hB
    (fun u hu => by simpa using hb u hu.1) (x := s) ⟨hs, le_rfl⟩
  simpa using this

/-- A central difference differs from the derivative by at most the bound of the third derivative times the square
of the step, divided by six. -/
theorem central_diff_error {g g1 g2 g3 : ℝ → ℝ} {t ε M : ℝ} (hε : 0 < ε) (h1 : ∀ s, HasDerivAt g (g1 s) s)
    (h2 : ∀ s, HasDerivAt g1 (g2 s) s) (h3 : ∀ s, HasDerivAt g2 (g3 s) s) (hM : ∀ s, |g3 s| ≤ M) :
    |(g (t + ε) - g (t - ε)) / (2 * ε) - g1 t| ≤ M * ε ^ 2 / 6 := by
  have hp : ∀ {F F' : ℝ → ℝ}, (∀ s, HasDerivAt F (F' s) s) → ∀ s, HasDerivAt (fun s => F (t + s)) (F' (t + s)) s := by
    intro F F' hF s
    exact (hF (t + s)).comp_const_add t s
  have hm : ∀ {F F' : ℝ → ℝ}, (∀ s, HasDerivAt F (F' s) s) → ∀ s, HasDerivAt (fun s => F (t - s)) (-F' (t - s)) s := by
    intro F F' hF s
    exact (hF (t - s)).comp_const_sub t s
  have b2 : ∀ s, 0 ≤ s → |g2 (t + s) - g2 (t - s)| ≤ 2 * M * s :=
    bound_of_deriv (f' := fun s => g3 (t + s) - -g3 (t - s)) (B' := fun _ => 2 * M) (by simp) (by simp)
      (fun s => (hp h3 s).sub (hm h3 s)) (fun s => by simpa using (hasDerivAt_id s).const_mul (2 * M))
      (fun s _ => by
        have a1 := abs_le.1 (hM (t + s))
        have a2 := abs_le.1 (hM (t - s))
        rw [abs_le]
        constructor <;> linarith [a1.1, a1.2, a2.1, a2.2])
  have b1 : ∀ s, 0 ≤ s → |g1 (t + s) + g1 (t - s) - 2 * g1 t| ≤ M * s ^ 2 :=
    bound_of_deriv (f' := fun s => g2 (t + s) + -g2 (t - s)) (B' := fun s => 2 * M * s) (by simp; ring) (by simp)
      (fun s => ((hp h2 s).add (hm h2 s)).sub_const _)
      (fun s => by
        have := (hasDerivAt_pow 2 s).const_mul M
        refine this.congr_deriv ?_
        simp; ring)
      (fun s hs => by simpa [sub_eq_add_neg] using b2 s hs)
  have b0 : ∀ s, 0 ≤ s → |g (t + s) - g (t - s) - 2 * g1 t * s| ≤ M * s ^ 3 / 3 :=
    bound_of_deriv (f' := fun s => g1 (t + s) - -g1 (t - s) - 2 * g1 t) (B' := fun s => M * s ^ 2) (by simp) (by simp)
      (fun s => ((hp h1 s).sub (hm h1 s)).sub (by simpa using (hasDerivAt_id s).const_mul (2 * g1 t)))
      (fun s => by
        have := ((hasDerivAt_pow 3 s).const_mul M).div_const 3
        refine this.congr_deriv ?_
        simp; ring)
      (fun s hs => by simpa [sub_eq_add_neg] using b1 s hs)
  have hb := b0 ε hε.le
  have e : (g (t + ε) - g (t - ε)) / (2 * ε) - g1 t = (g (t + ε) - g (t - ε) - 2 * g1 t * ε) / (2 * ε) := by
    field_simp
  rw [e, abs_div, abs_of_pos (by positivity : (0 : ℝ) < 2 * ε), div_le_iff₀ (by positivity)]
  refine hb.trans (le_of_eq ?_)
  ring

/-! ## Squared exponential along one component -/

/-- Gaussian bump. -/
noncomputable def bump (τ c t : ℝ) : ℝ := rexp (-(τ / 2 * (t - c) ^ 2))

theorem bump_nonneg (τ c t : ℝ) : 0 ≤ bump τ c t := (exp_pos _).le

theorem bump_d1 (τ c s : ℝ) : HasDerivAt (bump τ c) (-(τ * (s - c)) * bump τ c s) s := by
  have h := ((((hasDerivAt_id s).sub_const c).pow 2).const_mul (τ / 2)).neg.exp
  refine h.congr_deriv ?_
  simp [bump]; ring

theorem bump_d2 (τ c s : ℝ) : HasDerivAt (fun s => -(τ * (s - c)) * bump τ c s)
    ((τ ^ 2 * (s - c) ^ 2 - τ) * bump τ c s) s := by
  have h := (((hasDerivAt_id s).sub_const c).const_mul τ).neg.mul (bump_d1 τ c s)
  refine h.congr_deriv ?_
  simp; ring

theorem bump_d3 (τ c s : ℝ) : HasDerivAt (fun s => (τ ^ 2 * (s - c) ^ 2 - τ) * bump τ c s)
    ((3 * τ ^ 2 * (s - c) - τ ^ 3 * (s - c) ^ 3) * bump τ c s) s := by
  have h := (((((hasDerivAt_id s).sub_const c).pow 2).const_mul (τ ^ 2)).sub_const τ).mul (bump_d1 τ c s)
  refine h.congr_deriv ?_
  simp; ring

theorem bump_d3_le (τ c s : ℝ) (hτ : 0 ≤ τ) :
    |(3 * τ ^ 2 * (s - c) - τ ^ 3 * (s - c) ^ 3) * bump τ c s| ≤ 2 * (τ * √τ) := by
  set r := √τ with hr
  have hr0 : 0 ≤ r := sqrt_nonneg _
  have hrr : r ^ 2 = τ := sq_sqrt hτ
  set v := r * |s - c| with hv
  have hv0 : 0 ≤ v := by positivity
  have hsc : τ * (s - c) ^ 2 = v ^ 2 := by rw [hv, mul_pow, hrr, sq_abs]
  have e : |3 * τ ^ 2 * (s - c) - τ ^ 3 * (s - c) ^ 3| = τ * r * |3 * v - v ^ 3| := by
    have e1 : 3 * τ ^ 2 * (s - c) - τ ^ 3 * (s - c) ^ 3 = τ ^ 2 * (s - c) * (3 - v ^ 2) := by rw [← hsc]; ring
    have e2 : 3 * v - v ^ 3 = r * |s - c| * (3 - v ^ 2) := by rw [hv]; ring
    rw [e1, e2, abs_mul, abs_mul, abs_mul, abs_mul, abs_abs, abs_of_nonneg hr0, abs_of_nonneg (by positivity : 0 ≤ τ ^ 2)]
    rw [show τ ^ 2 = τ * r ^ 2 by rw [hrr]; ring]
    ring
  have hexp : bump τ c s = (rexp (v ^ 2 / 2))⁻¹ := by
    rw [bump, ← exp_neg, ← hsc]; congr 1; ring
  have hge : 1 + v ^ 2 / 2 + (v ^ 2 / 2) ^ 2 / 2 ≤ rexp (v ^ 2 / 2) := Real.quadratic_le_exp_of_nonneg (by positivity)
  have hpoly : |3 * v - v ^ 3| ≤ 2 * (1 + v ^ 2 / 2 + (v ^ 2 / 2) ^ 2 / 2) := by
    rw [abs_le]
    constructor
    · nlinarith [sq_nonneg (v * (v / 2 - 1)), hv0]
    · nlinarith [sq_nonneg (v - 1), sq_nonneg (v ^ 2), mul_nonneg hv0 (sq_nonneg (v - 1))]
  rw [abs_mul, e, abs_of_nonneg (bump_nonneg τ c s), hexp, mul_assoc]
  have hle : |3 * v - v ^ 3| * (rexp (v ^ 2 / 2))⁻¹ ≤ 2 := by
    rw [← div_eq_mul_inv, div_le_iff₀ (exp_pos _)]
    linarith
  calc τ * r * (|3 * v - v ^ 3| * (rexp (v ^ 2 / 2))⁻¹) ≤ τ * r * 2 := by gcongr
    _ = 2 * (τ * r) := by ring

/-- Central difference of a combination of bumps. -/
theorem bumps_error {ι : Type} [Fintype ι] (a τ c : ι → ℝ) (T : ℝ) (hτ : ∀ i, 0 ≤ τ i) (hT : ∀ i, τ i ≤ T) (k t ε : ℝ) (hε : 0 < ε) :
    DifferentiableAt ℝ (fun s => k + ∑ i, a i * bump (τ i) (c i) s) t ∧
    |((k + ∑ i, a i * bump (τ i) (c i) (t + ε)) - (k + ∑ i, a i * bump (τ i) (c i) (t - ε))) / (2 * ε) -
      deriv (fun s => k + ∑ i, a i * bump (τ i) (c i) s) t| ≤ ε ^ 2 / 3 * ((∑ i, |a i|) * (T * √T)) := by
  have h1 : ∀ s, HasDerivAt (fun s => k + ∑ i, a i * bump (τ i) (c i) s)
      (∑ i, a i * (-(τ i * (s - c i)) * bump (τ i) (c i) s)) s := fun s =>
    (HasDerivAt.fun_sum fun i _ => (bump_d1 (τ i) (c i) s).const_mul (a i)).const_add k
  have h2 : ∀ s, HasDerivAt (fun s => ∑ i, a i * (-(τ i * (s - c i)) * bump (τ i) (c i) s))
      (∑ i, a i * ((τ i ^ 2 * (s - c i) ^ 2 - τ i) * bump (τ i) (c i) s)) s := fun s =>
    HasDerivAt.fun_sum fun i _ => (bump_d2 (τ i) (c i) s).const_mul (a i)
  have h3 : ∀ s, HasDerivAt (fun s => ∑ i, a i * ((τ i ^ 2 * (s - c i) ^ 2 - τ i) * bump (τ i) (c i) s))
      (∑ i, a i * ((3 * τ i ^ 2 * (s - c i) - τ i ^ 3 * (s - c i) ^ 3) * bump (τ i) (c i) s)) s := fun s =>
    HasDerivAt.fun_sum fun i _ => (bump_d3 (τ i) (c i) s).const_mul (a i)
  have hM : ∀ s, |∑ i, a i * ((3 * τ i ^ 2 * (s - c i) - τ i ^ 3 * (s - c i) ^ 3) * bump (τ i) (c i) s)| ≤
      2 * ((∑ i, |a i|) * (T * √T)) := by
    intro s
    refine (Finset.abs_sum_le_sum_abs _ _).trans ?_
    rw [Finset.sum_mul, Finset.mul_sum]
    refine Finset.sum_le_sum fun i _ => ?_
    rw [abs_mul]
    have hb := bump_d3_le (τ i) (c i) s (hτ i)
    have hTT : τ i * √(τ i) ≤ T * √T := mul_le_mul (hT i) (sqrt_le_sqrt (hT i)) (sqrt_nonneg _) ((hτ i).trans (hT i))
    calc |a i| * _ ≤ |a i| * (2 * (T * √T)) := by
          refine mul_le_mul_of_nonneg_left (hb.trans ?_) (abs_nonneg _)
          linarith
      _ = 2 * (|a i| * (T * √T)) := by ring
  refine ⟨(h1 t).differentiableAt, ?_⟩
  rw [(h1 t).deriv]
  refine (central_diff_error hε h1 h2 h3 hM).trans (le_of_eq ?_)
  ring

/-- Squared inverse length scale of the squared exponential along component `j`. -/
noncomputable def inverseScale (θ : Fin h → ℝ) (w : Fin d → Fin h → ℝ) (j : Fin d) : ℝ := ∑ l, (θ l * w j l) ^ 2

theorem inverseScale_nonneg (θ : Fin h → ℝ) (w : Fin d → Fin h → ℝ) (j : Fin d) : 0 ≤ inverseScale θ w j :=
  Finset.sum_nonneg fun _ _ => sq_nonneg _

/-- What the other components contribute to the correlation. -/
noncomputable def othersCorr (θ : Fin h → ℝ) (w : Fin d → Fin h → ℝ) (x z : Fin d → ℝ) (j : Fin d) : ℝ :=
  rexp (-(∑ p ∈ Finset.univ.erase j, (x p - z p) ^ 2 * inverseScale θ w p) / 2)

theorem othersCorr_range (θ : Fin h → ℝ) (w : Fin d → Fin h → ℝ) (x z : Fin d → ℝ) (j : Fin d) :
    0 ≤ othersCorr θ w x z j ∧ othersCorr θ w x z j ≤ 1 := by
  refine ⟨(exp_pos _).le, exp_le_one_iff.2 ?_⟩
  have : 0 ≤ ∑ p ∈ Finset.univ.erase j, (x p - z p) ^ 2 * inverseScale θ w p :=
    Finset.sum_nonneg fun p _ => mul_nonneg (sq_nonneg _) (inverseScale_nonneg _ _ _)
  linarith

theorem se_along (θ : Fin h → ℝ) (w : Fin d → Fin h → ℝ) (x z : Fin d → ℝ) (j : Fin d) (t : ℝ) :
    Kernel.squaredExponential.value θ w (fun l => Function.update x j t l - z l) =
      othersCorr θ w x z j * bump (inverseScale θ w j) (z j) t := by
  simp only [Kernel.value, seValue, othersCorr, bump, ← exp_add]
  congr 1
  rw [← Finset.add_sum_erase _ _ (Finset.mem_univ j), Function.update_self]
  have : ∑ p ∈ Finset.univ.erase j, (Function.update x j t p - z p) ^ 2 * ∑ l, (θ l * w p l) ^ 2 =
      ∑ p ∈ Finset.univ.erase j, (x p - z p) ^ 2 * inverseScale θ w p :=
    Finset.sum_congr rfl fun p hp => by rw [Function.update_of_ne (Finset.ne_of_mem_erase hp), inverseScale]
  rw [this, inverseScale]
  ring

theorem predict_along (g : Sparse.Model n m d h) (hk : g.kernel = .squaredExponential) (x : Fin d → ℝ) (j : Fin d)
    (t : ℝ) : g.predict (Function.update x j t) = 0 + ∑ i, (g.sigma2 * g.data.vec i 0 *
      othersCorr g.theta g.w x (g.inducings i) j) * bump (inverseScale g.theta g.w j) (g.inducings i j) t := by
  rw [zero_add]
  simp only [Sparse.Model.predict, Matrix.mul_apply, computeK, Matrix.of_apply, hk, se_along]
  exact Finset.sum_congr rfl fun i _ => by ring

/-- **C110** (mean; partial: squared exponential, exact arithmetic). The predicted gradient differs from the derivative of
the prediction by at most the square of the step times an explicit constant of the model. -/
theorem C110_mean_error_partial (g : Sparse.Model n m d h) (hk : g.kernel = .squaredExponential) (hs : 0 ≤ g.sigma2)
    (x : Fin d → ℝ) (j : Fin d) (ε : ℝ) (hε : 0 < ε) :
    DifferentiableAt ℝ (fun t => g.predict (Function.update x j t)) (x j) ∧
    |g.predictGradients ε x j - deriv (fun t => g.predict (Function.update x j t)) (x j)| ≤
      ε ^ 2 / 3 * (g.sigma2 * (∑ i, |g.data.vec i 0|) *
        ((∑ l, (g.theta l * g.w j l) ^ 2) * √(∑ l, (g.theta l * g.w j l) ^ 2))) := by
  simp only [Sparse.Model.predictGradients, Sparse.Model.centralDiff, predict_along g hk]
  obtain ⟨h1, h2⟩ := bumps_error (fun i => g.sigma2 * g.data.vec i 0 * othersCorr g.theta g.w x (g.inducings i) j)
    (fun _ => inverseScale g.theta g.w j) (fun i => g.inducings i j) (inverseScale g.theta g.w j)
    (fun _ => inverseScale_nonneg _ _ _) (fun _ => le_rfl) 0 (x j) ε hε
  refine ⟨h1, h2.trans ?_⟩
  have hτ := inverseScale_nonneg g.theta g.w j
  have hsum : ∑ i, |g.sigma2 * g.data.vec i 0 * othersCorr g.theta g.w x (g.inducings i) j| ≤
      g.sigma2 * ∑ i, |g.data.vec i 0| := by
    rw [Finset.mul_sum]
    refine Finset.sum_le_sum fun i _ => ?_
    obtain ⟨o1, o2⟩ := othersCorr_range g.theta g.w x (g.inducings i) j
    rw [abs_mul, abs_mul, abs_of_nonneg hs, abs_of_nonneg o1]
    exact mul_le_of_le_one_right (by positivity) o2
  exact mul_le_mul_of_nonneg_left (mul_le_mul_of_nonneg_right hsum (mul_nonneg hτ (sqrt_nonneg _))) (by positivity)

theorem bump_mul (τ a b t : ℝ) : bump τ a t * bump τ b t = rexp (-(τ / 4 * (a - b) ^ 2)) * bump (2 * τ) ((a + b) / 2) t := by
  simp only [bump, ← exp_add]
  congr 1
  ring

/-- The variance without the lower bound. -/
noncomputable def rawVar (g : Sparse.Model n m d h) (x : Fin d → ℝ) : ℝ :=
  g.sigma2 - ∑ a, ∑ b, g.data.inv b a * (g.kernel.value g.theta g.w (fun l => x l - g.inducings b l) * g.sigma2) *
    (g.kernel.value g.theta g.w (fun l => x l - g.inducings a l) * g.sigma2)

theorem predictVar_raw (g : Sparse.Model n m d h) (x : Fin d → ℝ) :
    g.predictVar x = if rawVar g x < 1e-15 then 1e-15 + g.noise else rawVar g x + g.noise := by
  have e : ∀ b : Fin m, g.kernel.value g.theta g.w (fun l => g.inducings b l - x l) =
      g.kernel.value g.theta g.w (fun l => x l - g.inducings b l) := by
    intro b
    exact C40_symmetric _ _ _ _ _ fun l => Or.inr (by ring)
  have : g.sigma2 - ∑ a, (g.data.invᵀ * computeK g.kernel g.inducings (fun _ : Fin 1 => x) g.w g.theta g.sigma2) a 0 *
      computeK g.kernel g.inducings (fun _ : Fin 1 => x) g.w g.theta g.sigma2 a 0 = rawVar g x := by
    simp only [rawVar, Matrix.mul_apply, Matrix.transpose_apply, computeK, Matrix.of_apply, e, Finset.sum_mul]
  simp only [Sparse.Model.predictVar]
  rw [this]

theorem rawVar_along (g : Sparse.Model n m d h) (hk : g.kernel = .squaredExponential) (x : Fin d → ℝ) (j : Fin d)
    (t : ℝ) : rawVar g (Function.update x j t) = g.sigma2 + ∑ p : Fin m × Fin m, (-(g.sigma2 ^ 2 * g.data.inv p.2 p.1 *
      (othersCorr g.theta g.w x (g.inducings p.2) j * othersCorr g.theta g.w x (g.inducings p.1) j *
        rexp (-(inverseScale g.theta g.w j / 4 * (g.inducings p.2 j - g.inducings p.1 j) ^ 2))))) *
      bump (2 * inverseScale g.theta g.w j) ((g.inducings p.2 j + g.inducings p.1 j) / 2) t := by
  rw [rawVar, sub_eq_add_neg, ← Finset.sum_neg_distrib, Fintype.sum_prod_type]
  congr 1
  refine Finset.sum_congr rfl fun a _ => ?_
  rw [← Finset.sum_neg_distrib]
  refine Finset.sum_congr rfl fun b _ => ?_
  simp only [hk, se_along]
  have := bump_mul (inverseScale g.theta g.w j) (g.inducings b j) (g.inducings a j) t
  linear_combination (-(g.sigma2 ^ 2 * g.data.inv b a * othersCorr g.theta g.w x (g.inducings b) j *
    othersCorr g.theta g.w x (g.inducings a) j)) * this

/-- **C110** (variance; partial: squared exponential, exact arithmetic, points where the variance is above its lower bound).
The predicted gradient of the variance differs from the derivative of the predicted variance by at most the square
of the step times an explicit constant of the model. -/
theorem C110_variance_error_partial (g : Sparse.Model n m d h) (hk : g.kernel = .squaredExponential)
    (x : Fin d → ℝ) (j : Fin d) (ε : ℝ) (hε : 0 < ε)
    (hv : ∀ t ∈ ({x j - ε, x j, x j + ε} : Set ℝ), 1e-15 + g.noise < g.predictVar (Function.update x j t)) :
    DifferentiableAt ℝ (fun t => g.predictVar (Function.update x j t)) (x j) ∧
    |g.predictVarGradients ε x j - deriv (fun t => g.predictVar (Function.update x j t)) (x j)| ≤
      ε ^ 2 / 3 * (g.sigma2 ^ 2 * (∑ a, ∑ b, |g.data.inv a b|) *
        (2 * (∑ l, (g.theta l * g.w j l) ^ 2) * √(2 * ∑ l, (g.theta l * g.w j l) ^ 2))) := by
  have hiff : ∀ t, 1e-15 + g.noise < g.predictVar (Function.update x j t) → 1e-15 < rawVar g (Function.update x j t) := by
    intro t ht
    rw [predictVar_raw g] at ht
    split_ifs at ht with hlt
    · exact absurd ht (lt_irrefl _)
    · linarith
  have hval : ∀ t, 1e-15 < rawVar g (Function.update x j t) →
      g.predictVar (Function.update x j t) = rawVar g (Function.update x j t) + g.noise := fun t ht => by
    rw [predictVar_raw g, if_neg (not_lt.2 ht.le)]
  set τ := inverseScale g.theta g.w j with hτ
  have hτ0 : 0 ≤ τ := inverseScale_nonneg g.theta g.w j
  set c : Fin m × Fin m → ℝ := fun p => -(g.sigma2 ^ 2 * g.data.inv p.2 p.1 *
      (othersCorr g.theta g.w x (g.inducings p.2) j * othersCorr g.theta g.w x (g.inducings p.1) j *
        rexp (-(τ / 4 * (g.inducings p.2 j - g.inducings p.1 j) ^ 2)))) with hc
  have hraw : ∀ t, rawVar g (Function.update x j t) =
      g.sigma2 + ∑ p, c p * bump (2 * τ) ((g.inducings p.2 j + g.inducings p.1 j) / 2) t := fun t => rawVar_along g hk x j t
  obtain ⟨h1, h2⟩ := bumps_error c (fun _ => 2 * τ) (fun p => (g.inducings p.2 j + g.inducings p.1 j) / 2) (2 * τ)
    (fun _ => by positivity) (fun _ => le_rfl) g.sigma2 (x j) ε hε
  simp only [← hraw] at h1 h2
  have hnear : (fun t => g.predictVar (Function.update x j t)) =ᶠ[𝓝 (x j)]
      fun t => rawVar g (Function.update x j t) + g.noise := by
    have hcont : ContinuousAt (fun t => rawVar g (Function.update x j t)) (x j) := h1.continuousAt
    have := hcont.eventually (lt_mem_nhds (hiff (x j) (hv _ (by simp))))
    filter_upwards [this] with t ht using hval t ht
  refine ⟨(h1.add_const _).congr_of_eventuallyEq hnear, ?_⟩
  rw [hnear.deriv_eq, deriv_add_const]
  have hgrad : g.predictVarGradients ε x j =
      (rawVar g (Function.update x j (x j + ε)) - rawVar g (Function.update x j (x j - ε))) / (2 * ε) := by
    simp only [Sparse.Model.predictVarGradients, Sparse.Model.centralDiff]
    rw [hval _ (hiff _ (hv _ (by simp))), hval _ (hiff _ (hv _ (by simp)))]
    congr 1; ring
  rw [hgrad]
  refine h2.trans (mul_le_mul_of_nonneg_left (mul_le_mul_of_nonneg_right ?_ (by positivity)) (by positivity))
  rw [Fintype.sum_prod_type, Finset.sum_comm, Finset.mul_sum]
  refine Finset.sum_le_sum fun b _ => ?_
  rw [Finset.mul_sum]
  refine Finset.sum_le_sum fun a _ => ?_
  obtain ⟨o1, o2⟩ := othersCorr_range g.theta g.w x (g.inducings b) j
  obtain ⟨o3, o4⟩ := othersCorr_range g.theta g.w x (g.inducings a) j
  have he : rexp (-(τ / 4 * (g.inducings b j - g.inducings a j) ^ 2)) ≤ 1 := exp_le_one_iff.2 (by
    have : 0 ≤ τ / 4 * (g.inducings b j - g.inducings a j) ^ 2 := by positivity
    linarith)
  have hprod : othersCorr g.theta g.w x (g.inducings b) j * othersCorr g.theta g.w x (g.inducings a) j *
      rexp (-(τ / 4 * (g.inducings b j - g.inducings a j) ^ 2)) ≤ 1 :=
    mul_le_one₀ (mul_le_one₀ o2 o3 o4) (exp_pos _).le he
  simp only [hc, abs_neg]
  rw [abs_mul, abs_mul, abs_of_nonneg (sq_nonneg g.sigma2),
    abs_of_nonneg (mul_nonneg (mul_nonneg o1 o3) (exp_pos (-(τ / 4 * (g.inducings b j - g.inducings a j) ^ 2))).le)]
  exact mul_le_of_le_one_right (by positivity) hprod

/-! ## All kernels -/

theorem tendsto_centralDiff {f : ℝ → ℝ} {f' t : ℝ} (hf : HasDerivAt f f' t) :
    Tendsto (fun ε => (f (t + ε) - f (t - ε)) / (2 * ε)) (𝓝[>] 0) (𝓝 f') := by
  have h1 : HasDerivAt (fun s => f (t + s)) f' 0 :=
    (show HasDerivAt f f' (t + 0) by simpa using hf).comp_const_add t 0
  have h2 : HasDerivAt (fun s => f (t - s)) (-f') 0 :=
    (show HasDerivAt f f' (t - 0) by simpa using hf).comp_const_sub t 0
  have h3 := (h1.sub h2).tendsto_slope_zero_right
  have h4 := h3.const_mul (1 / 2)
  have e : 1 / 2 * (f' - -f') = f' := by ring
  rw [e] at h4
  refine h4.congr' ?_
  filter_upwards [self_mem_nhdsWithin] with ε hε
  have hε' : ε ≠ 0 := ne_of_gt hε
  simp
  field_simp

/-- **C110** (mean, every kernel). When the step tends to zero the predicted gradient tends to the derivative of the
prediction, given by the Jacobian of the kernel; with the absolute exponential the point must not share the
component with an inducing point, where there is a corner. -/
theorem C110_mean_limit (g : Sparse.Model n m d h) (x : Fin d → ℝ) (j : Fin d)
    (hk : g.kernel = .absoluteExponential → ∀ i, x j ≠ g.inducings i j) :
    DifferentiableAt ℝ (fun t => g.predict (Function.update x j t)) (x j) ∧
    Tendsto (fun ε => g.predictGradients ε x j) (𝓝[>] 0) (𝓝 (deriv (fun t => g.predict (Function.update x j t)) (x j))) := by
  have hd : HasDerivAt (fun t => g.predict (Function.update x j t))
      (∑ i, g.kernel.jacobian x g.inducings g.theta g.w i j * g.sigma2 * g.data.vec i 0) (x j) := by
    have e : (fun t => g.predict (Function.update x j t)) = fun t => ∑ i,
        g.kernel.value g.theta g.w (differences (Function.update x j t) g.inducings i) * g.sigma2 * g.data.vec i 0 := by
      funext t
      simp only [Sparse.Model.predict, Matrix.mul_apply, computeK, Matrix.of_apply]
      rfl
    rw [e]
    exact HasDerivAt.fun_sum fun i _ => ((C41_jacobian g.kernel x g.inducings g.theta g.w i j fun e => hk e i).mul_const
      g.sigma2).mul_const (g.data.vec i 0)
  refine ⟨hd.differentiableAt, ?_⟩
  rw [hd.deriv]
  simpa only [Sparse.Model.predictGradients, Sparse.Model.centralDiff] using tendsto_centralDiff hd

theorem rawVar_hasDerivAt (g : Sparse.Model n m d h) (x : Fin d → ℝ) (j : Fin d)
    (hk : g.kernel = .absoluteExponential → ∀ i, x j ≠ g.inducings i j) :
    ∃ v', HasDerivAt (fun t => rawVar g (Function.update x j t)) v' (x j) := by
  have hd : ∀ i, HasDerivAt (fun t => g.kernel.value g.theta g.w (fun l => Function.update x j t l - g.inducings i l))
      (g.kernel.jacobian x g.inducings g.theta g.w i j) (x j) := fun i =>
    C41_jacobian g.kernel x g.inducings g.theta g.w i j fun e => hk e i
  have hs := HasDerivAt.fun_sum (u := Finset.univ) fun a (_ : a ∈ Finset.univ) =>
    HasDerivAt.fun_sum (u := Finset.univ) fun b (_ : b ∈ Finset.univ) =>
      (((hd b).mul_const g.sigma2).const_mul (g.data.inv b a)).mul ((hd a).mul_const g.sigma2)
  exact ⟨_, hs.const_sub g.sigma2⟩

/-- **C110** (variance, every kernel). Where the predicted variance is above its lower bound the predicted gradient of the
variance tends to the derivative of the predicted variance when the step tends to zero. -/
theorem C110_variance_limit (g : Sparse.Model n m d h) (x : Fin d → ℝ) (j : Fin d)
    (hk : g.kernel = .absoluteExponential → ∀ i, x j ≠ g.inducings i j) (hv : 1e-15 + g.noise < g.predictVar x) :
    DifferentiableAt ℝ (fun t => g.predictVar (Function.update x j t)) (x j) ∧
    Tendsto (fun ε => g.predictVarGradients ε x j) (𝓝[>] 0)
      (𝓝 (deriv (fun t => g.predictVar (Function.update x j t)) (x j))) := by
  obtain ⟨v', hd⟩ := rawVar_hasDerivAt g x j hk
  have hx : 1e-15 < rawVar g (Function.update x j (x j)) := by
    rw [Function.update_eq_self]
    rw [predictVar_raw g] at hv
    split_ifs at hv with hlt
    · exact absurd hv (lt_irrefl _)
    · linarith
  have hnear : (fun t => g.predictVar (Function.update x j t)) =ᶠ[𝓝 (x j)]
      fun t => rawVar g (Function.update x j t) + g.noise := by
    filter_upwards [hd.continuousAt.eventually (lt_mem_nhds hx)] with t ht
    rw [predictVar_raw g, if_neg (not_lt.2 ht.le)]
  have hd' := (hd.add_const g.noise).congr_of_eventuallyEq hnear
  refine ⟨hd'.differentiableAt, ?_⟩
  rw [hd'.deriv]
  simpa only [Sparse.Model.predictVarGradients, Sparse.Model.centralDiff] using tendsto_centralDiff hd'

/-! ## A case -/

/-- A model with one inducing point at the origin. -/
noncomputable def exSparse (k : Kernel) : Sparse.Model 1 1 1 1 :=
  { kernel := k, theta := fun _ => 1, sigma2 := 1, noise := 0, likelihood := none, w := fun _ _ => 1,
    inducings := fun _ _ => 0, data := ⟨Matrix.of fun _ _ => 3, Matrix.of fun _ _ => 1 / 2⟩, xtrain := fun _ _ => 0,
    ytrain := fun _ => 3 }

theorem exSparse_var (k : Kernel) (x : Fin 1 → ℝ) : 1e-15 + (exSparse k).noise < (exSparse k).predictVar x := by
  have hr := C40_range k (fun _ : Fin 1 => (1 : ℝ)) (fun (_ : Fin 1) (_ : Fin 1) => 1) (fun l => x l - 0)
    (fun _ => zero_le_one)
  have h2 : 1 / 2 ≤ rawVar (exSparse k) x := by
    simp only [rawVar, exSparse, Finset.univ_unique, Finset.sum_singleton, Matrix.of_apply, mul_one]
    nlinarith [hr.1, hr.2]
  rw [predictVar_raw, if_neg (by norm_num at h2 ⊢; linarith)]
  simp only [exSparse]
  norm_num at h2 ⊢
  simp only [exSparse] at h2
  linarith

/-- Case of the theorems on errors: derivative of `3 exp(-t^2 / 2)`. -/
example (x : Fin 1 → ℝ) : |(exSparse .squaredExponential).predictGradients (1 / 100) x 0 -
    deriv (fun t => (exSparse .squaredExponential).predict (Function.update x 0 t)) (x 0)| ≤ 1 / 10000 := by
  refine ((C110_mean_error_partial (exSparse .squaredExponential) rfl zero_le_one x 0 (1 / 100) (by norm_num)).2).trans ?_
  simp [exSparse]
  norm_num

example (x : Fin 1 → ℝ) : |(exSparse .squaredExponential).predictVarGradients (1 / 100) x 0 -
    deriv (fun t => (exSparse .squaredExponential).predictVar (Function.update x 0 t)) (x 0)| ≤ 1 / 10000 := by
  refine ((C110_variance_error_partial (exSparse .squaredExponential) rfl x 0 (1 / 100) (by norm_num)
    fun t _ => exSparse_var _ _).2).trans ?_
  have : √(2 : ℝ) ≤ 2 := by rw [Real.sqrt_le_left (by norm_num)]; norm_num
  simp [exSparse]
  linarith

example (x : Fin 1 → ℝ) : Tendsto (fun ε => (exSparse .matern32).predictVarGradients ε x 0) (𝓝[>] 0)
    (𝓝 (deriv (fun t => (exSparse .matern32).predictVar (Function.update x 0 t)) (x 0))) :=
  (C110_variance_limit (exSparse .matern32) x 0 (by simp [exSparse]) (exSparse_var _ _)).2

end Verif.Props
