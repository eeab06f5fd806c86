import Verif.Spec.Kernels
import Mathlib.Analysis.Complex.Exponential
import Mathlib.Analysis.SpecialFunctions.ExpDeriv
import Mathlib.Analysis.SpecialFunctions.Log.Deriv
import Mathlib.Analysis.Calculus.Deriv.Abs
import Mathlib.Analysis.Calculus.Deriv.Prod
import Mathlib.Algebra.BigOperators.Field

/-!
# C40, C41: correlation models
-/

set_option autoImplicit false

namespace Verif.Props

open Verif.Kernels Verif.Spec Real Finset

variable {n h m : ℕ}

/-! ## C40 -/

/-- The returned value is the documented product of one-dimensional correlations. -/
theorem C40_documented (k : Kernel) (θ : Fin h → ℝ) (w : Fin n → Fin h → ℝ) (d : Fin n → ℝ) :
    k.value θ w d = corr k θ w d := by
  cases k with
  | squaredExponential =>
    simp only [Kernel.value, seValue, corr, corr1, ← Real.exp_sum, mul_sum]
    congr 1
    refine sum_congr rfl fun j _ => ?_
    refine sum_congr rfl fun l _ => ?_
    rw [show (θ l * |w j l| * |d j|) ^ 2 = θ l ^ 2 * |w j l| ^ 2 * |d j| ^ 2 by ring, sq_abs, sq_abs]
    ring
  | absoluteExponential =>
    simp only [Kernel.value, absValue, corr, corr1, ← Real.exp_sum, mul_sum, ← sum_neg_distrib]
    congr 1
    refine sum_congr rfl fun j _ => ?_
    refine sum_congr rfl fun l _ => ?_
    ring
  | matern32 =>
    simp only [Kernel.value, m32Value, m32A, m32B, corr, corr1, prod_mul_distrib, ← Real.exp_sum, mul_sum]
    congr 1
    · refine prod_congr rfl fun j _ => prod_congr rfl fun l _ => ?_
      simp only [thetaW]; ring
    · rw [sum_comm]
      congr 1
      refine sum_congr rfl fun j _ => sum_congr rfl fun l _ => ?_
      simp only [thetaW]; ring
  | matern52 =>
    simp only [Kernel.value, m52Value, m52A, m52B, corr, corr1, prod_mul_distrib, ← Real.exp_sum, mul_sum]
    congr 1
    · refine prod_congr rfl fun j _ => prod_congr rfl fun l _ => ?_
      simp only [thetaW]
      rw [show (θ l * |w j l| * |d j|) ^ 2 = (θ l * |w j l|) ^ 2 * |d j| ^ 2 by ring, sq_abs]
      ring
    · rw [sum_comm]
      congr 1
      refine sum_congr rfl fun j _ => sum_congr rfl fun l _ => ?_
      simp only [thetaW]; ring

theorem corr1_range (k : Kernel) {t : ℝ} (ht : 0 ≤ t) : 0 < corr1 k t ∧ corr1 k t ≤ 1 := by
  cases k with
  | squaredExponential =>
    refine ⟨exp_pos _, ?_⟩
    rw [corr1, Real.exp_le_one_iff]
    nlinarith [sq_nonneg t]
  | absoluteExponential =>
    refine ⟨exp_pos _, ?_⟩
    rw [corr1, Real.exp_le_one_iff]
    linarith
  | matern32 =>
    have hs : 0 ≤ √3 * t := by positivity
    refine ⟨by simp only [corr1]; positivity, ?_⟩
    have := Real.add_one_le_exp (√3 * t)
    calc (1 + √3 * t) * rexp (-√3 * t) ≤ rexp (√3 * t) * rexp (-√3 * t) := by
          gcongr; linarith
      _ = 1 := by rw [← Real.exp_add]; simp
  | matern52 =>
    have hs : 0 ≤ √5 * t := by positivity
    refine ⟨by simp only [corr1]; positivity, ?_⟩
    have h1 := Real.quadratic_le_exp_of_nonneg hs
    have h5 : (√5) ^ 2 = 5 := Real.sq_sqrt (by norm_num)
    have h2 : 1 + √5 * t + 5 / 3 * t ^ 2 ≤ rexp (√5 * t) := by
      have : (√5 * t) ^ 2 = 5 * t ^ 2 := by rw [mul_pow, h5]
      rw [this] at h1
      nlinarith [sq_nonneg t]
    calc (1 + √5 * t + 5 / 3 * t ^ 2) * rexp (-√5 * t) ≤ rexp (√5 * t) * rexp (-√5 * t) := by
          gcongr
      _ = 1 := by rw [← Real.exp_add]; simp

/-- Correlations lie in `(0, 1]` for non-negative hyperparameters. -/
theorem C40_range (k : Kernel) (θ : Fin h → ℝ) (w : Fin n → Fin h → ℝ) (d : Fin n → ℝ) (hθ : ∀ l, 0 ≤ θ l) :
    0 < k.value θ w d ∧ k.value θ w d ≤ 1 := by
  rw [C40_documented]
  have key : ∀ j l, 0 < corr1 k (θ l * |w j l| * |d j|) ∧ corr1 k (θ l * |w j l| * |d j|) ≤ 1 :=
    fun j l => corr1_range k (mul_nonneg (mul_nonneg (hθ l) (abs_nonneg _)) (abs_nonneg _))
  refine ⟨prod_pos fun j _ => prod_pos fun l _ => (key j l).1, ?_⟩
  exact prod_le_one (fun j _ => prod_nonneg fun l _ => (key j l).1.le)
    fun j _ => prod_le_one (fun l _ => (key j l).1.le) fun l _ => (key j l).2

/-- The correlation of a point with itself is 1. -/
theorem C40_at_zero (k : Kernel) (θ : Fin h → ℝ) (w : Fin n → Fin h → ℝ) : k.value θ w 0 = 1 := by
  rw [C40_documented, corr]
  refine prod_eq_one fun j _ => prod_eq_one fun l _ => ?_
  cases k <;> simp [corr1]

/-- The correlation does not change when the sign of any of the differences changes. -/
theorem C40_symmetric (k : Kernel) (θ : Fin h → ℝ) (w : Fin n → Fin h → ℝ) (d d' : Fin n → ℝ)
    (hd : ∀ j, d' j = d j ∨ d' j = -d j) : k.value θ w d' = k.value θ w d := by
  rw [C40_documented, C40_documented, corr, corr]
  refine prod_congr rfl fun j _ => prod_congr rfl fun l _ => ?_
  rcases hd j with e | e <;> simp [e]

example : (0 : ℝ) < Kernel.matern52.value (fun _ : Fin 1 => 2) (fun _ : Fin 2 => fun _ => -3) (fun _ => 1) :=
  (C40_range _ _ _ _ (by intro l; norm_num)).1

/-! ## C41 -/

/-- A function of the absolute value, flat at zero where needed. -/
theorem hasDerivAt_comp_abs {G : ℝ → ℝ} {G' t : ℝ} (hG : HasDerivAt G G' |t|) (h0 : t = 0 → G' = 0) :
    HasDerivAt (fun t => G |t|) (signum t * G') t := by
  rcases lt_trichotomy t 0 with ht | ht | ht
  · have h1 := hG.comp t (hasDerivAt_abs_neg ht)
    refine h1.congr_deriv ?_
    simp [signum, not_le.2 ht]
  · subst ht
    rw [h0 rfl] at hG ⊢
    rw [mul_zero]
    rw [abs_zero] at hG
    rw [hasDerivAt_iff_isLittleO] at hG ⊢
    simp only [sub_zero, smul_zero, abs_zero] at hG ⊢
    have ht : Filter.Tendsto (fun t : ℝ => |t|) (nhds 0) (nhds 0) := by
      have := (continuous_abs (G := ℝ)).tendsto (0 : ℝ)
      rwa [abs_zero] at this
    have h2 := hG.comp_tendsto ht
    refine h2.trans_le ?_
    intro t
    simp
  · have h1 := hG.comp t (hasDerivAt_abs_pos ht)
    refine h1.congr_deriv ?_
    simp [signum, ht.le]

/-- Product rule for a family of factors of which only those of component `j` vary. -/
theorem hasDerivAt_prod_component (F : Fin n → Fin h → ℝ → ℝ) (F' : Fin h → ℝ) (e : Fin n → ℝ) (j : Fin n)
    (hF : ∀ l, HasDerivAt (F j l) (F' l) (e j)) :
    HasDerivAt (fun s => ∏ p, ∏ l, F p l (Function.update e j s p))
      (∑ k, F' k * ∏ p, ∏ l, if l ≠ k ∨ p ≠ j then F p l (e p) else 1) (e j) := by
  have hd : ∀ q ∈ (univ : Finset (Fin n × Fin h)), HasDerivAt (fun s => F q.1 q.2 (Function.update e j s q.1))
      (if q.1 = j then F' q.2 else 0) (e j) := by
    intro q _
    by_cases hq : q.1 = j
    · simp only [hq, if_true, Function.update_self]
      exact hF q.2
    · simp only [hq, if_false]
      have : (fun s => F q.1 q.2 (Function.update e j s q.1)) = fun _ => F q.1 q.2 (e q.1) := by
        funext s; rw [Function.update_of_ne hq]
      rw [this]
      exact hasDerivAt_const _ _
  have h1 := HasDerivAt.fun_finsetProd hd
  have e1 : (fun s => ∏ p, ∏ l, F p l (Function.update e j s p)) =
      fun s => ∏ q : Fin n × Fin h, F q.1 q.2 (Function.update e j s q.1) := by
    funext s
    rw [← univ_product_univ, prod_product]
  rw [e1]
  refine h1.congr_deriv ?_
  rw [← univ_product_univ, sum_product]
  rw [sum_eq_single j]
  · refine sum_congr rfl fun k _ => ?_
    simp only [if_true, smul_eq_mul, Function.update_eq_self]
    rw [mul_comm]
    congr 1
    rw [univ_product_univ]
    have e2 : (∏ p : Fin n, ∏ l : Fin h, if l ≠ k ∨ p ≠ j then F p l (e p) else 1) =
        ∏ q : Fin n × Fin h, if q ≠ (j, k) then F q.1 q.2 (e q.1) else 1 := by
      rw [← univ_product_univ, prod_product]
      refine prod_congr rfl fun p _ => prod_congr rfl fun l _ => ?_
      have : (l ≠ k ∨ p ≠ j) ↔ ((p, l) : Fin n × Fin h) ≠ (j, k) := by
        simp only [ne_eq, Prod.mk.injEq]; tauto
      simp only [this]
    rw [e2, prod_ite, prod_const_one, mul_one]
    refine prod_congr ?_ fun _ _ => rfl
    ext q; simp
  · intro p _ hp
    simp [hp]
  · intro hj; exact absurd (mem_univ j) hj

theorem prod_others_of_one (F : Fin n → Fin h → ℝ) (j : Fin n) (k : Fin h) (hk : F j k = 1) :
    (∏ p, ∏ l, if l ≠ k ∨ p ≠ j then F p l else 1) = ∏ p, ∏ l, F p l := by
  refine prod_congr rfl fun p _ => prod_congr rfl fun l _ => ?_
  split_ifs with hc
  · rfl
  · simp only [ne_eq, not_or, not_not] at hc
    rw [hc.1, hc.2, hk]

/-- Matern kernels: product of factors times an exponential, both functions of absolute differences. -/
theorem hasDerivAt_matern (r : ℝ) (F : Fin n → Fin h → ℝ → ℝ) (F' : Fin h → ℝ) (c : Fin n → Fin h → ℝ)
    (d : Fin n → ℝ) (j : Fin n) (hF : ∀ l, HasDerivAt (F j l) (F' l) |d j|)
    (h0 : d j = 0 → ∀ l, F' l = r * c j l ∧ F j l 0 = 1) :
    HasDerivAt (fun t => (∏ p, ∏ l, F p l |Function.update d j t p|) *
        rexp (-r * ∑ l, ∑ p, |Function.update d j t p| * c p l))
      (signum (d j) * (-r * (∑ l, c j l) * (rexp (-r * ∑ l, ∑ p, |d p| * c p l) * ∏ p, ∏ l, F p l |d p|) +
        rexp (-r * ∑ l, ∑ p, |d p| * c p l) *
          ∑ k, F' k * ∏ p, ∏ l, if l ≠ k ∨ p ≠ j then F p l |d p| else 1)) (d j) := by
  have hP := hasDerivAt_prod_component F F' (fun p => |d p|) j hF
  have hE : HasDerivAt (fun s => rexp (-r * ∑ l, ∑ p, Function.update (fun p => |d p|) j s p * c p l))
      (rexp (-r * ∑ l, ∑ p, |d p| * c p l) * (-r * ∑ l, c j l)) |d j| := by
    have hs : HasDerivAt (fun s => ∑ l, ∑ p, Function.update (fun p => |d p|) j s p * c p l) (∑ l, c j l) |d j| := by
      refine HasDerivAt.fun_sum fun l _ => ?_
      have : HasDerivAt (fun s => ∑ p, Function.update (fun p => |d p|) j s p * c p l)
          (∑ p, if p = j then c p l else 0) |d j| := by
        refine HasDerivAt.fun_sum fun p _ => ?_
        by_cases hp : p = j
        · subst hp
          simp only [Function.update_self, if_true]
          simpa using (hasDerivAt_id |d p|).mul_const (c p l)
        · simp only [Function.update_of_ne hp, hp, if_false]
          exact hasDerivAt_const _ _
      simpa using this
    have := (hs.const_mul (-r)).exp
    have e : Function.update (fun p => |d p|) j |d j| = fun p => |d p| := Function.update_eq_self j _
    simpa only [e] using this
  have hG := hP.mul hE
  have e : Function.update (fun p => |d p|) j |d j| = fun p => |d p| := Function.update_eq_self j _
  have h1 := hasDerivAt_comp_abs (t := d j) hG (by
    intro hj
    simp only [e]
    have := h0 hj
    have h2 : ∀ k, F' k * (∏ p, ∏ l, if l ≠ k ∨ p ≠ j then F p l |d p| else 1) =
        r * c j k * ∏ p, ∏ l, F p l |d p| := by
      intro k
      rw [prod_others_of_one (fun p l => F p l |d p|) j k (by simp only [hj, abs_zero]; exact (this k).2),
        (this k).1]
    simp only [h2]
    rw [← sum_mul, ← mul_sum]
    ring)
  have e2 : (fun t => ((fun s => ∏ p, ∏ l, F p l (Function.update (fun p => |d p|) j s p)) *
      fun s => rexp (-r * ∑ l, ∑ p, Function.update (fun p => |d p|) j s p * c p l)) |t|) =
      fun t => (∏ p, ∏ l, F p l |Function.update d j t p|) *
        rexp (-r * ∑ l, ∑ p, |Function.update d j t p| * c p l) := by
    funext t
    have : ∀ p, Function.update (fun p => |d p|) j |t| p = |Function.update d j t p| := by
      intro p
      by_cases hp : p = j
      · subst hp; simp
      · simp [Function.update_of_ne hp]
    simp only [Pi.mul_apply, this]
  rw [e2] at h1
  refine h1.congr_deriv ?_
  simp only [e]
  ring

/-- The row of the Jacobian is the derivative of the correlation along each component of the difference: for
every difference with the squared exponential and Matern kernels, for non-zero components with the absolute
exponential. -/
theorem jacRow_hasDerivAt (k : Kernel) (θ : Fin h → ℝ) (w : Fin n → Fin h → ℝ) (d : Fin n → ℝ) (j : Fin n)
    (hk : k = .absoluteExponential → d j ≠ 0) :
    HasDerivAt (fun t => k.value θ w (Function.update d j t)) (k.jacRow θ w d j) (d j) := by
  cases k with
  | squaredExponential =>
    simp only [Kernel.value, Kernel.jacRow, seValue, seJac]
    have hs : HasDerivAt (fun t => ∑ p, Function.update d j t p ^ 2 * ∑ l, (θ l * w p l) ^ 2)
        (∑ p, if p = j then 2 * d j * ∑ l, (θ l * w p l) ^ 2 else 0) (d j) := by
      refine HasDerivAt.fun_sum fun p _ => ?_
      by_cases hp : p = j
      · subst hp
        simp only [Function.update_self, if_true]
        simpa using (hasDerivAt_pow 2 (d p)).mul_const (∑ l, (θ l * w p l) ^ 2)
      · simp only [Function.update_of_ne hp, hp, if_false]
        exact hasDerivAt_const _ _
    have := (hs.const_mul (-0.5)).exp
    refine this.congr_deriv ?_
    simp only [Function.update_eq_self, sum_ite_eq', mem_univ, if_true]
    ring
  | absoluteExponential =>
    have hj := hk rfl
    simp only [Kernel.value, Kernel.jacRow, absValue, absJac]
    have hs : HasDerivAt (fun t => ∑ p, |Function.update d j t p| * ∑ l, |w p l| * θ l)
        (∑ p, if p = j then signum (d j) * ∑ l, |w p l| * θ l else 0) (d j) := by
      refine HasDerivAt.fun_sum fun p _ => ?_
      by_cases hp : p = j
      · subst hp
        simp only [Function.update_self, if_true]
        have ha : HasDerivAt (fun t : ℝ => |t|) (signum (d p)) (d p) := by
          rcases lt_or_gt_of_ne hj with h | h
          · simpa [signum, not_le.2 h] using hasDerivAt_abs_neg h
          · simpa [signum, h.le] using hasDerivAt_abs_pos h
        exact ha.mul_const _
      · simp only [Function.update_of_ne hp, hp, if_false]
        exact hasDerivAt_const _ _
    have := (hs.neg).exp
    refine this.congr_deriv ?_
    simp only [Function.update_eq_self, sum_ite_eq', mem_univ, if_true, Pi.neg_apply]
    have : ∑ l, θ l * |w j l| = ∑ l, |w j l| * θ l := sum_congr rfl fun l _ => mul_comm _ _
    rw [this]
    ring
  | matern32 =>
    have := hasDerivAt_matern (√3) (fun p l s => 1 + √3 * thetaW θ w p l * s)
      (fun l => √3 * thetaW θ w j l) (thetaW θ w) d j
      (fun l => by simpa using ((hasDerivAt_id |d j|).const_mul (√3 * thetaW θ w j l)).const_add 1)
      (fun _ l => by simp)
    refine this.congr_deriv ?_
    have e1 : ∑ l, |w j l| * θ l = ∑ l, thetaW θ w j l := sum_congr rfl fun l _ => by simp [thetaW, mul_comm]
    have e2 : ∀ k, (∏ p, ∏ l, if l ≠ k ∨ p ≠ j then 1 + √3 * (thetaW θ w p l * |d p|) else 1) =
        ∏ p, ∏ l, if l ≠ k ∨ p ≠ j then 1 + √3 * thetaW θ w p l * |d p| else 1 := fun k =>
      prod_congr rfl fun p _ => prod_congr rfl fun l _ => by rw [mul_assoc]
    simp only [Kernel.jacRow, m32Jac, m32A, m32B, e1, e2]
    generalize rexp (-√3 * ∑ l, ∑ p, |d p| * thetaW θ w p l) = b
    rw [mul_add, mul_sum _ _ b, mul_sum _ _ b, mul_sum _ _ (signum (d j))]
    congr 1
    · ring
    · refine sum_congr rfl fun k _ => ?_
      ring
  | matern52 =>
    have := hasDerivAt_matern (√5) (fun p l s => 1 + √5 * thetaW θ w p l * s + 5 / 3 * (thetaW θ w p l * thetaW θ w p l * s * s))
      (fun l => √5 * thetaW θ w j l + 2 * (5 / 3) * thetaW θ w j l * thetaW θ w j l * |d j|) (thetaW θ w) d j
      (fun l => by
        have h1 := ((hasDerivAt_id |d j|).const_mul (√5 * thetaW θ w j l)).const_add 1
        have h2 := (((hasDerivAt_id |d j|).const_mul (thetaW θ w j l * thetaW θ w j l)).mul
          (hasDerivAt_id |d j|)).const_mul (5 / 3)
        refine (h1.add h2).congr_deriv ?_
        simp only [id]
        ring)
      (fun hj l => by simp [hj])
    have ev : ∀ t, m52Value θ w (Function.update d j t) =
        (∏ p, ∏ l, (1 + √5 * thetaW θ w p l * |Function.update d j t p| +
          5 / 3 * (thetaW θ w p l * thetaW θ w p l * |Function.update d j t p| * |Function.update d j t p|))) *
        rexp (-√5 * ∑ l, ∑ p, |Function.update d j t p| * thetaW θ w p l) := by
      intro t
      simp only [m52Value, m52A, m52B]
      congr 1
      refine prod_congr rfl fun p _ => prod_congr rfl fun l _ => ?_
      rw [mul_assoc (thetaW θ w p l * thetaW θ w p l) |_| |_|, abs_mul_abs_self]
      ring
    simp only [Kernel.value, ev]
    refine this.congr_deriv ?_
    have e1 : ∑ l, |w j l| * θ l = ∑ l, thetaW θ w j l := sum_congr rfl fun l _ => by simp [thetaW, mul_comm]
    have e2 : ∀ k, (∏ p, ∏ l, if l ≠ k ∨ p ≠ j then
          1 + √5 * (thetaW θ w p l * |d p|) + 5 / 3 * (thetaW θ w p l * |d p|) * (thetaW θ w p l * |d p|) else 1) =
        ∏ p, ∏ l, if l ≠ k ∨ p ≠ j then
          1 + √5 * thetaW θ w p l * |d p| + 5 / 3 * (thetaW θ w p l * thetaW θ w p l * |d p| * |d p|) else 1 := fun k =>
      prod_congr rfl fun p _ => prod_congr rfl fun l _ => by congr 1; ring
    have e3 : m52A θ w d = ∏ p, ∏ l, (1 + √5 * thetaW θ w p l * |d p| +
          5 / 3 * (thetaW θ w p l * thetaW θ w p l * |d p| * |d p|)) := by
      simp only [m52A]
      refine prod_congr rfl fun p _ => prod_congr rfl fun l _ => ?_
      rw [mul_assoc (thetaW θ w p l * thetaW θ w p l) |_| |_|, abs_mul_abs_self]
      ring
    simp only [Kernel.jacRow, m52Jac, e3, m52B, e1, e2]
    generalize rexp (-√5 * ∑ l, ∑ p, |d p| * thetaW θ w p l) = b
    rw [mul_add, mul_sum _ _ b, mul_sum _ _ b, mul_sum _ _ (signum (d j))]
    congr 1
    · ring
    · refine sum_congr rfl fun k _ => ?_
      ring

/-- The Jacobian at a point with respect to training points: row `i` is the derivative of the correlation with
the training point `i` along each component of the point. -/
theorem C41_jacobian (k : Kernel) (x : Fin n → ℝ) (xtrain : Fin m → Fin n → ℝ) (θ : Fin h → ℝ)
    (w : Fin n → Fin h → ℝ) (i : Fin m) (j : Fin n)
    (hk : k = .absoluteExponential → x j ≠ xtrain i j) :
    HasDerivAt (fun t => k.value θ w (differences (Function.update x j t) xtrain i))
      (k.jacobian x xtrain θ w i j) (x j) := by
  have h1 := jacRow_hasDerivAt k θ w (differences x xtrain i) j (by
    intro e; simpa [differences, sub_eq_zero] using hk e)
  have h2 := h1.comp (x j) ((hasDerivAt_id (x j)).sub_const (xtrain i j))
  have e : (fun t => k.value θ w (differences (Function.update x j t) xtrain i)) =
      (fun t => k.value θ w (Function.update (differences x xtrain i) j t)) ∘ fun t => id t - xtrain i j := by
    funext t
    simp only [Function.comp, id]
    congr 1
    funext p
    by_cases hp : p = j
    · subst hp; simp [differences]
    · simp [differences, Function.update_of_ne hp]
  rw [e]
  refine h2.congr_deriv ?_
  simp [Kernel.jacobian]

/-- Value and Jacobian computed together are those computed separately. -/
theorem C41_valjac (k : Kernel) (x : Fin n → ℝ) (xtrain : Fin m → Fin n → ℝ) (θ : Fin h → ℝ)
    (w : Fin n → Fin h → ℝ) :
    k.valjac x xtrain θ w = (fun i => k.value θ w (differences x xtrain i), k.jacobian x xtrain θ w) := by
  cases k <;> rfl

/-- At a point where a component equals that of the training point the absolute exponential has no derivative
along this component. -/
theorem C41_absolute_exponential_corner (θ : ℝ) (hθ : θ ≠ 0) (g : ℝ) :
    ¬ HasDerivAt (fun t => Kernel.absoluteExponential.value (fun _ : Fin 1 => θ) (fun (_ : Fin 1) (_ : Fin 1) => 1)
      (Function.update 0 0 t)) g 0 := by
  intro hd
  have e : (fun t => Kernel.absoluteExponential.value (fun _ : Fin 1 => θ) (fun (_ : Fin 1) (_ : Fin 1) => 1)
      (Function.update 0 0 t)) = fun t => rexp (-(|t| * θ)) := by
    funext t; simp [Kernel.value, absValue]
  rw [e] at hd
  have hl := hd.log (exp_pos _).ne'
  simp only [Real.log_exp] at hl
  have h3 := (hl.neg).mul_const θ⁻¹
  have e2 : (fun y => (-fun t => -(|t| * θ)) y * θ⁻¹) = fun t : ℝ => |t| := by
    funext t
    simp [hθ]
  rw [e2] at h3
  exact not_differentiableAt_abs_zero h3.differentiableAt

end Verif.Props
