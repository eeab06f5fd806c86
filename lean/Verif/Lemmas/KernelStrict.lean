import Mathlib.LinearAlgebra.Vandermonde
import Verif.Lemmas.KernelPsd

/-!
# The correlation models are strictly positive definite functions

The correlation matrix of points which differ in some variable with a non-null hyperparameter is positive definite:
in one dimension from the integrals and series of `Verif.Lemmas.KernelPsd`, then as a part of a Kronecker product.
-/

set_option autoImplicit false

namespace Verif.Kernels

open Matrix MeasureTheory Real Kronecker

/-- A symmetric matrix with a positive quadratic form. -/
theorem pd_of_quad {ι : Type} [Fintype ι] (M : Matrix ι ι ℝ) (hs : ∀ i j, M i j = M j i)
    (h : ∀ c : ι → ℝ, c ≠ 0 → 0 < ∑ i, ∑ j, c i * c j * M i j) : M.PosDef := by
  refine Matrix.PosDef.of_dotProduct_mulVec_pos ?_ fun c hc => ?_
  · ext i j
    simp [Matrix.conjTranspose_apply, hs i j]
  · have := h c hc
    simp only [dotProduct, Matrix.mulVec, star_trivial, Finset.mul_sum]
    calc (0 : ℝ) < _ := this
      _ = _ := Finset.sum_congr rfl fun i _ => Finset.sum_congr rfl fun j _ => by ring

/-- A function of two numbers whose matrices for distinct numbers are positive definite. -/
def StrictlyPd (k : ℝ → ℝ → ℝ) : Prop :=
  ∀ (ι : Type) [Fintype ι] (x : ι → ℝ), Function.Injective x → (Matrix.of fun i j => k (x i) (x j) : Matrix ι ι ℝ).PosDef

theorem pd_matern (p : ℕ) (hp : p ≤ 2) : StrictlyPd fun x y => matern p |x - y| := by
  intro ι _ x hx
  classical
  refine pd_of_quad _ (fun i j => by simp [abs_sub_comm]) fun c hc => ?_
  have hint : Integrable fun u => ∑ i, ∑ j, c i * c j * (bump p (x i - u) * bump p (x j - u)) :=
    integrable_finsetSum _ fun i _ => integrable_finsetSum _ fun j _ => (bump_pair p hp _ _).1.const_mul _
  have h1 : ∑ i, ∑ j, c i * c j * matern p |x i - x j| =
      ∫ u, ∑ i, ∑ j, c i * c j * (bump p (x i - u) * bump p (x j - u)) := by
    rw [integral_finsetSum _ fun i _ => integrable_finsetSum _ fun j _ => (bump_pair p hp _ _).1.const_mul _]
    refine Finset.sum_congr rfl fun i _ => ?_
    rw [integral_finsetSum _ fun j _ => (bump_pair p hp _ _).1.const_mul _]
    refine Finset.sum_congr rfl fun j _ => ?_
    rw [integral_const_mul, (bump_pair p hp _ _).2]
  have hsq : ∀ u, ∑ i, ∑ j, c i * c j * (bump p (x i - u) * bump p (x j - u)) =
      (∑ i, c i * bump p (x i - u)) * ∑ j, c j * bump p (x j - u) := by
    intro u
    rw [Finset.sum_mul_sum]
    exact Finset.sum_congr rfl fun i _ => Finset.sum_congr rfl fun j _ => by ring
  simp only [Matrix.of_apply]
  rw [h1, integral_pos_iff_support_of_nonneg (fun u => by
    show 0 ≤ ∑ i, ∑ j, c i * c j * (bump p (x i - u) * bump p (x j - u))
    rw [hsq]; exact mul_self_nonneg _) hint]
  -- the largest point with a non-null coefficient
  obtain ⟨i1, hi1⟩ : ∃ i, c i ≠ 0 := Function.ne_iff.1 hc
  obtain ⟨i0, hi0, hmax⟩ := Finset.exists_max_image (Finset.univ.filter fun i => c i ≠ 0) x ⟨i1, by simpa using hi1⟩
  have hi0 : c i0 ≠ 0 := by simpa using hi0
  have hmax : ∀ i, c i ≠ 0 → x i ≤ x i0 := fun i hi => hmax i (by simpa using hi)
  -- a number below it and above the others
  obtain ⟨b, hb, hlt⟩ : ∃ b, b < x i0 ∧ ∀ i, i ≠ i0 → c i ≠ 0 → x i ≤ b := by
    have hfin : ∀ i ∈ (Finset.univ.filter fun i => i ≠ i0 ∧ c i ≠ 0), x i < x i0 := by
      intro i hi
      simp only [Finset.mem_filter, Finset.mem_univ, true_and] at hi
      exact lt_of_le_of_ne (hmax i hi.2) fun e => hi.1 (hx e)
    by_cases hne : (Finset.univ.filter fun i => i ≠ i0 ∧ c i ≠ 0).Nonempty
    · obtain ⟨m, hm, hmm⟩ := Finset.exists_max_image _ x hne
      exact ⟨x m, hfin m hm, fun i h1 h2 => hmm i (by simp [h1, h2])⟩
    · refine ⟨x i0 - 1, by linarith, fun i h1 h2 => absurd ⟨i, by simp [h1, h2]⟩ hne⟩
  refine lt_of_lt_of_le ?_ (measure_mono (μ := volume) (s := Set.Ioo b (x i0)) ?_)
  · rw [Real.volume_Ioo]
    simpa using hb
  · intro u hu
    rw [Function.mem_support, hsq]
    have hsum : ∑ i, c i * bump p (x i - u) = c i0 * bump p (x i0 - u) := by
      refine Finset.sum_eq_single i0 (fun i _ hi => ?_) (by simp)
      by_cases hci : c i = 0
      · rw [hci, zero_mul]
      · have : x i - u ∉ Set.Ioi (0 : ℝ) := by
          have := hlt i hi hci
          simp only [Set.mem_Ioi, not_lt]
          linarith [hu.1]
        rw [bump, Set.indicator_of_notMem this, mul_zero]
    have hpos : bump p (x i0 - u) ≠ 0 := by
      have h2 : x i0 - u ∈ Set.Ioi (0 : ℝ) := by
        show (0 : ℝ) < x i0 - u
        linarith [hu.2]
      rw [bump, Set.indicator_of_mem h2]
      have : (0 : ℝ) < x i0 - u := h2
      positivity
    rw [hsum]
    exact mul_self_ne_zero.2 (mul_ne_zero hi0 hpos)

/-- Moments determine the coefficients of distinct numbers. -/
theorem moments_zero {ι : Type} [Fintype ι] {v c : ι → ℝ} (hv : Function.Injective v)
    (h : ∀ k : ℕ, ∑ i, c i * v i ^ k = 0) : c = 0 := by
  have e := Fintype.equivFin ι
  have : (c ∘ e.symm) = 0 := by
    refine Matrix.eq_zero_of_forall_pow_sum_mul_pow_eq_zero (f := v ∘ e.symm) (hv.comp e.symm.injective) fun k => ?_
    have := h k
    rwa [← Equiv.sum_comp e.symm] at this
  funext i
  simpa using congrFun this (e i)

theorem pd_exp_mul : StrictlyPd fun x y => rexp (x * y) := by
  intro ι _ v hv
  refine pd_of_quad _ (fun i j => by simp [mul_comm]) fun c hc => ?_
  have h1 : HasSum (fun k : ℕ => ∑ i, ∑ j, c i * c j * ((v i * v j) ^ k / k.factorial))
      (∑ i, ∑ j, c i * c j * rexp (v i * v j)) := by
    refine hasSum_sum fun i _ => hasSum_sum fun j _ => ?_
    refine HasSum.mul_left _ ?_
    have := NormedSpace.expSeries_div_hasSum_exp (𝔸 := ℝ) (v i * v j)
    rwa [← Real.exp_eq_exp_ℝ] at this
  have hterm : ∀ k : ℕ, ∑ i, ∑ j, c i * c j * ((v i * v j) ^ k / k.factorial) =
      (∑ i, c i * v i ^ k) * (∑ j, c j * v j ^ k) / k.factorial := by
    intro k
    rw [Finset.sum_mul_sum, Finset.sum_div]
    refine Finset.sum_congr rfl fun i _ => ?_
    rw [Finset.sum_div]
    exact Finset.sum_congr rfl fun j _ => by rw [mul_pow]; ring
  have hnn : ∀ k : ℕ, 0 ≤ ∑ i, ∑ j, c i * c j * ((v i * v j) ^ k / k.factorial) := fun k => by
    rw [hterm]; exact div_nonneg (mul_self_nonneg _) (by positivity)
  obtain ⟨k, hk⟩ : ∃ k : ℕ, ∑ i, c i * v i ^ k ≠ 0 := by
    by_contra hcon
    push Not at hcon
    exact hc (moments_zero hv hcon)
  simp only [Matrix.of_apply]
  rw [← h1.tsum_eq]
  refine h1.summable.tsum_pos hnn k ?_
  rw [hterm]
  have := mul_self_pos.2 hk
  positivity

/-- Product by a function of each point. -/
theorem pd_scale {ι : Type} [Fintype ι] {M : Matrix ι ι ℝ} (hM : M.PosDef) (v : ι → ℝ) (hv : ∀ i, v i ≠ 0) :
    (Matrix.of fun i j => v i * v j * M i j : Matrix ι ι ℝ).PosDef := by
  refine pd_of_quad _ (fun i j => ?_) fun c hc => ?_
  · have := congrFun (congrFun hM.1 i) j
    simp only [Matrix.conjTranspose_apply, star_trivial] at this
    simp only [Matrix.of_apply, this]; ring
  · have := hM.dotProduct_mulVec_pos (x := fun i => c i * v i) (by
      intro h0
      apply hc
      funext i
      have := congrFun h0 i
      simpa [hv i] using this)
    simp only [dotProduct, Matrix.mulVec, star_trivial, Finset.mul_sum] at this
    calc (0 : ℝ) < _ := this
      _ = _ := Finset.sum_congr rfl fun i _ => Finset.sum_congr rfl fun j _ => by simp only [Matrix.of_apply]; ring

theorem pd_se (a : ℝ) (ha : 0 < a) : StrictlyPd fun x y => rexp (-0.5 * ((x - y) ^ 2 * a)) := by
  intro ι _ x hx
  have h := pd_scale (pd_exp_mul ι (fun i => √a * x i) fun i j hij => hx (by
      have := Real.sqrt_pos.2 ha
      exact mul_left_cancel₀ this.ne' hij)) (fun i => rexp (-0.5 * (x i ^ 2 * a))) fun i => (Real.exp_pos _).ne'
  refine (congrArg Matrix.PosDef ?_).mp h
  funext i j
  simp only [Matrix.of_apply, ← Real.exp_add]
  congr 1
  have := Real.mul_self_sqrt ha.le
  linear_combination (x i * x j) * this

/-- One-dimensional correlations are strictly positive definite. -/
theorem pd_corr1 (k : Kernel) (a : ℝ) (ha : 0 < a) : StrictlyPd fun x y => Spec.corr1 k (a * |x - y|) := by
  have scale : ∀ b : ℝ, 0 ≤ b → ∀ x y : ℝ, |b * x - b * y| = b * |x - y| := by
    intro b hb x y
    rw [← mul_sub, abs_mul, abs_of_nonneg hb]
  intro ι _ x hx
  have inj : ∀ b : ℝ, 0 < b → Function.Injective fun i => b * x i := fun b hb i j hij =>
    hx (mul_left_cancel₀ hb.ne' hij)
  cases k with
  | squaredExponential =>
    refine (congrArg Matrix.PosDef ?_).mp (pd_se (a ^ 2) (pow_pos ha 2) ι x hx)
    funext i j
    simp only [Matrix.of_apply, Spec.corr1]
    rw [mul_pow, sq_abs]
    congr 1
    ring
  | absoluteExponential =>
    refine (congrArg Matrix.PosDef ?_).mp
      ((pd_matern 0 (by norm_num) ι (fun i => a * x i) (inj a ha)).smul (zero_lt_two (α := ℝ)))
    funext i j
    simp only [Matrix.of_apply, Spec.corr1, Matrix.smul_apply, scale a ha.le, matern, smul_eq_mul]
    ring
  | matern32 =>
    have h3 : 0 < √3 * a := by positivity
    refine (congrArg Matrix.PosDef ?_).mp
      ((pd_matern 1 (by norm_num) ι (fun i => √3 * a * x i) (inj _ h3)).smul (zero_lt_four (α := ℝ)))
    funext i j
    simp only [Matrix.of_apply, Spec.corr1, Matrix.smul_apply, scale _ h3.le, matern, smul_eq_mul]
    rw [show -√3 * (a * |x i - x j|) = -(√3 * a * |x i - x j|) by ring]
    ring
  | matern52 =>
    have h5 : 0 < √5 * a := by positivity
    refine (congrArg Matrix.PosDef ?_).mp
      ((pd_matern 2 le_rfl ι (fun i => √5 * a * x i) (inj _ h5)).smul (show (0 : ℝ) < 4 / 3 by norm_num))
    funext i j
    simp only [Matrix.of_apply, Spec.corr1, Matrix.smul_apply, scale _ h5.le, matern, smul_eq_mul]
    have hs : (√5) ^ 2 = 5 := Real.sq_sqrt (by norm_num)
    rw [show -√5 * (a * |x i - x j|) = -(√5 * a * |x i - x j|) by ring]
    have : (√5 * a * |x i - x j|) ^ 2 = 5 * (a * |x i - x j|) ^ 2 := by
      rw [mul_assoc, mul_pow, hs]
    rw [this]
    ring

/-- Product of functions of several variables: points which differ in one of them. -/
theorem pd_prod {κ : Type} (s : Finset κ) (k : κ → ℝ → ℝ → ℝ) (hk : ∀ a ∈ s, StrictlyPd (k a)) :
    ∀ (ι : Type) [Fintype ι] (x : ι → κ → ℝ), (∀ i j, (∀ a ∈ s, x i a = x j a) → i = j) →
      (Matrix.of fun i j => ∏ a ∈ s, k a (x i a) (x j a) : Matrix ι ι ℝ).PosDef := by
  classical
  induction s using Finset.induction_on with
  | empty =>
    intro ι _ x hx
    have : (Matrix.of fun i j => ∏ a ∈ (∅ : Finset κ), k a (x i a) (x j a) : Matrix ι ι ℝ) = 1 := by
      funext i j
      have := hx i j (by simp)
      subst this
      simp
    rw [this]
    exact Matrix.PosDef.one
  | insert b s hb ih =>
    intro ι _ x hx
    let gV : ι → ℝ := fun i => x i b
    let gU : ι → s → ℝ := fun i a => x i a
    have : Fintype (Set.range gV) := Fintype.ofFinite _
    have : Fintype (Set.range gU) := Fintype.ofFinite _
    have h1 := hk b (Finset.mem_insert_self _ _) (Set.range gV) (fun v => v.1) Subtype.val_injective
    obtain ⟨rep, hrep⟩ : ∃ rep : Set.range gU → ι, ∀ u, gU (rep u) = u.1 :=
      ⟨fun u => u.2.choose, fun u => u.2.choose_spec⟩
    have hu : ∀ (u : Set.range gU) (a : κ) (ha : a ∈ s), x (rep u) a = u.1 ⟨a, ha⟩ := fun u a ha =>
      congrFun (hrep u) ⟨a, ha⟩
    have h2 := ih (fun a ha => hk a (Finset.mem_insert_of_mem ha)) (Set.range gU) (fun u => x (rep u)) (by
      intro u u' h
      apply Subtype.ext
      funext ⟨a, ha⟩
      rw [← hu u a ha, ← hu u' a ha]
      exact h a ha)
    have h3 := (h1.kronecker h2).submatrix
      (e := fun i : ι => (Set.rangeFactorization gV i, Set.rangeFactorization gU i)) (by
        intro i j hij
        simp only [Prod.mk.injEq] at hij
        refine hx i j fun a ha => ?_
        rcases Finset.mem_insert.1 ha with rfl | ha
        · exact congrArg Subtype.val hij.1
        · exact congrFun (congrArg Subtype.val hij.2) ⟨a, ha⟩)
    refine (congrArg Matrix.PosDef ?_).mp h3
    funext i j
    simp only [Matrix.submatrix_apply, Matrix.kroneckerMap_apply, Matrix.of_apply, Finset.prod_insert hb]
    have e : ∀ i, ∀ a ∈ s, x (rep (Set.rangeFactorization gU i)) a = x i a := fun i a ha => by
      rw [hu _ a ha]; rfl
    have ep : (∏ a ∈ s, k a (x (rep (Set.rangeFactorization gU i)) a) (x (rep (Set.rangeFactorization gU j)) a)) =
        ∏ a ∈ s, k a (x i a) (x j a) := Finset.prod_congr rfl fun a ha => by rw [e i a ha, e j a ha]
    rw [ep]
    rfl

/-- Correlation matrices are positive definite exactly for points which differ, two by two, in some variable which
counts. -/
theorem posDef_kernel_iff {ι : Type} [Fintype ι] {n h : ℕ} (k : Kernel) (θ : Fin h → ℝ) (hθ : ∀ l, 0 ≤ θ l)
    (w : Fin n → Fin h → ℝ) (x : ι → Fin n → ℝ) :
    (Matrix.of fun i j => k.value θ w (x i - x j) : Matrix ι ι ℝ).PosDef ↔
      ∀ i j, i ≠ j → ∃ a l, θ l ≠ 0 ∧ w a l ≠ 0 ∧ x i a ≠ x j a := by
  classical
  constructor
  · intro hpd i j hij
    by_contra hcon
    push Not at hcon
    have he : ∀ b, k.value θ w (x i - x b) = k.value θ w (x j - x b) := by
      intro b
      rw [Props.C40_documented, Props.C40_documented, Spec.corr, Spec.corr]
      refine Finset.prod_congr rfl fun a _ => Finset.prod_congr rfl fun l _ => ?_
      by_cases h1 : θ l = 0
      · simp [h1]
      by_cases h2 : w a l = 0
      · simp [h2]
      rw [Pi.sub_apply, Pi.sub_apply, hcon a l h1 h2]
    have := hpd.dotProduct_mulVec_pos (x := Pi.single i 1 - Pi.single j 1) (by
      intro h0
      have := congrFun h0 i
      simp [hij] at this)
    have hz : (Pi.single i (1 : ℝ) - Pi.single j 1) ᵥ* (Matrix.of fun i j => k.value θ w (x i - x j) : Matrix ι ι ℝ) =
        0 := by
      funext b
      rw [Matrix.sub_vecMul, Pi.sub_apply, Matrix.single_one_vecMul, Matrix.single_one_vecMul]
      simp [Matrix.row, he b]
    rw [star_trivial, Matrix.dotProduct_mulVec, hz] at this
    simp at this
  · intro hx
    have h0 : Spec.corr1 k 0 = 1 := by cases k <;> simp [Spec.corr1]
    have h1 := pd_prod ((Finset.univ : Finset (Fin n × Fin h)).filter fun p => θ p.2 * |w p.1 p.2| ≠ 0)
      (fun p x y => Spec.corr1 k (θ p.2 * |w p.1 p.2| * |x - y|)) (fun p hp => by
        refine pd_corr1 k _ ?_
        have := (Finset.mem_filter.1 hp).2
        exact lt_of_le_of_ne (mul_nonneg (hθ _) (abs_nonneg _)) this.symm) ι (fun i p => x i p.1) (by
        intro i j hij
        by_contra hne
        obtain ⟨a, l, h1, h2, h3⟩ := hx i j hne
        exact h3 (hij (a, l) (by simp [h1, h2])))
    refine (congrArg Matrix.PosDef ?_).mp h1
    funext i j
    rw [Matrix.of_apply, Matrix.of_apply, Props.C40_documented, Spec.corr, Finset.prod_filter, Fintype.prod_prod_type]
    refine Finset.prod_congr rfl fun a _ => Finset.prod_congr rfl fun l _ => ?_
    split_ifs with hp
    · rfl
    · rw [not_not.1 hp, zero_mul, h0]

end Verif.Kernels
