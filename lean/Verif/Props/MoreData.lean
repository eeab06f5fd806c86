import Verif.Props.GpStrict
import Verif.Props.GpFar

/-!
# C149: additional observations of a Gaussian process
-/

set_option autoImplicit false

namespace Verif.Props

open Matrix Kernels Means GpUtils Spec Gp

variable {n m d h h2 p : ℕ} {la la2 : LinAlg} {kernel : Kernel} {mean : Mean} {nugget : ℝ} {theta : Fin h → ℝ}
  {w : Fin d → Fin h → ℝ} {x : Fin n → Fin d → ℝ} {y : Fin n → ℝ} {g : Model n d h} {theta2 : Fin h2 → ℝ}
  {w2 : Fin d → Fin h2 → ℝ} {x2 : Fin m → Fin d → ℝ} {y2 : Fin m → ℝ} {g2 : Model m d h2}

/-- The correlation of two points (in the units of the user) for a process trained at `x`. -/
noncomputable def corrOf (kernel : Kernel) (theta : Fin h → ℝ) (w : Fin d → Fin h → ℝ) (x : Fin n → Fin d → ℝ)
    (a b : Fin d → ℝ) : ℝ := kernel.value theta w (xnPoint x a - xnPoint x b)

/-! ## Dual form of the prediction -/

theorem krigBeta_dual {R : Matrix (Fin n) (Fin n) ℝ} {F : Matrix (Fin n) (Fin p) ℝ} {c γ : Matrix (Fin n) (Fin 1) ℝ}
    {b : Matrix (Fin p) (Fin 1) ℝ} (hR : IsUnit R.det) (hB : IsUnit (Fᵀ * R⁻¹ * F).det) (h1 : c = F * b + R * γ)
    (h2 : Fᵀ * γ = 0) : krigBeta R F c = b := by
  rw [krigBeta, h1, Matrix.mul_add, ← Matrix.mul_assoc _ R, Matrix.mul_assoc Fᵀ R⁻¹ R, Matrix.nonsing_inv_mul _ hR,
    Matrix.mul_one, h2, add_zero, ← Matrix.mul_assoc _ F, ← Matrix.mul_assoc, Matrix.nonsing_inv_mul _ hB, Matrix.one_mul]

theorem krig_dual {R : Matrix (Fin n) (Fin n) ℝ} {F : Matrix (Fin n) (Fin p) ℝ} {c γ r : Matrix (Fin n) (Fin 1) ℝ}
    {b f : Matrix (Fin p) (Fin 1) ℝ} (hR : IsUnit R.det) (hB : IsUnit (Fᵀ * R⁻¹ * F).det) (h1 : c = F * b + R * γ)
    (h2 : Fᵀ * γ = 0) : krigMean R F c r f = (fᵀ * b) 0 0 + (rᵀ * γ) 0 0 ∧
      krigSigma2 R F c = ((R * γ)ᵀ * γ) 0 0 / n := by
  have e : c - F * b = R * γ := by rw [h1, add_sub_cancel_left]
  refine ⟨?_, ?_⟩
  · rw [krigMean, krigBeta_dual hR hB h1 h2, e, Matrix.mul_assoc, ← Matrix.mul_assoc R⁻¹, Matrix.nonsing_inv_mul _ hR,
      Matrix.one_mul, Matrix.add_apply]
  · rw [krigSigma2, krigBeta_dual hR hB h1 h2, e, Matrix.mul_assoc, ← Matrix.mul_assoc R⁻¹, Matrix.nonsing_inv_mul _ hR,
      Matrix.one_mul]

/-- A trend and coefficients which solve the equations of universal kriging for the outputs `y`. -/
structure Dual (kernel : Kernel) (mean : Mean) (nugget : ℝ) (theta : Fin h → ℝ) (w : Fin d → Fin h → ℝ)
    (x : Fin n → Fin d → ℝ) (y : Fin n → ℝ) (t : (Fin d → ℝ) → ℝ) (γ : Fin n → ℝ) : Prop where
  trend : IsTrend mean t
  solves : ∀ i, ∑ j, corrMatrix kernel theta w nugget (xnData x) i j * γ j = y i - t (x i)
  orth : ∀ s, IsTrend mean s → ∑ i, γ i * s (x i) = 0

theorem dual_predict (hg : fitWith la kernel mean nugget theta w x y = some g) {t : (Fin d → ℝ) → ℝ} {γ : Fin n → ℝ}
    (hd : Dual kernel mean nugget theta w x y t γ) :
    (∀ x', g.predict x' = t x' + ∑ i, γ i * corrOf kernel theta w x x' (x i)) ∧
      g.inner.sigma2 = (∑ i, γ i * (y i - t (x i))) / n := by
  obtain ⟨_, hR, hB, hsig⟩ := fit_matrices hg
  have ht : (t - fun _ => colMean y) ∈ Submodule.span ℝ (Set.range (feat mean x)) :=
    Submodule.sub_mem _ ((trend_iff t).1 hd.trend) (const_span _)
  obtain ⟨b, hb⟩ := (Submodule.mem_span_range_iff_exists_fun ℝ).1 ht
  have hb' : ∀ z, t z = colMean y + ∑ a, b a * feat mean x a z := fun z => by
    have := congrFun hb z
    simp only [Finset.sum_apply, Pi.smul_apply, smul_eq_mul, Pi.sub_apply] at this
    linarith
  have h1 : centred y = meanMat mean (xnData x) * (Matrix.of fun a (_ : Fin 1) => b a) +
      corrMatrix kernel theta w nugget (xnData x) * (Matrix.of fun i (_ : Fin 1) => γ i) := by
    funext i k
    rw [Matrix.add_apply, Matrix.mul_apply, Matrix.mul_apply]
    simp only [Matrix.of_apply, centred]
    rw [hd.solves i, hb' (x i)]
    have : ∑ a, meanMat mean (xnData x) i a * b a = ∑ a, b a * feat mean x a (x i) :=
      Finset.sum_congr rfl fun a _ => by rw [meanMat_feat, mul_comm]
    rw [this]; ring
  have h2 : (meanMat mean (xnData x))ᵀ * (Matrix.of fun i (_ : Fin 1) => γ i) = 0 := by
    funext a k
    rw [Matrix.mul_apply, Matrix.zero_apply, ← hd.orth _ (feat_trend (x := x) a)]
    exact Finset.sum_congr rfl fun i _ => by rw [Matrix.transpose_apply, meanMat_feat, mul_comm]; rfl
  refine ⟨fun x' => ?_, ?_⟩
  · rw [(predict_closed hg la x').1, (krig_dual hR hB h1 h2).1, Matrix.mul_apply, Matrix.mul_apply, hb' x']
    simp only [Matrix.transpose_apply, Matrix.of_apply, rAt, fAt]
    have e1 : ∑ a : Fin (basis mean d), (mean.value (xnPoint x x')).getD a.val 0 * b a = ∑ a, b a * feat mean x a x' :=
      Finset.sum_congr rfl fun a _ => by rw [feat, mul_comm]
    have e2 : ∑ i, kernel.value theta w (xnPoint x x' - xnData x i) * γ i = ∑ i, γ i * corrOf kernel theta w x x' (x i) :=
      Finset.sum_congr rfl fun i _ => mul_comm _ _
    rw [e1, e2]; ring
  · rw [hsig, (krig_dual (r := 0) (f := 0) hR hB h1 h2).2, Matrix.mul_apply]
    congr 1
    refine Finset.sum_congr rfl fun i _ => ?_
    rw [Matrix.transpose_apply, Matrix.mul_apply, ← hd.solves i, mul_comm]
    rfl

theorem dual_exists (hg : fitWith la kernel mean nugget theta w x y = some g) :
    ∃ t γ, Dual kernel mean nugget theta w x y t γ := by
  obtain ⟨_, hR, hB, _⟩ := fit_matrices hg
  set R := corrMatrix kernel theta w nugget (xnData x) with hRd
  set F := meanMat mean (xnData x) with hF
  set b := krigBeta R F (centred y) with hb
  set c := R⁻¹ * (centred y - F * b) with hc
  have h2 : Fᵀ * c = 0 := by
    rw [hc, ← Matrix.mul_assoc, Matrix.mul_sub, ← Matrix.mul_assoc _ F, hb, krigBeta, ← Matrix.mul_assoc (Fᵀ * R⁻¹ * F),
      Matrix.mul_nonsing_inv _ hB, Matrix.one_mul, sub_self]
  have h1 : R * c = centred y - F * b := by
    rw [hc, ← Matrix.mul_assoc, Matrix.mul_nonsing_inv _ hR, Matrix.one_mul]
  refine ⟨fun z => colMean y + ∑ a, b a 0 * feat mean x a z, fun i => c i 0, ?_, fun i => ?_, fun s hs => ?_⟩
  · refine (IsTrend.const (colMean y)).add ((trend_iff (x := x) _).2 ?_)
    have : (fun z => ∑ a, b a 0 * feat mean x a z) = ∑ a, b a 0 • feat mean x a := by
      funext z; simp [Finset.sum_apply]
    rw [this]
    exact Submodule.sum_mem _ fun a _ => Submodule.smul_mem _ _ (Submodule.subset_span ⟨a, rfl⟩)
  · have := congrFun (congrFun h1 i) 0
    rw [Matrix.mul_apply, Matrix.sub_apply, Matrix.mul_apply] at this
    rw [this]
    have e : ∑ a, F i a * b a 0 = ∑ a, b a 0 * feat mean x a (x i) :=
      Finset.sum_congr rfl fun a _ => by rw [hF, meanMat_feat, mul_comm]
    rw [e, centred, Matrix.of_apply]
    ring
  · rw [trend_iff (x := x)] at hs
    induction hs using Submodule.span_induction with
    | mem s h =>
      obtain ⟨a, rfl⟩ := h
      have := congrFun (congrFun h2 a) 0
      rw [Matrix.mul_apply, Matrix.zero_apply] at this
      rw [← this]
      exact Finset.sum_congr rfl fun i _ => by rw [Matrix.transpose_apply, hF, meanMat_feat, mul_comm]
    | zero => simp
    | add s t _ _ h1 h2 => simp only [Pi.add_apply, mul_add, Finset.sum_add_distrib, h1, h2, add_zero]
    | smul a t _ h1 =>
      have : ∀ i, c i 0 * (a • t) (x i) = a * (c i 0 * t (x i)) := fun i => by
        rw [Pi.smul_apply, smul_eq_mul]; ring
      simp only [this, ← Finset.mul_sum, h1, mul_zero]

/-! ## More data -/

/-- The data `x2` contain the data `x`, at the places `ι`, and points have the same correlations in both processes. -/
structure Extends (kernel : Kernel) (theta : Fin h → ℝ) (w : Fin d → Fin h → ℝ) (theta2 : Fin h2 → ℝ)
    (w2 : Fin d → Fin h2 → ℝ) (x : Fin n → Fin d → ℝ) (x2 : Fin m → Fin d → ℝ) (ι : Fin n → Fin m) : Prop where
  inj : Function.Injective ι
  data : ∀ i, x2 (ι i) = x i
  corr : ∀ a b, corrOf kernel theta2 w2 x2 a b = corrOf kernel theta w x a b

theorem sum_extend {ι : Fin n → Fin m} (hι : Function.Injective ι) (l : Fin n → ℝ) (f : Fin m → ℝ) :
    ∑ k, Function.extend ι l 0 k * f k = ∑ i, l i * f (ι i) := by
  symm
  refine Fintype.sum_of_injective ι hι _ _ (fun k hk => ?_) fun i => by rw [hι.extend_apply]
  rw [Function.extend_apply' _ _ _ (by simpa using hk)]
  simp

theorem corrMatrix_extends {ι : Fin n → Fin m} (he : Extends kernel theta w theta2 w2 x x2 ι) (i j : Fin n) :
    corrMatrix kernel theta2 w2 nugget (xnData x2) (ι i) (ι j) = corrMatrix kernel theta w nugget (xnData x) i j := by
  rw [corrMatrix, corrMatrix, Matrix.of_apply, Matrix.of_apply]
  by_cases h : i = j
  · rw [if_pos h, if_pos (by rw [h])]
  · rw [if_neg h, if_neg fun e => h (he.inj e)]
    have := he.corr (x2 (ι i)) (x2 (ι j))
    rw [he.data i, he.data j] at this
    rw [← xnPoint_data, ← xnPoint_data, he.data i, he.data j]
    exact this

/-- C149. Additional observations, whatever their values, never increase the predicted variance relative to the variance
of the process. -/
theorem C149_relative_variance {ι : Fin n → Fin m} (he : Extends kernel theta w theta2 w2 x x2 ι)
    (hg : fitWith la kernel mean nugget theta w x y = some g)
    (hg2 : fitWith la2 kernel mean nugget theta2 w2 x2 y2 = some g2) (la' : LinAlg) (x' : Fin d → ℝ) :
    ∃ v v2, g.predictVar la' x' = some v ∧ g2.predictVar la' x' = some v2 ∧
      v2 * g.inner.sigma2 ≤ v * g2.inner.sigma2 := by
  obtain ⟨l, hl⟩ := C107_best_linear_unbiased kernel mean nugget theta w x x'
  obtain ⟨l2, hl2⟩ := C107_best_linear_unbiased kernel mean nugget theta2 w2 x2 x'
  obtain ⟨_, hu, hv, _⟩ := hl la la' y g hg
  obtain ⟨_, _, hv2, hmin, _⟩ := hl2 la2 la' y2 g2 hg2
  refine ⟨_, _, hv, hv2, ?_⟩
  have hs := fit_sigma2_nonneg hg
  have hs2 := fit_sigma2_nonneg hg2
  have ok := fitWith_ok hg
  have ok2 := fitWith_ok hg2
  have hx : g.xtData = xnData x := by funext i j; rw [ok.xdata, ok.xmean, ok.xstdOf, xnData]
  have hx2 : g2.xtData = xnData x2 := by funext i j; rw [ok2.xdata, ok2.xmean, ok2.xstdOf, xnData]
  have hp : g.xnorm x' = xnPoint x x' := by funext j; rw [Model.xnorm, ok.xmean, ok.xstdOf, xnPoint]
  have hp2 : g2.xnorm x' = xnPoint x2 x' := by funext j; rw [Model.xnorm, ok2.xmean, ok2.xstdOf, xnPoint]
  have hub : Unbiased mean x2 x' (Function.extend ι l 0) := fun t ht => by
    rw [sum_extend he.inj l fun k => t (x2 k)]
    simp only [he.data]
    exact hu t ht
  have hle := hmin _ hub
  rw [hx, hp] 
  rw [hx2, hp2] at hle ⊢
  have e : errVar (corrMatrix kernel theta2 w2 nugget (xnData x2))
      (fun i => kernel.value theta2 w2 (xnPoint x2 x' - xnData x2 i)) (Function.extend ι l 0) =
      errVar (corrMatrix kernel theta w nugget (xnData x)) (fun i => kernel.value theta w (xnPoint x x' - xnData x i)) l := by
    rw [errVar, errVar, sum_extend he.inj l]
    have e1 : ∀ i, kernel.value theta2 w2 (xnPoint x2 x' - xnData x2 (ι i)) = kernel.value theta w (xnPoint x x' - xnData x i) := by
      intro i
      have := he.corr x' (x2 (ι i))
      rw [he.data i] at this
      rw [← xnPoint_data, ← xnPoint_data, he.data i]
      exact this
    have e2 : ∑ i, ∑ j, Function.extend ι l 0 i * corrMatrix kernel theta2 w2 nugget (xnData x2) i j * Function.extend ι l 0 j =
        ∑ i, ∑ j, l i * corrMatrix kernel theta w nugget (xnData x) i j * l j := by
      have : ∀ i, ∑ j, Function.extend ι l 0 i * corrMatrix kernel theta2 w2 nugget (xnData x2) i j * Function.extend ι l 0 j =
          Function.extend ι l 0 i * ∑ j, l j * corrMatrix kernel theta2 w2 nugget (xnData x2) i (ι j) := by
        intro i
        rw [← sum_extend he.inj l, Finset.mul_sum]
        exact Finset.sum_congr rfl fun j _ => by ring
      simp only [this]
      rw [sum_extend he.inj l]
      refine Finset.sum_congr rfl fun i _ => ?_
      rw [Finset.mul_sum]
      exact Finset.sum_congr rfl fun j _ => by rw [corrMatrix_extends he]; ring
    simp only [e1]
    rw [e2]
  rw [e] at hle
  set E := errVar (corrMatrix kernel theta w nugget (xnData x)) (fun i => kernel.value theta w (xnPoint x x' - xnData x i)) l
  set E2 := errVar (corrMatrix kernel theta2 w2 nugget (xnData x2))
      (fun i => kernel.value theta2 w2 (xnPoint x2 x' - xnData x2 i)) l2
  rw [max_mul_of_nonneg _ _ hs, max_mul_of_nonneg _ _ hs2, zero_mul, zero_mul]
  refine max_le_max le_rfl ?_
  have := mul_le_mul_of_nonneg_left hle (mul_nonneg hs2 hs)
  linarith

/-- C149. When the additional observations are the predictions of the process (kriging believer), all the predictions
stay the same, and the variances decrease at least in the ratio of the numbers of observations. -/
theorem C149_believer_partial {ι : Fin n → Fin m} (he : Extends kernel theta w theta2 w2 x x2 ι)
    (hg : fitWith la kernel mean nugget theta w x y = some g)
    (hg2 : fitWith la2 kernel mean nugget theta2 w2 x2 y2 = some g2) (hy : ∀ i, y2 (ι i) = y i)
    (hb : ∀ k, (∀ i, ι i ≠ k) → y2 k = g.predict (x2 k)) (la' : LinAlg) (x' : Fin d → ℝ) :
    g2.predict x' = g.predict x' ∧
      ∃ v v2, g.predictVar la' x' = some v ∧ g2.predictVar la' x' = some v2 ∧ v2 ≤ n / m * v := by
  obtain ⟨t, γ, hd⟩ := dual_exists hg
  obtain ⟨hp, hsig⟩ := dual_predict hg hd
  have hd2 : Dual kernel mean nugget theta2 w2 x2 y2 t (Function.extend ι γ 0) := by
    refine ⟨hd.trend, fun k => ?_, fun s hs => ?_⟩
    · have e : ∑ j, corrMatrix kernel theta2 w2 nugget (xnData x2) k j * Function.extend ι γ 0 j =
          ∑ i, γ i * corrMatrix kernel theta2 w2 nugget (xnData x2) k (ι i) := by
        rw [← sum_extend he.inj]
        exact Finset.sum_congr rfl fun j _ => mul_comm _ _
      rw [e]
      by_cases hk : ∃ i, ι i = k
      · obtain ⟨i, rfl⟩ := hk
        rw [hy, he.data, ← hd.solves i]
        exact Finset.sum_congr rfl fun j _ => by rw [corrMatrix_extends he, mul_comm]
      · rw [hb k fun i hi => hk ⟨i, hi⟩, hp, add_sub_cancel_left]
        refine Finset.sum_congr rfl fun j _ => ?_
        rw [corrMatrix, Matrix.of_apply, if_neg fun hj => hk ⟨j, hj.symm⟩, ← he.corr, ← xnPoint_data, ← xnPoint_data, he.data]
        rfl
    · rw [sum_extend he.inj γ fun k => s (x2 k)]
      simp only [he.data]
      exact hd.orth s hs
  obtain ⟨hp2, hsig2⟩ := dual_predict hg2 hd2
  have hpred : g2.predict x' = g.predict x' := by
    rw [hp2, hp, sum_extend he.inj γ fun k => corrOf kernel theta2 w2 x2 x' (x2 k)]
    simp only [he.data, he.corr]
  have hs2 : g2.inner.sigma2 * m = g.inner.sigma2 * n := by
    have hn : (n : ℝ) ≠ 0 := by have := (fitWith_ok hg).two; exact_mod_cast (by omega : n ≠ 0)
    have hm : (m : ℝ) ≠ 0 := by have := (fitWith_ok hg2).two; exact_mod_cast (by omega : m ≠ 0)
    rw [hsig2, hsig, div_mul_cancel₀ _ hn, div_mul_cancel₀ _ hm, sum_extend he.inj γ fun k => y2 k - t (x2 k)]
    simp only [he.data, hy]
  refine ⟨hpred, ?_⟩
  obtain ⟨v, v2, h1, h2, h3⟩ := C149_relative_variance he hg hg2 la' x'
  refine ⟨v, v2, h1, h2, ?_⟩
  have hm : (0 : ℝ) < m := by have := (fitWith_ok hg2).two; exact_mod_cast (by omega : 0 < m)
  rcases (fit_sigma2_nonneg hg).eq_or_lt with h0 | h0
  · have z : g2.inner.sigma2 = 0 := by
      rw [← h0, zero_mul] at hs2
      exact (mul_eq_zero.1 hs2).resolve_right hm.ne'
    have a1 := ((C107_trend hg).2.1 h0.symm)
    have a2 := ((C107_trend hg2).2.1 z)
    obtain ⟨s, hs, hys⟩ := a1
    obtain ⟨s2, hs2, hys2⟩ := a2
    have b1 := ((C107_trend hg).1 s hs hys la' x').2
    have b2 := ((C107_trend hg2).1 s2 hs2 hys2 la' x').2
    rw [h1] at b1
    rw [h2] at b2
    simp only [Option.some.injEq] at b1 b2
    rw [b1, b2, mul_zero]
  · have e : g2.inner.sigma2 = n / m * g.inner.sigma2 := by field_simp; linarith
    rw [e] at h3
    refine le_of_mul_le_mul_right ?_ h0
    linarith

/-- C149. The effect of additional observations is linear in their differences with the predictions: the predictions
change by a combination of the prediction errors at the added points. -/
theorem C149_update {ι : Fin n → Fin m} (he : Extends kernel theta w theta2 w2 x x2 ι) (x' : Fin d → ℝ) :
    ∃ l : Fin m → ℝ, (∀ i, l (ι i) = 0) ∧ ∀ (la la2 : LinAlg) (y : Fin n → ℝ) (y2 : Fin m → ℝ) (g : Model n d h)
      (g2 : Model m d h2), fitWith la kernel mean nugget theta w x y = some g →
      fitWith la2 kernel mean nugget theta2 w2 x2 y2 = some g2 → (∀ i, y2 (ι i) = y i) →
      g2.predict x' = g.predict x' + ∑ k, l k * (y2 k - g.predict (x2 k)) := by
  classical
  obtain ⟨l2, hl2⟩ := C107_best_linear_unbiased kernel mean nugget theta2 w2 x2 x'
  refine ⟨fun k => if ∃ i, ι i = k then 0 else l2 k, fun i => if_pos ⟨i, rfl⟩, fun la la2 y y2 g g2 hg hg2 hy => ?_⟩
  set y3 : Fin m → ℝ := fun k => if ∃ i, ι i = k then y2 k else g.predict (x2 k) with h3
  obtain ⟨g3, hg3⟩ := C104_success hg2 y3
  have hb := (C149_believer_partial he hg hg3 (fun i => by rw [h3]; exact (if_pos ⟨i, rfl⟩).trans (hy i))
    (fun k hk => by rw [h3]; exact if_neg fun ⟨i, hi⟩ => hk i hi) la x').1
  rw [← hb, (hl2 la2 la y2 g2 hg2).1, (hl2 la2 la y3 g3 hg3).1, ← Finset.sum_add_distrib]
  refine Finset.sum_congr rfl fun k _ => ?_
  simp only [h3]
  by_cases hk : ∃ i, ι i = k
  · rw [if_pos hk, if_pos hk]; ring
  · rw [if_neg hk, if_neg hk]; ring

/-! ## Same correlations -/

theorem corr1_strictAnti (k : Kernel) {a b : ℝ} (ha : 0 ≤ a) (hab : a < b) : corr1 k b < corr1 k a := by
  cases k with
  | squaredExponential =>
    rw [corr1, corr1, Real.exp_lt_exp]
    nlinarith
  | absoluteExponential =>
    rw [corr1, corr1, Real.exp_lt_exp]
    linarith
  | matern32 =>
    have h3 : (0 : ℝ) < √3 := by positivity
    have e : Real.exp (-√3 * a) = Real.exp (√3 * b - √3 * a) * Real.exp (-√3 * b) := by rw [← Real.exp_add]; ring_nf
    rw [corr1, corr1, e, ← mul_assoc]
    refine mul_lt_mul_of_pos_right ?_ (Real.exp_pos _)
    have h0 := mul_nonneg h3.le ha
    have hd : 0 < √3 * b - √3 * a := by nlinarith
    have := Real.add_one_lt_exp hd.ne'
    nlinarith
  | matern52 =>
    have h5 : (0 : ℝ) < √5 := by positivity
    have q : √5 ^ 2 = 5 := Real.sq_sqrt (by norm_num)
    have e : Real.exp (-√5 * a) = Real.exp (√5 * b - √5 * a) * Real.exp (-√5 * b) := by rw [← Real.exp_add]; ring_nf
    have f : ∀ t, 1 + √5 * t + 5 / 3 * t ^ 2 = 1 + √5 * t + (√5 * t) ^ 2 / 3 := fun t => by rw [mul_pow, q]; ring
    rw [corr1, corr1, e, ← mul_assoc, f, f]
    refine mul_lt_mul_of_pos_right ?_ (Real.exp_pos _)
    have h0 := mul_nonneg h5.le ha
    have hd : 0 < √5 * b - √5 * a := by nlinarith
    have h1 := Real.quadratic_le_exp_of_nonneg hd.le
    generalize √5 * a = A at *
    generalize √5 * b = B at *
    obtain ⟨D, rfl⟩ : ∃ D, B = A + D := ⟨B - A, by ring⟩
    rw [add_sub_cancel_left] at *
    have h2 : 0 < 1 + A + A ^ 2 / 3 := by positivity
    have h4 := mul_le_mul_of_nonneg_left h1 h2.le
    have : 0 ≤ A * D := by positivity
    have : 0 ≤ A * D ^ 2 := by positivity
    have : 0 ≤ A ^ 2 * D := by positivity
    have : 0 ≤ A ^ 2 * D ^ 2 := by positivity
    nlinarith [sq_pos_of_pos hd]

theorem corr1_inj (k : Kernel) {a b : ℝ} (ha : 0 ≤ a) (hb : 0 ≤ b) : corr1 k a = corr1 k b ↔ a = b := by
  refine ⟨fun h => ?_, fun h => by rw [h]⟩
  rcases lt_trichotomy a b with hc | hc | hc
  · exact absurd h (corr1_strictAnti k ha hc).ne'
  · exact hc
  · exact absurd h (corr1_strictAnti k hb hc).ne

/-- The standard deviation by which a variable is divided. -/
noncomputable def stdVar (x : Fin n → Fin d → ℝ) (j : Fin d) : ℝ := stdOf fun i => x i j

theorem corrOf_eq (kernel : Kernel) (theta : Fin h → ℝ) (w : Fin d → Fin h → ℝ) (x : Fin n → Fin d → ℝ) (a b : Fin d → ℝ) :
    corrOf kernel theta w x a b = ∏ j, ∏ l, corr1 kernel (theta l * |w j l| / stdVar x j * |a j - b j|) := by
  rw [corrOf, C40_documented, corr]
  refine Finset.prod_congr rfl fun j _ => Finset.prod_congr rfl fun l _ => ?_
  congr 1
  have hp : 0 < stdVar x j := stdOf_pos _
  have : (xnPoint x a - xnPoint x b) j = (a j - b j) / stdVar x j := by
    rw [Pi.sub_apply, xnPoint, xnPoint, ← sub_div, sub_sub_sub_cancel_right]; rfl
  rw [this, abs_div, abs_of_pos hp]
  ring

/-- C149. Points have the same correlations in both processes when the hyperparameters per unit of each variable, and not
those in normalized units, are the same. -/
theorem C149_same_correlations {theta2 : Fin h → ℝ} {w2 : Fin d → Fin h → ℝ} {ι : Fin n → Fin m}
    (hι : Function.Injective ι) (hx : ∀ i, x2 (ι i) = x i)
    (hs : ∀ j l, theta2 l * |w2 j l| / stdVar x2 j = theta l * |w j l| / stdVar x j) :
    Extends kernel theta w theta2 w2 x x2 ι :=
  ⟨hι, hx, fun a b => by simp only [corrOf_eq, hs]⟩

/-- C149. Without dimension reduction, correlations are the same if and only if the hyperparameters per unit of each
variable are. -/
theorem C149_correlations_iff {theta theta2 : Fin d → ℝ} (h1 : ∀ j, 0 ≤ theta j) (h2 : ∀ j, 0 ≤ theta2 j)
    (x : Fin n → Fin d → ℝ) (x2 : Fin m → Fin d → ℝ) :
    (∀ a b, corrOf kernel theta2 (fun j l => if j = l then 1 else 0) x2 a b =
      corrOf kernel theta (fun j l => if j = l then 1 else 0) x a b) ↔
    ∀ j, theta2 j / stdVar x2 j = theta j / stdVar x j := by
  have z : corr1 kernel 0 = 1 := by cases kernel <;> simp [corr1]
  have key : ∀ {p : ℕ} (th : Fin d → ℝ) (xx : Fin p → Fin d → ℝ) (a b : Fin d → ℝ),
      corrOf kernel th (fun j l => if j = l then 1 else 0) xx a b =
        ∏ j, corr1 kernel (th j / stdVar xx j * |a j - b j|) := by
    intro p th xx a b
    rw [corrOf_eq]
    refine Finset.prod_congr rfl fun j _ => ?_
    rw [Finset.prod_eq_single j]
    · simp
    · intro l _ hl
      rw [if_neg (Ne.symm hl)]
      simp [z]
    · simp
  simp only [key]
  constructor
  · intro hc j
    have := hc (Pi.single j 1) 0
    rw [Finset.prod_eq_single j, Finset.prod_eq_single j] at this
    · simp only [Pi.single_eq_same, Pi.zero_apply, sub_zero, abs_one, mul_one] at this
      exact (corr1_inj kernel (div_nonneg (h2 j) (stdOf_pos _).le) (div_nonneg (h1 j) (stdOf_pos _).le)).1 this
    all_goals first | (intro l _ hl; simp [Pi.single_eq_of_ne hl, z]) | simp
  · intro hs a b
    simp only [hs]

/-- C149. Hyperparameters kept as they are, in normalized units (`ThetaTuning::Fixed`), keep the correlations if and only
if the additional points leave unchanged the standard deviation of each variable that counts. -/
theorem C149_fixed_theta_iff {theta : Fin d → ℝ} (h1 : ∀ j, 0 ≤ theta j) (x : Fin n → Fin d → ℝ) (x2 : Fin m → Fin d → ℝ) :
    (∀ a b, corrOf kernel theta (fun j l => if j = l then 1 else 0) x2 a b =
      corrOf kernel theta (fun j l => if j = l then 1 else 0) x a b) ↔
    ∀ j, theta j ≠ 0 → stdVar x2 j = stdVar x j := by
  rw [C149_correlations_iff h1 h1]
  refine forall_congr' fun j => ?_
  have p1 : 0 < stdVar x j := stdOf_pos _
  have p2 : 0 < stdVar x2 j := stdOf_pos _
  rw [div_eq_div_iff p2.ne' p1.ne']
  exact ⟨fun e h0 => (mul_left_cancel₀ h0 e).symm, fun e => by
    by_cases h0 : theta j = 0
    · rw [h0, zero_mul, zero_mul]
    · rw [e h0]⟩

/-! ## What does not hold -/

/-- Two observed points. -/
def twoPts : Fin 2 → Fin 1 → ℝ := fun i _ => ![0, 1] i

/-- The same with one more point. -/
def threePts : Fin 3 → Fin 1 → ℝ := fun i _ => ![0, 1, 3] i

theorem twoPts_inj : Function.Injective twoPts := by
  intro i j h
  have := congrFun h 0
  fin_cases i <;> fin_cases j <;> simp [twoPts] at this ⊢

theorem threePts_inj : Function.Injective threePts := by
  intro i j h
  have := congrFun h 0
  fin_cases i <;> fin_cases j <;> simp [threePts] at this ⊢

theorem three_two (i : Fin 2) : threePts i.castSucc = twoPts i := by
  funext j
  fin_cases i <;> simp [threePts, twoPts]

theorem std_two : stdVar twoPts 0 = √(1 / 2) := by
  have : √((∑ i, (twoPts i 0 - colMean fun i => twoPts i 0) ^ 2) / ((2 : ℕ) - 1)) = √(1 / 2) := by
    congr 1
    simp [colMean, Fin.sum_univ_two, twoPts]
    norm_num
  rw [stdVar, stdOf, this, if_neg (by positivity)]

theorem std_three : stdVar threePts 0 = √(7 / 3) := by
  have : √((∑ i, (threePts i 0 - colMean fun i => threePts i 0) ^ 2) / ((3 : ℕ) - 1)) = √(7 / 3) := by
    congr 1
    simp [colMean, Fin.sum_univ_three, threePts]
    norm_num
  rw [stdVar, stdOf, this, if_neg (by positivity)]

/-- The hyperparameter that keeps correlations when the third point is added. -/
noncomputable def theta3 : Fin 1 → ℝ := fun _ => stdVar threePts 0 / stdVar twoPts 0

theorem theta3_pos (l : Fin 1) : 0 < theta3 l := div_pos (stdOf_pos _) (stdOf_pos _)

theorem extends_three (kernel : Kernel) :
    Extends kernel (fun _ : Fin 1 => 1) (fun _ _ => 1) theta3 (fun _ _ => 1) twoPts threePts Fin.castSucc :=
  C149_same_correlations (Fin.castSucc_injective 2) three_two fun j l => by
    obtain rfl : j = 0 := Subsingleton.elim _ _
    have p1 : 0 < stdVar twoPts 0 := stdOf_pos _
    have p2 : 0 < stdVar threePts 0 := stdOf_pos _
    rw [theta3, abs_one]
    field_simp

/-- The variance itself may increase: it is zero while the observations follow a trend, and positive after an observation
off the trend. -/
theorem C149_refuted_variance (kernel : Kernel) : ∃ (y : Fin 2 → ℝ) (y2 : Fin 3 → ℝ) (g : Model 2 1 1) (g2 : Model 3 1 1),
    Extends kernel (fun _ : Fin 1 => 1) (fun _ _ => 1) theta3 (fun _ _ => 1) twoPts threePts Fin.castSucc ∧
    fitWith exact kernel .constant 0 (fun _ : Fin 1 => 1) (fun _ _ => 1) twoPts y = some g ∧
    fitWith exact kernel .constant 0 theta3 (fun _ _ => 1) threePts y2 = some g2 ∧ (∀ i : Fin 2, y2 i.castSucc = y i) ∧
    ∃ v2, g.predictVar exact (fun _ => 2) = some 0 ∧ g2.predictVar exact (fun _ => 2) = some v2 ∧ 0 < v2 := by
  obtain ⟨g, hg, _⟩ := C118_distinct kernel (theta := fun _ : Fin 1 => 1) (w := fun _ _ => 1) (fun _ => zero_le_one)
    (fun _ => ⟨0, one_ne_zero, one_ne_zero⟩) twoPts_inj (fun _ => 0) le_rfl
  obtain ⟨g2, hg2, _⟩ := C118_distinct kernel (theta := theta3) (w := fun _ _ => 1) (fun l => (theta3_pos l).le)
    (fun _ => ⟨0, (theta3_pos 0).ne', one_ne_zero⟩) threePts_inj ![0, 0, 1] (by norm_num)
  obtain ⟨v2, hv2, hpos⟩ := C119_positive hg2 (fun l => (theta3_pos l).le) le_rfl (by
    rintro ⟨t, ⟨c, hc⟩, ht⟩
    have h0 := ht 0
    have h2 := ht 2
    rw [hc] at h0 h2
    simp at h0 h2
    linarith) exact (fun _ => 2) (Or.inr fun i => ⟨0, 0, (theta3_pos 0).ne', one_ne_zero, by
      fin_cases i <;> simp [threePts]⟩)
  exact ⟨_, _, g, g2, extends_three kernel, hg, hg2, fun i => by fin_cases i <;> rfl, v2,
    ((C107_trend hg).1 (fun _ => 0) ⟨0, fun _ => rfl⟩ (fun _ => rfl) exact _).2, hv2, hpos⟩

theorem corrOf_abs {p : ℕ} (xx : Fin p → Fin 1 → ℝ) (X : ℝ) (i : Fin p) (hX : xx i 0 ≤ X) :
    corrOf .absoluteExponential (fun _ : Fin 1 => 1) (fun _ _ => 1) xx (fun _ => X) (xx i) =
      Real.exp (xx i 0 / stdVar xx 0) * Real.exp (-1 / stdVar xx 0 * X) := by
  rw [corrOf_eq]
  simp only [Finset.univ_unique, Finset.prod_singleton, Fin.default_eq_zero, corr1, abs_one, mul_one]
  rw [abs_of_nonneg (by linarith), ← Real.exp_add]
  congr 1
  ring

/-- With the hyperparameter left as it is in normalized units, the predictions change although the added output is the
prediction itself. -/
theorem C149_refuted_fixed_theta : ∃ (g : Model 2 1 1) (g2 : Model 3 1 1) (x' : Fin 1 → ℝ),
    fitWith exact .absoluteExponential .constant 0 (fun _ : Fin 1 => 1) (fun _ _ => 1) twoPts ![0, 1] = some g ∧
    fitWith exact .absoluteExponential .constant 0 (fun _ : Fin 1 => 1) (fun _ _ => 1) threePts
      ![0, 1, g.predict (threePts 2)] = some g2 ∧
    g2.predict x' ≠ g.predict x' := by
  obtain ⟨g, hg, _⟩ := C118_distinct .absoluteExponential (theta := fun _ : Fin 1 => 1) (w := fun _ _ => 1)
    (fun _ => zero_le_one) (fun _ => ⟨0, one_ne_zero, one_ne_zero⟩) twoPts_inj ![0, 1] le_rfl
  obtain ⟨g2, hg2, _⟩ := C118_distinct .absoluteExponential (theta := fun _ : Fin 1 => 1) (w := fun _ _ => 1)
    (fun _ => zero_le_one) (fun _ => ⟨0, one_ne_zero, one_ne_zero⟩) threePts_inj ![0, 1, g.predict (threePts 2)]
    (by norm_num)
  by_contra hno
  have hall : ∀ x', g2.predict x' = g.predict x' := fun x' => by
    by_contra hx
    exact hno ⟨g, g2, x', hg, hg2, hx⟩
  obtain ⟨t, γ, hd⟩ := dual_exists hg
  obtain ⟨t2, γ2, hd2⟩ := dual_exists hg2
  obtain ⟨c, hc⟩ := hd.trend
  obtain ⟨c2, hc2⟩ := hd2.trend
  set s := stdVar twoPts 0 with hs
  set s2 := stdVar threePts 0 with hs2
  set A := ∑ i, γ i * Real.exp (twoPts i 0 / s) with hA
  set B := ∑ i, γ2 i * Real.exp (threePts i 0 / s2) with hB
  have f1 : ∀ X : ℝ, 3 ≤ X → g.predict (fun _ => X) = c + A * Real.exp (-1 / s * X) := fun X hX => by
    rw [(dual_predict hg hd).1, hc, hA, Finset.sum_mul]
    refine congrArg _ (Finset.sum_congr rfl fun i _ => ?_)
    rw [corrOf_abs, mul_assoc]
    fin_cases i <;> simp [twoPts] <;> linarith
  have f2 : ∀ X : ℝ, 3 ≤ X → g2.predict (fun _ => X) = c2 + B * Real.exp (-1 / s2 * X) := fun X hX => by
    rw [(dual_predict hg2 hd2).1, hc2, hB, Finset.sum_mul]
    refine congrArg _ (Finset.sum_congr rfl fun i _ => ?_)
    rw [corrOf_abs, mul_assoc]
    fin_cases i <;> simp [threePts] <;> linarith
  have ps : 0 < s := stdOf_pos _
  have ps2 : 0 < s2 := stdOf_pos _
  have hsum := hd.orth (fun _ => 1) ⟨1, fun _ => rfl⟩
  rw [Fin.sum_univ_two] at hsum
  have hγ : γ 1 ≠ 0 := fun h1 => by
    have h0 : γ 0 = 0 := by rw [h1] at hsum; linarith
    have e0 := hd.solves 0
    have e1 := hd.solves 1
    rw [Fin.sum_univ_two, h0, h1, hc] at e0 e1
    simp at e0 e1
    linarith
  have hA0 : A ≠ 0 := by
    rw [hA, Fin.sum_univ_two]
    have : γ 0 = -γ 1 := by linarith
    rw [this]
    simp only [twoPts, Matrix.cons_val_zero, Matrix.cons_val_one, zero_div, Real.exp_zero]
    have h1 : (1 : ℝ) < Real.exp (1 / s) := Real.one_lt_exp_iff.2 (by positivity)
    intro h
    have : γ 1 * (Real.exp (1 / s) - 1) = 0 := by linarith
    rcases mul_eq_zero.1 this with h | h
    · exact hγ h
    · linarith
  set P := Real.exp (-1 / s) with hP
  set Q := Real.exp (-1 / s2) with hQ
  have step : ∀ (r : ℝ) (k : ℕ), Real.exp (r * k) = Real.exp r ^ k := fun r k => by
    rw [← Real.exp_nat_mul, mul_comm]
  have eq : ∀ k : ℕ, 3 ≤ k → c2 + B * Q ^ k = c + A * P ^ k := fun k hk => by
    have h := hall fun _ => (k : ℝ)
    rwa [f1 _ (by exact_mod_cast hk), f2 _ (by exact_mod_cast hk), step, step] at h
  have q3 := eq 3 le_rfl
  have q4 := eq 4 (by norm_num)
  have q5 := eq 5 (by norm_num)
  have hP1 : P < 1 := by rw [hP, Real.exp_lt_one_iff, neg_div]; linarith [div_pos one_pos ps]
  have hP0 : 0 < P := Real.exp_pos _
  set U := A * (P ^ 3 * (1 - P)) with hU
  have hU0 : U ≠ 0 := mul_ne_zero hA0 (mul_ne_zero (by positivity) (by linarith))
  have u1 : B * (Q ^ 3 * (1 - Q)) = U := by rw [hU]; linear_combination q3 - q4
  have u2 : Q * (B * (Q ^ 3 * (1 - Q))) = P * U := by rw [hU]; linear_combination q4 - q5
  rw [u1] at u2
  have hPQ : Q = P := mul_right_cancel₀ hU0 u2
  rw [hP, hQ, Real.exp_eq_exp, div_eq_div_iff ps2.ne' ps.ne'] at hPQ
  have : s = s2 := by linarith
  rw [hs, hs2, std_two, std_three, Real.sqrt_inj (by norm_num) (by norm_num)] at this
  norm_num at this

/-! ## Examples -/

/-- A third observation equal to the prediction: same predictions, variances at most two thirds. -/
example (kernel : Kernel) : ∃ (g : Model 2 1 1) (g2 : Model 3 1 1),
    fitWith exact kernel .constant 0 (fun _ : Fin 1 => 1) (fun _ _ => 1) twoPts ![0, 1] = some g ∧
    fitWith exact kernel .constant 0 theta3 (fun _ _ => 1) threePts ![0, 1, g.predict (threePts 2)] = some g2 ∧
    ∃ v v2, g.predictVar exact (fun _ => 2) = some v ∧ g2.predictVar exact (fun _ => 2) = some v2 ∧
      g2.predict (fun _ => 2) = g.predict (fun _ => 2) ∧ 0 < v2 ∧ v2 ≤ 2 / 3 * v := by
  obtain ⟨g, hg, _⟩ := C118_distinct kernel (theta := fun _ : Fin 1 => 1) (w := fun _ _ => 1) (fun _ => zero_le_one)
    (fun _ => ⟨0, one_ne_zero, one_ne_zero⟩) twoPts_inj ![0, 1] le_rfl
  obtain ⟨g2, hg2, _⟩ := C118_distinct kernel (theta := theta3) (w := fun _ _ => 1) (fun l => (theta3_pos l).le)
    (fun _ => ⟨0, (theta3_pos 0).ne', one_ne_zero⟩) threePts_inj ![0, 1, g.predict (threePts 2)] (by norm_num)
  obtain ⟨h1, v, v2, h2, h3, h4⟩ := C149_believer_partial (extends_three kernel) hg hg2 (fun i => by fin_cases i <;> rfl)
    (fun k hk => by
      fin_cases k
      · exact absurd rfl (hk 0)
      · exact absurd rfl (hk 1)
      · rfl) exact fun _ => 2
  obtain ⟨v3, h5, hpos⟩ := C119_positive hg2 (fun l => (theta3_pos l).le) le_rfl (by
    rintro ⟨t, ⟨c, hc⟩, ht⟩
    have h0 := ht 0
    have h2 := ht 1
    rw [hc] at h0 h2
    simp at h0 h2
    linarith) exact (fun _ => 2) (Or.inr fun i => ⟨0, 0, (theta3_pos 0).ne', one_ne_zero, by
      fin_cases i <;> simp [threePts]⟩)
  rw [h3] at h5
  cases h5
  exact ⟨g, g2, hg, hg2, v, v2, h2, h3, h1, hpos, by simpa using h4⟩

/-- The weight of the error at an added point is one at that point. -/
example (kernel : Kernel) : ∃ (g : Model 2 1 1) (g2 : Model 3 1 1) (l : Fin 3 → ℝ),
    fitWith exact kernel .constant 0 (fun _ : Fin 1 => 1) (fun _ _ => 1) twoPts ![0, 1] = some g ∧
    fitWith exact kernel .constant 0 theta3 (fun _ _ => 1) threePts ![0, 1, g.predict (threePts 2) + 1] = some g2 ∧
    (∀ i : Fin 2, l i.castSucc = 0) ∧ l 2 = 1 := by
  obtain ⟨g, hg, _⟩ := C118_distinct kernel (theta := fun _ : Fin 1 => 1) (w := fun _ _ => 1) (fun _ => zero_le_one)
    (fun _ => ⟨0, one_ne_zero, one_ne_zero⟩) twoPts_inj ![0, 1] le_rfl
  obtain ⟨g2, hg2, hi⟩ := C118_distinct kernel (theta := theta3) (w := fun _ _ => 1) (fun l => (theta3_pos l).le)
    (fun _ => ⟨0, (theta3_pos 0).ne', one_ne_zero⟩) threePts_inj ![0, 1, g.predict (threePts 2) + 1] (by norm_num)
  obtain ⟨l, h0, h1⟩ := C149_update (mean := .constant) (nugget := 0) (extends_three kernel) (threePts 2)
  refine ⟨g, g2, l, hg, hg2, h0, ?_⟩
  have e := h1 exact exact _ _ g g2 hg hg2 fun i => by fin_cases i <;> rfl
  have z0 : l 0 = 0 := h0 0
  have z1 : l 1 = 0 := h0 1
  rw [(hi 2).1, Fin.sum_univ_three, z0, z1] at e
  simp at e
  linarith

end Verif.Props
