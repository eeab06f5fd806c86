import Verif.Props.GpVars
import Mathlib.Analysis.SpecialFunctions.Exp

/-!
# C116: predictions of Gaussian processes far from the training points
-/

set_option autoImplicit false

namespace Verif.Props

open Matrix Kernels Means GpUtils Spec Gp Filter Topology

variable {n d h p : ℕ} {la : LinAlg} {kernel : Kernel} {mean : Mean} {nugget : ℝ} {theta : Fin h → ℝ}
  {w : Fin d → Fin h → ℝ} {x : Fin n → Fin d → ℝ} {y : Fin n → ℝ} {g : Model n d h}

/-! ## Decay of correlations -/

/-- The point `v` is beyond `M` along a variable on which correlations depend. -/
def Far (theta : Fin h → ℝ) (w : Fin d → Fin h → ℝ) (M : ℝ) (v : Fin d → ℝ) : Prop :=
  ∃ j l, 0 < theta l * |w j l| ∧ M < |v j|

/-- Limits far away. -/
def farAway (theta : Fin h → ℝ) (w : Fin d → Fin h → ℝ) : Filter (Fin d → ℝ) := ⨅ M : ℝ, 𝓟 {v | Far theta w M v}

theorem Far.mono {M M' : ℝ} (hM : M ≤ M') {v : Fin d → ℝ} (hv : Far theta w M' v) : Far theta w M v := by
  obtain ⟨j, l, h1, h2⟩ := hv
  exact ⟨j, l, h1, hM.trans_lt h2⟩

theorem farAway_eventually {P : (Fin d → ℝ) → Prop} :
    (∀ᶠ v in farAway theta w, P v) ↔ ∃ M, ∀ v, Far theta w M v → P v := by
  rw [farAway, Filter.Eventually, Filter.mem_iInf_of_directed]
  · simp only [Filter.mem_principal]
    rfl
  · intro a b
    refine ⟨max a b, ?_, ?_⟩
    · exact Filter.principal_mono.2 fun v hv => hv.mono (le_max_left _ _)
    · exact Filter.principal_mono.2 fun v hv => hv.mono (le_max_right _ _)

theorem farAway_tendsto {f : (Fin d → ℝ) → ℝ} {a : ℝ} :
    Tendsto f (farAway theta w) (𝓝 a) ↔ ∀ ε > 0, ∃ M, ∀ v, Far theta w M v → |f v - a| < ε := by
  simp only [Metric.tendsto_nhds, farAway_eventually, Real.dist_eq]

theorem corr1_tendsto (k : Kernel) : Tendsto (corr1 k) atTop (𝓝 0) := by
  have key : ∀ (c : ℝ) (hc : 0 < c) (m : ℕ), Tendsto (fun t : ℝ => (c * t) ^ m * Real.exp (-(c * t))) atTop (𝓝 0) :=
    fun c hc m => (Real.tendsto_pow_mul_exp_neg_atTop_nhds_zero m).comp (tendsto_id.const_mul_atTop hc)
  cases k with
  | squaredExponential =>
    refine squeeze_zero' (Eventually.of_forall fun t => (Real.exp_pos _).le) ?_ (key (1 / 2) (by norm_num) 0)
    filter_upwards [eventually_ge_atTop 1] with t ht
    rw [pow_zero, one_mul, corr1, Real.exp_le_exp]
    nlinarith
  | absoluteExponential =>
    have := key 1 one_pos 0
    refine this.congr fun t => ?_
    rw [pow_zero, one_mul, one_mul, corr1]
  | matern32 =>
    have h3 : (0 : ℝ) < √3 := by positivity
    have := (key _ h3 0).add (key _ h3 1)
    rw [add_zero] at this
    refine this.congr fun t => ?_
    rw [corr1, neg_mul]
    ring
  | matern52 =>
    have h5 : (0 : ℝ) < √5 := by positivity
    have := ((key _ h5 0).add (key _ h5 1)).add ((key _ h5 2).const_mul (1 / 3))
    rw [add_zero, mul_zero, add_zero] at this
    refine this.congr fun t => ?_
    rw [corr1, neg_mul, mul_pow _ _ 2, Real.sq_sqrt (by norm_num : (0 : ℝ) ≤ 5)]
    ring

/-- Correlations decrease to zero. -/
theorem kernel_far (k : Kernel) (hθ : ∀ l, 0 ≤ theta l) {ε : ℝ} (hε : 0 < ε) :
    ∃ M, ∀ v : Fin d → ℝ, Far theta w M v → k.value theta w v < ε := by
  obtain ⟨T, hT⟩ := eventually_atTop.1 ((corr1_tendsto k).eventually (gt_mem_nhds hε))
  refine ⟨∑ j, ∑ l, |T| / (theta l * |w j l|), ?_⟩
  rintro v ⟨j, l, h1, h2⟩
  have hnn : ∀ j l, 0 ≤ |T| / (theta l * |w j l|) := fun j l =>
    div_nonneg (abs_nonneg _) (mul_nonneg (hθ l) (abs_nonneg _))
  have h3 : |T| / (theta l * |w j l|) < |v j| := by
    refine lt_of_le_of_lt ?_ h2
    refine (Finset.single_le_sum (f := fun l => |T| / (theta l * |w j l|)) (fun l _ => hnn j l) (Finset.mem_univ l)).trans ?_
    exact Finset.single_le_sum (f := fun j => ∑ l, |T| / (theta l * |w j l|))
      (fun j _ => Finset.sum_nonneg fun l _ => hnn j l) (Finset.mem_univ j)
  rw [div_lt_iff₀ h1] at h3
  have h4 : corr1 k (theta l * |w j l| * |v j|) < ε := hT _ (by linarith [le_abs_self T])
  refine lt_of_le_of_lt ?_ h4
  have hr : ∀ j l, 0 < corr1 k (theta l * |w j l| * |v j|) ∧ corr1 k (theta l * |w j l| * |v j|) ≤ 1 := fun j l =>
    corr1_range k (mul_nonneg (mul_nonneg (hθ l) (abs_nonneg _)) (abs_nonneg _))
  rw [C40_documented, corr, ← Finset.mul_prod_erase _ _ (Finset.mem_univ j), ← Finset.mul_prod_erase _ _ (Finset.mem_univ l)]
  have e1 : ∏ l ∈ Finset.univ.erase l, corr1 k (theta l * |w j l| * |v j|) ≤ 1 :=
    Finset.prod_le_one (fun l _ => (hr j l).1.le) fun l _ => (hr j l).2
  have e2 : ∏ j ∈ Finset.univ.erase j, ∏ l, corr1 k (theta l * |w j l| * |v j|) ≤ 1 :=
    Finset.prod_le_one (fun j _ => Finset.prod_nonneg fun l _ => (hr j l).1.le)
      fun j _ => Finset.prod_le_one (fun l _ => (hr j l).1.le) fun l _ => (hr j l).2
  have p1 : 0 ≤ ∏ l ∈ Finset.univ.erase l, corr1 k (theta l * |w j l| * |v j|) :=
    Finset.prod_nonneg fun l _ => (hr j l).1.le
  have p2 := (hr j l).1.le
  calc _ ≤ corr1 k (theta l * |w j l| * |v j|) * (∏ l ∈ Finset.univ.erase l, corr1 k (theta l * |w j l| * |v j|)) * 1 :=
        mul_le_mul_of_nonneg_left e2 (mul_nonneg p2 p1)
    _ ≤ corr1 k (theta l * |w j l| * |v j|) * 1 * 1 := by
        rw [mul_one, mul_one]
        exact mul_le_mul_of_nonneg_left e1 p2
    _ = _ := by ring

/-- Correlations with a fixed point, up to scaling, decrease to zero. -/
theorem kernel_far_tendsto (k : Kernel) (hθ : ∀ l, 0 ≤ theta l) (c s : Fin d → ℝ) (hs : ∀ j, 0 < s j) :
    Tendsto (fun v : Fin d → ℝ => k.value theta w fun j => (v j - c j) / s j) (farAway theta w) (𝓝 0) := by
  rw [farAway_tendsto]
  intro ε hε
  obtain ⟨M, hM⟩ := kernel_far (w := w) k hθ hε
  refine ⟨∑ j, (|M| * s j + |c j|), fun v hv => ?_⟩
  obtain ⟨j, l, h1, h2⟩ := hv
  have h3 : |M| * s j + |c j| < |v j| := by
    refine lt_of_le_of_lt ?_ h2
    exact Finset.single_le_sum (f := fun j => |M| * s j + |c j|)
      (fun j _ => add_nonneg (mul_nonneg (abs_nonneg _) (hs j).le) (abs_nonneg _)) (Finset.mem_univ j)
  rw [sub_zero, abs_of_pos (C40_range k theta w _ hθ).1]
  refine hM _ ⟨j, l, h1, ?_⟩
  rw [abs_div, abs_of_pos (hs j), lt_div_iff₀ (hs j)]
  have := abs_sub_abs_le_abs_sub (v j) (c j)
  nlinarith [le_abs_self M, hs j]

theorem rAt_tendsto (hθ : ∀ l, 0 ≤ theta l) (i : Fin n) :
    Tendsto (fun x' => rAt kernel theta w x x' i 0) (farAway theta w) (𝓝 0) := by
  refine (kernel_far_tendsto kernel hθ (x i) (fun j => stdOf fun i => x i j) fun j => stdOf_pos _).congr fun v => ?_
  rw [rAt, Matrix.of_apply]
  congr 1
  funext j
  rw [Pi.sub_apply, xnPoint, xnData, ← sub_div]
  ring

/-- Far from the training points, predictions approach a trend. -/
theorem C116_predictions (hg : fitWith la kernel mean nugget theta w x y = some g) (hθ : ∀ l, 0 ≤ theta l) :
    ∃ t, IsTrend mean t ∧ ∀ ε > 0, ∃ M, ∀ x', Far theta w M x' → |g.predict x' - t x'| < ε := by
  set R := corrMatrix kernel theta w nugget (xnData x) with hR
  set F := meanMat mean (xnData x) with hF
  set β := krigBeta R F (centred y) with hβ
  refine ⟨(∑ a, β a 0 • feat mean x a) + fun _ => colMean y, IsTrend.add ?_ (IsTrend.const _), ?_⟩
  · rw [trend_iff (x := x), Submodule.mem_span_range_iff_exists_fun]
    exact ⟨_, rfl⟩
  · have key : ∀ x', g.predict x' - ((∑ a, β a 0 • feat mean x a) + (fun _ => colMean y) : (Fin d → ℝ) → ℝ) x' =
        ∑ i, rAt kernel theta w x x' i 0 * (R⁻¹ * (centred y - F * β)) i 0 := by
      intro x'
      have e1 : ((fAt mean x x')ᵀ * β) 0 0 = ∑ a, β a 0 * feat mean x a x' := by
        rw [Matrix.mul_apply]
        exact Finset.sum_congr rfl fun a _ => by rw [mul_comm]; rfl
      have e2 : ((rAt kernel theta w x x')ᵀ * R⁻¹ * (centred y - F * β)) 0 0 =
          ∑ i, rAt kernel theta w x x' i 0 * (R⁻¹ * (centred y - F * β)) i 0 := by
        rw [Matrix.mul_assoc, Matrix.mul_apply]; rfl
      rw [(predict_closed hg la x').1, krigMean, Matrix.add_apply, ← hR, ← hF, ← hβ, e1, e2, Pi.add_apply, Finset.sum_apply]
      simp only [Pi.smul_apply, smul_eq_mul]
      ring
    have := tendsto_finsetSum Finset.univ fun i (_ : i ∈ Finset.univ) =>
      (rAt_tendsto (kernel := kernel) (w := w) (x := x) hθ i).mul_const ((R⁻¹ * (centred y - F * β)) i 0)
    simp only [zero_mul, Finset.sum_const_zero] at this
    rw [farAway_tendsto] at this
    intro ε hε
    obtain ⟨M, hM⟩ := this ε hε
    refine ⟨M, fun x' hx' => ?_⟩
    rw [key]
    simpa using hM x' hx'

/-! ## Variances -/

theorem young {R : Matrix (Fin n) (Fin n) ℝ} (hp : R.PosDef) (hsy : Rᵀ = R) (l r : Matrix (Fin n) (Fin 1) ℝ) (t : ℝ) :
    2 * t * (lᵀ * r) 0 0 ≤ (lᵀ * R * l) 0 0 + t ^ 2 * (rᵀ * R⁻¹ * r) 0 0 := by
  have hR := (Matrix.isUnit_iff_isUnit_det _).1 hp.isUnit
  have h := hp.posSemidef.conjTranspose_mul_mul_same (l - t • (R⁻¹ * r))
  rw [Matrix.conjTranspose_eq_transpose_of_trivial] at h
  have h0 := h.diag_nonneg (i := 0)
  have hs : R⁻¹ᵀ = R⁻¹ := by rw [Matrix.transpose_nonsing_inv, hsy]
  have e1 : R * (R⁻¹ * r) = r := by rw [← Matrix.mul_assoc, Matrix.mul_nonsing_inv _ hR, Matrix.one_mul]
  have e2 : (R⁻¹ * r)ᵀ * (R * l) = rᵀ * l := by
    rw [Matrix.transpose_mul, hs, Matrix.mul_assoc, ← Matrix.mul_assoc R⁻¹, Matrix.nonsing_inv_mul _ hR, Matrix.one_mul]
  have e3 : (R⁻¹ * r)ᵀ * r = rᵀ * R⁻¹ * r := by rw [Matrix.transpose_mul, hs]
  have e4 : (rᵀ * l) 0 0 = (lᵀ * r) 0 0 := by
    have : (rᵀ * l) = (lᵀ * r)ᵀ := by rw [Matrix.transpose_mul, Matrix.transpose_transpose]
    rw [this]; rfl
  have e : (l - t • (R⁻¹ * r))ᵀ * R * (l - t • (R⁻¹ * r)) =
      lᵀ * R * l - t • (lᵀ * r) - t • (rᵀ * l) + t ^ 2 • (rᵀ * R⁻¹ * r) := by
    rw [Matrix.transpose_sub, Matrix.transpose_smul, Matrix.mul_assoc]
    simp only [Matrix.mul_sub, Matrix.sub_mul, Matrix.mul_smul, Matrix.smul_mul, e1, e2, e3, Matrix.mul_assoc]
    rw [← Matrix.mul_assoc rᵀ, ← e3, pow_two, smul_sub, smul_smul]
    abel
  rw [e] at h0
  simp only [Matrix.add_apply, Matrix.sub_apply, Matrix.smul_apply, smul_eq_mul, e4] at h0
  linarith

theorem fit_sigma2_nonneg (hg : fitWith la kernel mean nugget theta w x y = some g) : 0 ≤ g.inner.sigma2 := by
  obtain ⟨hpd, hR, hB, hsig⟩ := fit_matrices hg
  rw [hsig, krigSigma2]
  have := hpd.inv.posSemidef.conjTranspose_mul_mul_same (centred y - meanMat mean (xnData x) *
    krigBeta (corrMatrix kernel theta w nugget (xnData x)) (meanMat mean (xnData x)) (centred y))
  rw [Matrix.conjTranspose_eq_transpose_of_trivial] at this
  exact div_nonneg this.diag_nonneg (Nat.cast_nonneg _)

theorem errVar_single (R : Matrix (Fin n) (Fin n) ℝ) (r : Fin n → ℝ) (i : Fin n) :
    errVar R r (Pi.single i 1) = 1 - 2 * r i + R i i := by
  simp [errVar, Pi.single_apply]

/-- The training point `i` predicting `x'` on its own: variances are at most that of the error it makes. -/
theorem variance_single (hg : fitWith la kernel mean nugget theta w x y = some g) (hθ : ∀ l, 0 ≤ theta l) (hn : 0 ≤ nugget)
    (la' : LinAlg) (i : Fin n) (x' : Fin d → ℝ) (hu : Unbiased mean x x' (Pi.single i 1)) :
    ∃ v, g.predictVar la' x' = some v ∧
      v ≤ g.inner.sigma2 * (2 + nugget - 2 * kernel.value theta w (g.xnorm x' - g.xtData i)) := by
  obtain ⟨l, hl⟩ := C107_best_linear_unbiased kernel mean nugget theta w x x'
  obtain ⟨-, -, -, h1, h2⟩ := hl la la' y g hg
  refine ⟨_, h2 hθ hn, mul_le_mul_of_nonneg_left ((h1 _ hu).trans_eq ?_) (fit_sigma2_nonneg hg)⟩
  rw [errVar_single, corrMatrix, Matrix.of_apply, if_pos rfl]
  ring

/-- The variance at a training point is at most that of the nugget. -/
theorem C116_training_points (hg : fitWith la kernel mean nugget theta w x y = some g) (hθ : ∀ l, 0 ≤ theta l)
    (hn : 0 ≤ nugget) (la' : LinAlg) (i : Fin n) :
    ∃ v, g.predictVar la' (x i) = some v ∧ v ≤ g.inner.sigma2 * nugget := by
  have hu : Unbiased mean x (x i) (Pi.single i 1) := by
    intro t _
    simp [Pi.single_apply]
  obtain ⟨v, h1, h2⟩ := variance_single hg hθ hn la' i (x i) hu
  refine ⟨v, h1, h2.trans_eq ?_⟩
  have ok := fitWith_ok hg
  have : g.xnorm (x i) - g.xtData i = 0 := by
    funext j
    rw [Pi.sub_apply, ok.xdata, Model.xnorm, sub_self, Pi.zero_apply]
  rw [this, C40_at_zero]
  ring

/-- With a constant mean, variances are bounded by the correlation with each training point. -/
theorem C116_constant_bound (hg : fitWith la kernel .constant nugget theta w x y = some g) (hθ : ∀ l, 0 ≤ theta l)
    (hn : 0 ≤ nugget) (la' : LinAlg) (i : Fin n) (x' : Fin d → ℝ) :
    ∃ v, g.predictVar la' x' = some v ∧
      v ≤ g.inner.sigma2 * (2 + nugget - 2 * kernel.value theta w (g.xnorm x' - g.xtData i)) := by
  refine variance_single hg hθ hn la' i x' ?_
  rintro t ⟨c, hc⟩
  simp [Pi.single_apply, hc]

/-- With a constant mean, far from the training points, variances approach a value between the variance of the process and
twice this variance (up to the nugget). -/
theorem C116_constant_variance (hg : fitWith la kernel .constant nugget theta w x y = some g) (hθ : ∀ l, 0 ≤ theta l)
    (hn : 0 ≤ nugget) (la' : LinAlg) (hw : ∃ j l, 0 < theta l * |w j l|) :
    ∃ V, g.inner.sigma2 ≤ V ∧ V ≤ g.inner.sigma2 * (2 + nugget) ∧ ∀ ε > 0, ∃ M, ∀ x', Far theta w M x' →
      ∃ v, g.predictVar la' x' = some v ∧ |v - V| < ε := by
  obtain ⟨hpd, hR, hB, hsig⟩ := fit_matrices hg
  set R := corrMatrix kernel theta w nugget (xnData x) with hRd
  set F := meanMat .constant (xnData x) with hF
  set f := fAt .constant x (0 : Fin d → ℝ) with hf
  have h0 := fit_sigma2_nonneg hg
  have hcont : Continuous fun r => krigVar R F r f := by
    unfold krigVar
    fun_prop
  have hlim : Tendsto (fun x' => rAt kernel theta w x x') (farAway theta w) (𝓝 0) := by
    refine tendsto_pi_nhds.2 fun i => tendsto_pi_nhds.2 fun j => ?_
    rw [Subsingleton.elim j 0]
    exact rAt_tendsto hθ i
  have hv : ∀ x', ∃ v, g.predictVar la' x' = some v ∧ v = max 0 (g.inner.sigma2 * krigVar R F (rAt kernel theta w x x') f) := by
    intro x'
    refine ⟨_, (predict_closed hg la' x').2, ?_⟩
    rw [hsig]
    rfl
  have hT : Tendsto (fun x' => max 0 (g.inner.sigma2 * krigVar R F (rAt kernel theta w x x') f)) (farAway theta w)
      (𝓝 (max 0 (g.inner.sigma2 * krigVar R F 0 f))) :=
    tendsto_const_nhds.max (((hcont.tendsto 0).comp hlim).const_mul _)
  have hne : (farAway theta w).NeBot := by
    rw [Filter.neBot_iff]
    intro hbot
    have : ∀ᶠ v in farAway theta w, False := by rw [hbot]; exact Filter.eventually_bot
    rw [farAway_eventually] at this
    obtain ⟨M, hM⟩ := this
    obtain ⟨j, l, hjl⟩ := hw
    exact hM (fun _ => |M| + 1) ⟨j, l, hjl, by rw [abs_of_pos (by positivity)]; linarith [le_abs_self M]⟩
  refine ⟨max 0 (g.inner.sigma2 * krigVar R F 0 f), ?_, ?_, fun ε hε => ?_⟩
  rotate_left 2
  · obtain ⟨M, hM⟩ := farAway_tendsto.1 hT ε hε
    refine ⟨M, fun x' hx' => ?_⟩
    obtain ⟨v, h1, h2⟩ := hv x'
    exact ⟨v, h1, by rw [h2]; exact hM x' hx'⟩
  · refine le_trans ?_ (le_max_right _ _)
    have hq : 0 ≤ (fᵀ * (Fᵀ * R⁻¹ * F)⁻¹ * f) 0 0 := by
      have hA : (Fᵀ * R⁻¹ * F).PosSemidef := by
        have := hpd.inv.posSemidef.conjTranspose_mul_mul_same F
        rwa [Matrix.conjTranspose_eq_transpose_of_trivial] at this
      have := hA.inv.conjTranspose_mul_mul_same f
      rw [Matrix.conjTranspose_eq_transpose_of_trivial] at this
      exact this.diag_nonneg
    have e : krigVar R F 0 f = 1 + (fᵀ * (Fᵀ * R⁻¹ * F)⁻¹ * f) 0 0 := by
      simp [krigVar]
    rw [e]
    nlinarith
  · refine le_of_tendsto hT (Eventually.of_forall fun x' => ?_)
    have h2 := (fitWith_ok hg).two
    obtain ⟨v, h3, h4⟩ := C116_constant_bound hg hθ hn la' ⟨0, by omega⟩ x'
    obtain ⟨v', h5, h6⟩ := hv x'
    rw [← h6]
    obtain rfl : v = v' := Option.some.inj (h3.symm.trans h5)
    refine h4.trans (mul_le_mul_of_nonneg_left ?_ h0)
    have := (C40_range kernel theta w (g.xnorm x' - g.xtData ⟨0, by omega⟩) hθ).1
    linarith

/-- With a linear or quadratic mean, variances grow beyond any bound far from the training points, unless the outputs
are those of a trend. -/
theorem C116_extrapolation (hg : fitWith la kernel mean nugget theta w x y = some g) (hθ : ∀ l, 0 ≤ theta l)
    (hm : mean ≠ .constant) (hy : ¬ ∃ t, IsTrend mean t ∧ ∀ i, y i = t (x i)) (la' : LinAlg) (C : ℝ) :
    ∃ M, ∀ x', (∃ j, M < |x' j|) → ∃ v, g.predictVar la' x' = some v ∧ C < v := by
  obtain ⟨hpd, hR, hB, hsig⟩ := fit_matrices hg
  set R := corrMatrix kernel theta w nugget (xnData x) with hRd
  have h0 : 0 < g.inner.sigma2 := lt_of_le_of_ne (fit_sigma2_nonneg hg) fun e => hy ((C107_trend hg).2.1 e.symm)
  have hsy := corrMatrix_symm kernel theta w nugget (xnData x)
  -- constants
  set c : Fin d → ℝ := fun j => ((Matrix.of fun i (_ : Fin 1) => x i j)ᵀ * R⁻¹ * (Matrix.of fun i (_ : Fin 1) => x i j)) 0 0
    with hc
  have hc0 : ∀ j, 0 ≤ c j := by
    intro j
    have := hpd.inv.posSemidef.conjTranspose_mul_mul_same (Matrix.of fun i (_ : Fin 1) => x i j)
    rw [Matrix.conjTranspose_eq_transpose_of_trivial] at this
    exact this.diag_nonneg
  set K : ℝ := ∑ i, ∑ j, |R⁻¹ i j| with hK
  set B : ℝ := 2 * (|C| / g.inner.sigma2 + 2 * K) with hBd
  have hK0 : 0 ≤ K := Finset.sum_nonneg fun i _ => Finset.sum_nonneg fun j _ => abs_nonneg _
  have hB0 : 0 ≤ B := by positivity
  refine ⟨∑ j, ((c j + 1) * B + 1), ?_⟩
  rintro x' ⟨j, hj⟩
  obtain ⟨l, hl⟩ := C107_best_linear_unbiased kernel mean nugget theta w x x'
  obtain ⟨-, hu, hv, -⟩ := hl la la' y g hg
  refine ⟨_, hv, lt_of_lt_of_le ?_ (le_max_right _ _)⟩
  have ok := fitWith_ok hg
  have hx : g.xtData = xnData x := by
    funext i j
    rw [ok.xdata, ok.xmean, ok.xstdOf, xnData]
  rw [hx, ← hRd]
  set r : Matrix (Fin n) (Fin 1) ℝ := Matrix.of fun i _ => kernel.value theta w (g.xnorm x' - xnData x i) with hr
  set L : Matrix (Fin n) (Fin 1) ℝ := Matrix.of fun i _ => l i with hL
  have e1 : errVar R (fun i => kernel.value theta w (g.xnorm x' - xnData x i)) l =
      1 - 2 * (Lᵀ * r) 0 0 + (Lᵀ * R * L) 0 0 := errVar_eq (r := r) L
  rw [e1]
  -- size of the weights
  have h1 : (Lᵀ * (Matrix.of fun i (_ : Fin 1) => x i j)) 0 0 = x' j := by
    rw [Matrix.mul_apply]
    exact hu _ (IsTrend.lin j hm)
  have h2 := young hpd hsy L (Matrix.of fun i (_ : Fin 1) => x i j) (x' j / (c j + 1))
  rw [h1] at h2
  change 2 * (x' j / (c j + 1)) * x' j ≤ _ + (x' j / (c j + 1)) ^ 2 * c j at h2
  have hc1 : 0 < c j + 1 := by linarith [hc0 j]
  have h3 : x' j ^ 2 / (c j + 1) ≤ (Lᵀ * R * L) 0 0 := by
    have e2 : 2 * (x' j / (c j + 1)) * x' j = 2 * (x' j ^ 2 / (c j + 1)) := by ring
    have e3 : (x' j / (c j + 1)) ^ 2 * c j ≤ x' j ^ 2 / (c j + 1) := by
      rw [div_pow, div_mul_eq_mul_div, div_le_div_iff₀ (by positivity) hc1]
      nlinarith [mul_nonneg (sq_nonneg (x' j)) hc1.le]
    linarith
  have h4 : B < x' j ^ 2 / (c j + 1) := by
    rw [lt_div_iff₀ hc1]
    have h5 : (c j + 1) * B + 1 < |x' j| := by
      refine lt_of_le_of_lt ?_ hj
      exact Finset.single_le_sum (f := fun j => (c j + 1) * B + 1)
        (fun j _ => by have := hc0 j; positivity) (Finset.mem_univ j)
    have h6 : 0 ≤ (c j + 1) * B := mul_nonneg hc1.le hB0
    rw [← sq_abs]
    nlinarith
  -- correlations are bounded
  have h7 : (rᵀ * R⁻¹ * r) 0 0 ≤ K := by
    have : (rᵀ * R⁻¹ * r) 0 0 = ∑ i, ∑ j, r i 0 * R⁻¹ i j * r j 0 := by
      simp only [Matrix.mul_apply, Matrix.transpose_apply, Finset.sum_mul]
      rw [Finset.sum_comm]
    rw [this]
    refine Finset.sum_le_sum fun i _ => Finset.sum_le_sum fun j _ => ?_
    have hri := C40_range kernel theta w (g.xnorm x' - xnData x i) hθ
    have hrj := C40_range kernel theta w (g.xnorm x' - xnData x j) hθ
    refine (le_abs_self _).trans ?_
    rw [abs_mul, abs_mul]
    have a1 : |r i 0| ≤ 1 := by rw [hr, Matrix.of_apply, abs_of_pos hri.1]; exact hri.2
    have a2 : |r j 0| ≤ 1 := by rw [hr, Matrix.of_apply, abs_of_pos hrj.1]; exact hrj.2
    calc |r i 0| * |R⁻¹ i j| * |r j 0| ≤ 1 * |R⁻¹ i j| * 1 := by gcongr
      _ = _ := by ring
  have h8 := young hpd hsy L r 2
  have h9 : |C| / g.inner.sigma2 < 1 - 2 * (Lᵀ * r) 0 0 + (Lᵀ * R * L) 0 0 := by
    rw [hBd] at h4
    linarith
  rw [div_lt_iff₀ h0] at h9
  linarith [le_abs_self C]

/-! ## Cases -/

/-- Cases of `C116_predictions`, `C116_constant_bound` and `C116_constant_variance`: a hundred points in dimension two, any
outputs. -/
example (y : Fin 100 → ℝ) : ∃ g, fitWith Gp.exact .matern52 .constant 1e-10 (fun _ : Fin 2 => 3)
    (fun (a b : Fin 2) => if a = b then 1 else 0) (fun (i : Fin 100) (j : Fin 2) => (i.val : ℝ) ^ j.val) y = some g ∧
    ∃ V, g.inner.sigma2 ≤ V ∧ V ≤ g.inner.sigma2 * (2 + 1e-10) ∧
      ∀ ε > 0, ∃ M, ∀ x', Far (fun _ : Fin 2 => 3) (fun (a b : Fin 2) => if a = b then 1 else 0) M x' →
        ∃ v, g.predictVar exact x' = some v ∧ |v - V| < ε := by
  obtain ⟨g, hg⟩ := C90_constant_mean_fits .matern52 (fun _ : Fin 2 => 3) (fun _ => by norm_num)
    (fun (a b : Fin 2) => if a = b then 1 else 0) 1e-10 (by norm_num)
    (fun (i : Fin 100) (j : Fin 2) => (i.val : ℝ) ^ j.val) y (by norm_num)
  exact ⟨g, hg, C116_constant_variance hg (fun _ => by norm_num) (by norm_num) exact ⟨0, 0, by norm_num⟩⟩

end Verif.Props
