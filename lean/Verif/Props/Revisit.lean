import Verif.Props.Units
import Verif.Props.GpFar
import Verif.Props.GpStrict
import Mathlib.Algebra.Order.Chebyshev

/-!
# C150: expected improvement at points already evaluated
-/

set_option autoImplicit false

namespace Verif.Props

open Matrix Kernels Means GpUtils Spec Gp Criteria Verif.Units Filter Topology

variable {n d h : ℕ} {la la1 la' : LinAlg} {kernel : Kernel} {mean : Mean} {nugget : ℝ} {theta : Fin h → ℝ}
  {w : Fin d → Fin h → ℝ} {x : Fin n → Fin d → ℝ} {y : Fin n → ℝ} {g g1 : Model n d h}

theorem gpSurr_valvar {x' : Fin d → ℝ} {v : ℝ} (hv : g.predictVar la' x' = some v) :
    (gpSurr la' g).valvar x' = some (g.predict x', v) := by simp [gpSurr, hv]

/-- C150. The expected improvement is zero exactly where the predicted variance is below the machine precision. -/
theorem C150_zero_iff (hg : fitWith la kernel mean nugget theta w x y = some g) (la' : LinAlg) (x' : Fin d → ℝ) (fmin : ℝ)
    {k : Option ℝ} (hk : 0 < k.getD 1) :
    eiValue x' (gpSurr la' g) fmin k = 0 ↔ ∃ v, g.predictVar la' x' = some v ∧ v < 2⁻¹ ^ 52 := by
  obtain ⟨l, hl⟩ := C107_best_linear_unbiased kernel mean nugget theta w x x'
  obtain ⟨_, _, hv, _⟩ := hl la la' y g hg
  constructor
  · intro h0
    refine ⟨_, hv, ?_⟩
    by_contra hc
    exact (C36_pos x' _ fmin _ _ k (gpSurr_valvar hv) (not_lt.1 hc) hk).ne' h0
  · rintro ⟨v, h1, h2⟩
    exact (C36_negligible x' _ fmin _ _ k (gpSurr_valvar h1) h2).1

/-- C150. At the points already evaluated, the criteria have their lowest value and gradients are zero, when the nugget
times the variance of the process is negligible. -/
theorem C150_evaluated_partial (hg : fitWith la kernel mean nugget theta w x y = some g) (hθ : ∀ l, 0 ≤ theta l)
    (hn : 0 ≤ nugget) (hs : g.inner.sigma2 * nugget < 2⁻¹ ^ 52) (la' : LinAlg) (i : Fin n) (fmin : ℝ) (k : Option ℝ) :
    eiValue (x i) (gpSurr la' g) fmin k = 0 ∧ eiGrad (x i) (gpSurr la' g) fmin k = .ok 0 ∧
      logEiValue (x i) (gpSurr la' g) fmin = fmin64 := by
  obtain ⟨v, h1, h2⟩ := C116_training_points hg hθ hn la' i
  have hv := h2.trans_lt hs
  refine ⟨(C36_negligible _ _ fmin _ _ k (gpSurr_valvar h1) hv).1, (C36_negligible _ _ fmin _ _ k (gpSurr_valvar h1) hv).2, ?_⟩
  have hv' : v < eps := hv
  simp only [logEiValue, gpSurr_valvar h1, logEiAt, hv', if_true]

/-- C150. A point where the expected improvement is the largest, over any set of points one of which has a variance that is
not negligible, has not been evaluated. -/
theorem C150_new_point_partial (hg : fitWith la kernel mean nugget theta w x y = some g) (hθ : ∀ l, 0 ≤ theta l)
    (hn : 0 ≤ nugget) (hs : g.inner.sigma2 * nugget < 2⁻¹ ^ 52) (la' : LinAlg) {fmin : ℝ} {k : Option ℝ} (hk : 0 < k.getD 1)
    {D : Set (Fin d → ℝ)} {b : Fin d → ℝ}
    (hb : ∀ z ∈ D, eiValue z (gpSurr la' g) fmin k ≤ eiValue b (gpSurr la' g) fmin k)
    (hD : ∃ z ∈ D, ∃ v, g.predictVar la' z = some v ∧ 2⁻¹ ^ 52 ≤ v) (i : Fin n) : b ≠ x i := by
  rintro rfl
  obtain ⟨z, hz, v, h1, h2⟩ := hD
  have := hb z hz
  rw [(C150_evaluated_partial hg hθ hn hs la' i fmin k).1] at this
  exact absurd (C36_pos z _ fmin _ _ k (gpSurr_valvar h1) h2 hk) (not_lt.2 this)

/-- C150. The same for the logarithm of the expected improvement, when it is not the smallest number everywhere. -/
theorem C150_log_new_point_partial (hg : fitWith la kernel mean nugget theta w x y = some g) (hθ : ∀ l, 0 ≤ theta l)
    (hn : 0 ≤ nugget) (hs : g.inner.sigma2 * nugget < 2⁻¹ ^ 52) (la' : LinAlg) {fmin : ℝ} {D : Set (Fin d → ℝ)}
    {b : Fin d → ℝ} (hb : ∀ z ∈ D, logEiValue z (gpSurr la' g) fmin ≤ logEiValue b (gpSurr la' g) fmin)
    (hD : ∃ z ∈ D, fmin64 < logEiValue z (gpSurr la' g) fmin) (i : Fin n) : b ≠ x i := by
  rintro rfl
  obtain ⟨z, hz, h1⟩ := hD
  have := hb z hz
  rw [(C150_evaluated_partial hg hθ hn hs la' i fmin none).2.2] at this
  exact absurd h1 (not_lt.2 this)

/-- C150. With a constant mean, a point of positive expected improvement is away from all the evaluated points: its
correlation with each is below one by at least the machine precision over twice the variance of the process (without
nugget). -/
theorem C150_separated (hg : fitWith la kernel .constant nugget theta w x y = some g) (hθ : ∀ l, 0 ≤ theta l)
    (hn : 0 ≤ nugget) (la' : LinAlg) {fmin : ℝ} {k : Option ℝ} {b : Fin d → ℝ}
    (hb : eiValue b (gpSurr la' g) fmin k ≠ 0) (i : Fin n) :
    2⁻¹ ^ 52 ≤ g.inner.sigma2 * (2 * (1 - kernel.value theta w (g.xnorm b - g.xnorm (x i))) + nugget) := by
  obtain ⟨v, h1, h2⟩ := C116_constant_bound hg hθ hn la' i b
  have e : g.xtData i = g.xnorm (x i) := by
    funext j
    rw [(fitWith_ok hg).xdata]; rfl
  rw [e] at h2
  by_contra hc
  refine hb (C36_negligible b _ fmin _ _ k (gpSurr_valvar h1) (h2.trans_lt ?_)).1
  rw [not_le] at hc
  linarith

/-- C150. Criteria WB2 and WB2S without nugget: their value at an evaluated point is the opposite of its output, and this
point is the best of a set exactly when the scaled expected improvement of no point exceeds the predicted loss. -/
theorem C150_wb2_iff (hg : fitWith la kernel mean 0 theta w x y = some g) (hθ : ∀ l, 0 ≤ theta l) (la' : LinAlg) (i : Fin n)
    (fmin : ℝ) (c k scale : Option ℝ) (D : Set (Fin d → ℝ)) :
    (Crit.wb2 c).value (x i) (gpSurr la' g) fmin k scale = .ok (-y i) ∧
    ((∀ z ∈ D, ∀ r, (Crit.wb2 c).value z (gpSurr la' g) fmin k scale = .ok r → r ≤ -y i) ↔
      ∀ z ∈ D, scale.getD (c.getD 1) * eiValue z (gpSurr la' g) fmin k ≤ g.predict z - y i) := by
  have hv : ∀ z, (Crit.wb2 c).value z (gpSurr la' g) fmin k scale =
      .ok (scale.getD (c.getD 1) * eiValue z (gpSurr la' g) fmin k - g.predict z) :=
    fun z => C37_value_partial z _ fmin _ c k scale rfl
  refine ⟨?_, forall_congr' fun z => imp_congr_right fun _ => ?_⟩
  · rw [hv, C45_interpolation hg i, (C150_evaluated_partial hg hθ le_rfl (by simp) la' i fmin k).1, mul_zero, zero_sub]
  · rw [hv]
    simp only [Except.ok.injEq, forall_eq']
    constructor <;> intro h <;> linarith

/-- C150. With a nugget, no predicted variance is below that of an average of as many observations as there are. -/
theorem C150_variance_floor (hg : fitWith la kernel mean nugget theta w x y = some g) (hθ : ∀ l, 0 ≤ theta l)
    (hn : 0 ≤ nugget) (la' : LinAlg) (x' : Fin d → ℝ) :
    ∃ v, g.predictVar la' x' = some v ∧ g.inner.sigma2 * (nugget / n) ≤ v := by
  obtain ⟨l, hl⟩ := C107_best_linear_unbiased kernel mean nugget theta w x x'
  obtain ⟨_, hu, _, _, hv⟩ := hl la la' y g hg
  refine ⟨_, hv hθ hn, mul_le_mul_of_nonneg_left ?_ (fit_sigma2_nonneg hg)⟩
  rw [corrMatrix_eq, errVar_nugget]
  have h0 := (errVar_bordered (kernel := kernel) (w := w) hθ g.xtData (g.xnorm x') l).1
  have h1 := hu (fun _ => 1) (by
    cases mean
    · exact ⟨1, fun _ => rfl⟩
    · exact ⟨1, 0, fun _ => by simp⟩
    · exact ⟨1, 0, 0, fun _ => by simp⟩)
  simp only [mul_one] at h1
  have h2 : (∑ i, l i) ^ 2 ≤ n * ∑ i, l i ^ 2 := by
    have := sq_sum_le_card_mul_sum_sq (s := Finset.univ) (f := l)
    simpa using this
  rw [h1, one_pow] at h2
  have hn0 : (0 : ℝ) < n := by have := (fitWith_ok hg).two; exact_mod_cast (by omega : 0 < n)
  have h3 : 1 / (n : ℝ) ≤ ∑ i, l i ^ 2 := by
    rw [div_le_iff₀ hn0]; linarith
  have h4 := mul_le_mul_of_nonneg_left h3 hn
  rw [mul_one_div] at h4
  linarith

/-- C150, refuted. With a nugget (the default one for instance) and outputs that are not those of a trend, in all units of
the outputs above some value the expected improvement is positive everywhere, and in particular at the evaluated points. -/
theorem C150_refuted_nugget (h1 : fitWith la1 kernel mean nugget theta w x y = some g1) (hθ : ∀ l, 0 ≤ theta l)
    (hn : 0 < nugget) (hy : ¬ ∃ t, IsTrend mean t ∧ ∀ i, y i = t (x i)) :
    ∃ a₀ : ℝ, 0 < a₀ ∧ ∀ a, a₀ ≤ a → ∀ (la la' : LinAlg) (g : Model n d h),
      fitWith la kernel mean nugget theta w x (fun i => a * y i) = some g →
        ∀ (x' : Fin d → ℝ) (fmin : ℝ) (k : Option ℝ), 0 < k.getD 1 → 0 < eiValue x' (gpSurr la' g) fmin k := by
  have hsg : 0 < g1.inner.sigma2 := lt_of_le_of_ne (fit_sigma2_nonneg h1) fun e => hy ((C107_trend h1).2.1 e.symm)
  have hn0 : (0 : ℝ) < n := by have := (fitWith_ok h1).two; exact_mod_cast (by omega : 0 < n)
  set f := g1.inner.sigma2 * (nugget / n) with hf
  have hf0 : 0 < f := by positivity
  have he := eps_pos
  refine ⟨√(eps / f), Real.sqrt_pos.2 (by positivity), fun a ha la la' g hg x' fmin k hk => ?_⟩
  obtain ⟨v, h2, h3⟩ := C150_variance_floor h1 hθ hn.le la1 x'
  have h4 := (C104_units a 0 h1 (by simpa using hg) la' la1 x').2
  rw [h2, Option.map_some] at h4
  refine C36_pos x' _ fmin _ _ k (gpSurr_valvar h4) ?_ hk
  have h5 : eps / f ≤ a ^ 2 := by
    have := pow_le_pow_left₀ (Real.sqrt_nonneg _) ha 2
    rwa [Real.sq_sqrt (by positivity)] at this
  rw [div_le_iff₀ hf0] at h5
  exact h5.trans (mul_le_mul_of_nonneg_left h3 (sq_nonneg a))

/-- C150, refuted. The expected improvement also vanishes around each evaluated point: points not evaluated are never
proposed there. -/
theorem C150_refuted_elsewhere (hg : fitWith la kernel mean nugget theta w x y = some g) (hθ : ∀ l, 0 ≤ theta l)
    (hn : 0 ≤ nugget) (hs : g.inner.sigma2 * nugget < 2⁻¹ ^ 52) (la' : LinAlg) (i : Fin n) :
    ∃ r > 0, ∀ z, (∀ j, |z j - x i j| < r) → ∀ (fmin : ℝ) (k : Option ℝ), eiValue z (gpSurr la' g) fmin k = 0 := by
  obtain ⟨v, hc, hv⟩ := C136_variances hg hθ hn la'
  obtain ⟨v', h1, h2⟩ := C116_training_points hg hθ hn la' i
  rw [hv] at h1
  cases h1
  have hev : ∀ᶠ z in 𝓝 (x i), v z < 2⁻¹ ^ 52 := hc.continuous.continuousAt.eventually_lt continuousAt_const (h2.trans_lt hs)
  obtain ⟨r, hr, hball⟩ := Metric.eventually_nhds_iff.1 hev
  refine ⟨r, hr, fun z hz fmin k => (C36_negligible z _ fmin _ _ k (gpSurr_valvar (hv z)) (hball ?_)).1⟩
  rw [dist_pi_lt_iff hr]
  exact hz

/-! ## Examples -/

theorem not_trend_two : ¬ ∃ t, IsTrend (d := 1) .constant t ∧
    ∀ i : Fin 2, ![(3 : ℝ), 5] i = t ((fun (i : Fin 2) (_ : Fin 1) => (i : ℝ)) i) := by
  rintro ⟨t, ⟨c, hc⟩, ht⟩
  have h0 := ht 0
  have h1 := ht 1
  rw [hc] at h0 h1
  simp at h0 h1
  linarith

/-- Two evaluated points without nugget, in some unit of the outputs: the expected improvement is zero at both, positive at
their middle, and each point where it is the largest between 0 and 1 is a new point. -/
example : ∃ (a : ℝ) (g : Model 2 1 1), 0 < a ∧ fitWith exact .squaredExponential .constant 0 (fun _ : Fin 1 => 1)
      (fun (_ : Fin 1) (_ : Fin 1) => 1) (fun (i : Fin 2) (_ : Fin 1) => (i : ℝ)) (fun i => a * ![3, 5] i) = some g ∧
    (∀ i : Fin 2, eiValue (fun _ => (i : ℝ)) (gpSurr exact g) (a * 3) none = 0) ∧
    0 < eiValue (fun _ => 1 / 2) (gpSurr exact g) (a * 3) none ∧
    ∀ b, (∀ z ∈ Set.Icc (0 : Fin 1 → ℝ) 1, eiValue z (gpSurr exact g) (a * 3) none ≤ eiValue b (gpSurr exact g) (a * 3) none) →
      ∀ i : Fin 2, b ≠ fun _ => (i : ℝ) := by
  obtain ⟨g1, h1⟩ := fit_two_points 1 one_pos ![3, 5]
  obtain ⟨v, hv, hpos⟩ := C119_positive h1 (fun _ => zero_le_one) le_rfl not_trend_two exact (fun _ => 1 / 2)
    (Or.inr fun i => ⟨0, 0, one_ne_zero, one_ne_zero, by fin_cases i <;> simp⟩)
  have he := eps_pos
  have hq : 0 < eps / v := by positivity
  set a := √(eps / v) with ha
  have ha0 : 0 < a := Real.sqrt_pos.2 hq
  obtain ⟨g, hg⟩ := C104_success h1 (fun i => a * ![3, 5] i)
  have h4 := (C104_units a 0 h1 (by simpa using hg) exact exact fun _ => 1 / 2).2
  rw [hv, Option.map_some] at h4
  have hbig : eps ≤ a ^ 2 * v := by
    rw [ha, Real.sq_sqrt hq.le, div_mul_cancel₀ _ hpos.ne']
  refine ⟨a, g, ha0, hg, fun i =>
    (C150_evaluated_partial hg (fun _ => zero_le_one) le_rfl (by simp) exact i (a * 3) none).1,
    C36_pos _ _ _ _ _ none (gpSurr_valvar h4) hbig (by simp), fun b hb i =>
    C150_new_point_partial hg (fun _ => zero_le_one) le_rfl (by simp) exact (by simp) hb
      ⟨fun _ => 1 / 2, ⟨fun _ => by simp, fun _ => by norm_num⟩, _, h4, hbig⟩ i⟩

/-- WB2 at the two evaluated points. -/
example : ∃ g : Model 2 1 1, fitWith exact .squaredExponential .constant 0 (fun _ : Fin 1 => 1)
      (fun (_ : Fin 1) (_ : Fin 1) => 1) (fun (i : Fin 2) (_ : Fin 1) => (i : ℝ)) ![3, 5] = some g ∧
    (Crit.wb2 none).value (fun _ => 1) (gpSurr exact g) 3 none none = .ok (-5) := by
  obtain ⟨g, hg⟩ := fit_two_points 1 one_pos ![3, 5]
  have := (C150_wb2_iff hg (fun _ => zero_le_one) exact 1 3 none none none Set.univ).1
  exact ⟨g, hg, by simpa using this⟩

/-- With the default nugget and outputs 3 and 5 in a small unit, the expected improvement at the evaluated points is
positive. -/
example : ∃ (a : ℝ) (g : Model 2 1 1), 0 < a ∧ fitWith exact .matern52 .constant (100 * 2⁻¹ ^ 52) (fun _ : Fin 1 => 1)
      (fun (_ : Fin 1) (_ : Fin 1) => 1) (fun (i : Fin 2) (_ : Fin 1) => (i : ℝ)) (fun i => a * ![3, 5] i) = some g ∧
    ∀ i : Fin 2, 0 < eiValue (fun _ => (i : ℝ)) (gpSurr exact g) (a * 3) none := by
  have hn : (0 : ℝ) < 100 * 2⁻¹ ^ 52 := by positivity
  obtain ⟨g1, h1⟩ := C90_constant_mean_fits .matern52 (fun _ : Fin 1 => 1) (fun _ => zero_le_one)
    (fun (_ : Fin 1) (_ : Fin 1) => 1) (100 * 2⁻¹ ^ 52) hn (fun (i : Fin 2) (_ : Fin 1) => (i : ℝ)) ![3, 5] le_rfl
  obtain ⟨a, ha, hall⟩ := C150_refuted_nugget h1 (fun _ => zero_le_one) hn not_trend_two
  obtain ⟨g, hg⟩ := C104_success h1 (fun i => a * ![3, 5] i)
  exact ⟨a, g, ha, hg, fun i => hall a le_rfl exact exact g hg _ _ none (by simp)⟩

end Verif.Props
