import Verif.Props.GpEquiv

/-!
# C113: order, orientation and units of the input variables
-/

set_option autoImplicit false

namespace Verif.Props

open Matrix Kernels Means GpUtils Spec Gp

variable {n d h p : ℕ} {la la2 : LinAlg} {kernel : Kernel} {mean : Mean} {nugget : ℝ} {theta : Fin h → ℝ}
  {w w2 : Fin d → Fin h → ℝ} {x : Fin n → Fin d → ℝ} {y : Fin n → ℝ} {g g2 : Model n d h}

/-! ## Kriging formulas and change of basis functions -/

section
variable {R : Matrix (Fin n) (Fin n) ℝ} {F : Matrix (Fin n) (Fin p) ℝ} {A : Matrix (Fin p) (Fin p) ℝ}
  {y0 r r' : Matrix (Fin n) (Fin 1) ℝ} {f f' : Matrix (Fin p) (Fin 1) ℝ}

theorem gram_basis (A : Matrix (Fin p) (Fin p) ℝ) :
    (F * A)ᵀ * R⁻¹ * (F * A) = Aᵀ * (Fᵀ * R⁻¹ * F) * A := by
  simp only [Matrix.transpose_mul, Matrix.mul_assoc]

theorem gram_basis_inv (A : Matrix (Fin p) (Fin p) ℝ) :
    ((F * A)ᵀ * R⁻¹ * (F * A))⁻¹ = A⁻¹ * (Fᵀ * R⁻¹ * F)⁻¹ * Aᵀ⁻¹ := by
  rw [gram_basis, Matrix.mul_inv_rev, Matrix.mul_inv_rev]
  simp only [Matrix.mul_assoc]

theorem basis_unit (hB : IsUnit ((F * A)ᵀ * R⁻¹ * (F * A)).det) : IsUnit A.det := by
  rw [gram_basis, Matrix.det_mul] at hB
  exact isUnit_of_mul_isUnit_right hB

theorem krigBeta_basis (hA : IsUnit A.det) : krigBeta R (F * A) y0 = A⁻¹ * krigBeta R F y0 := by
  have h : Aᵀ⁻¹ * Aᵀ = 1 := Matrix.nonsing_inv_mul _ (by rwa [Matrix.det_transpose])
  rw [krigBeta, gram_basis_inv, krigBeta, Matrix.transpose_mul]
  simp only [Matrix.mul_assoc]
  rw [← Matrix.mul_assoc Aᵀ⁻¹, h, Matrix.one_mul]

theorem residual_basis (hA : IsUnit A.det) : F * A * krigBeta R (F * A) y0 = F * krigBeta R F y0 := by
  rw [krigBeta_basis hA, Matrix.mul_assoc, ← Matrix.mul_assoc A, Matrix.mul_nonsing_inv _ hA, Matrix.one_mul]

theorem krigMean_basis (hA : IsUnit A.det) : krigMean R (F * A) y0 r (Aᵀ * f) = krigMean R F y0 r f := by
  rw [krigMean, residual_basis hA, krigBeta_basis hA, krigMean, Matrix.transpose_mul, Matrix.transpose_transpose,
    Matrix.mul_assoc, ← Matrix.mul_assoc A, Matrix.mul_nonsing_inv _ hA, Matrix.one_mul]

theorem krigSigma2_basis (hA : IsUnit A.det) : krigSigma2 R (F * A) y0 = krigSigma2 R F y0 := by
  rw [krigSigma2, residual_basis hA, krigSigma2]

theorem krigCov_basis (hA : IsUnit A.det) (k : ℝ) :
    krigCov R (F * A) k r r' (Aᵀ * f) (Aᵀ * f') = krigCov R F k r r' f f' := by
  have h : Aᵀ⁻¹ * Aᵀ = 1 := Matrix.nonsing_inv_mul _ (by rwa [Matrix.det_transpose])
  have e : ∀ (f : Matrix (Fin p) (Fin 1) ℝ) (r : Matrix (Fin n) (Fin 1) ℝ), Aᵀ * f - (F * A)ᵀ * R⁻¹ * r = Aᵀ * (f - Fᵀ * R⁻¹ * r) := fun f r => by
    rw [Matrix.mul_sub, Matrix.transpose_mul]
    simp only [Matrix.mul_assoc]
  rw [krigCov, gram_basis_inv, krigCov, e, e, Matrix.transpose_mul, Matrix.transpose_transpose]
  simp only [Matrix.mul_assoc]
  rw [← Matrix.mul_assoc Aᵀ⁻¹, h, Matrix.one_mul, ← Matrix.mul_assoc A, Matrix.mul_nonsing_inv _ hA, Matrix.one_mul]

theorem krigVar_basis (hA : IsUnit A.det) : krigVar R (F * A) r (Aᵀ * f) = krigVar R F r f :=
  krigCov_basis hA 1

end

/-! ## Kernels -/

theorem kernel_vars (k : Kernel) (τ : Equiv.Perm (Fin d)) (ρ : Equiv.Perm (Fin h)) (e : Fin d → ℝ)
    {theta2 : Fin h → ℝ} (hw : ∀ j l, theta2 l * |w2 j l| * |e j| = theta (ρ l) * |w (τ j) (ρ l)|) (v : Fin d → ℝ) :
    k.value theta2 w2 (fun j => e j * v (τ j)) = k.value theta w v := by
  rw [C40_documented, C40_documented, corr, corr, ← Equiv.prod_comp τ (fun j => ∏ l, corr1 k (theta l * |w j l| * |v j|))]
  refine Finset.prod_congr rfl fun j _ => ?_
  rw [← Equiv.prod_comp ρ (fun l => corr1 k (theta l * |w (τ j) l| * |v (τ j)|))]
  refine Finset.prod_congr rfl fun l _ => ?_
  rw [← hw, abs_mul]
  ring_nf

/-! ## The changed variables -/

/-- Variables in another order, then in other units (a negative factor reverses the direction). -/
def revar (τ : Equiv.Perm (Fin d)) (s t : Fin d → ℝ) (z : Fin d → ℝ) : Fin d → ℝ := fun j => s j * z (τ j) + t j

theorem IsTrend.revar {q : (Fin d → ℝ) → ℝ} (hq : IsTrend mean q) (τ : Equiv.Perm (Fin d)) (s t : Fin d → ℝ) :
    IsTrend mean (fun z => q (revar τ s t z)) := by
  have hl : ∀ j, mean ≠ .constant → IsTrend mean (fun z => Props.revar τ s t z j) := fun j hm =>
    ((IsTrend.lin (τ j) hm).smul (s j)).add (IsTrend.const (t j))
  have hsum : ∀ (m : Mean) (v : Fin d → (Fin d → ℝ) → ℝ), (∀ j, IsTrend m (v j)) → IsTrend m (fun z => ∑ j, v j z) := by
    intro m v hv
    have := Submodule.sum_mem (trendSub m d) (t := Finset.univ) (f := v) fun j _ => hv j
    have e : (fun z => ∑ j, v j z) = ∑ j, v j := by funext z; rw [Finset.sum_apply]
    rw [e]; exact this
  cases mean with
  | constant =>
    obtain ⟨c, h⟩ := hq
    exact ⟨c, fun z => h _⟩
  | linear =>
    obtain ⟨c, b, h⟩ := hq
    simp only [h]
    exact (IsTrend.const c).add (hsum _ _ fun j => (hl j (by simp)).smul (b j))
  | quadratic =>
    obtain ⟨c, b, q2, h⟩ := hq
    simp only [h]
    refine ((IsTrend.const c).add (hsum _ _ fun j => (hl j (by simp)).smul (b j))).add
      (hsum _ _ fun j => hsum _ _ fun k => IsTrend.smul (q2 j k) ?_)
    have := (((IsTrend.quad (τ j) (τ k)).smul (s j * s k)).add
      ((IsTrend.lin (mean := .quadratic) (τ j) (by simp)).smul (s j * t k))).add
      (((IsTrend.lin (mean := .quadratic) (τ k) (by simp)).smul (t j * s k)).add (IsTrend.const (t j * t k)))
    convert this using 1
    funext z
    simp only [Props.revar, Pi.add_apply, Pi.smul_apply, smul_eq_mul]
    ring

theorem stdOf_revar (hn : n ≠ 0) (y : Fin n → ℝ) (a c : ℝ) (ha : a ≠ 0) (h : |a| = 1 ∨ ∃ i j, y i ≠ y j) :
    stdOf (fun i => a * y i + c) = |a| * stdOf y := by
  rcases h with h | ⟨i, j, hij⟩
  · rcases stdOf_affine hn y a c ha with ⟨z, z'⟩ | hs
    · have e : ∀ y' : Fin n → ℝ, centred y' = 0 → stdOf y' = 1 := fun y' hy => by
        have : ∀ i, y' i - colMean y' = 0 := fun i => congrFun (congrFun hy i) 0
        simp [stdOf, this]
      rw [e _ z, e _ z', h, one_mul]
    · exact hs
  · rcases stdOf_affine hn y a c ha with ⟨z, _⟩ | hs
    · exfalso
      apply hij
      have h1 := congrFun (congrFun z i) 0
      have h2 := congrFun (congrFun z j) 0
      simp only [centred, Matrix.of_apply, Matrix.zero_apply] at h1 h2
      linarith
    · exact hs

section
variable (τ : Equiv.Perm (Fin d)) (s t : Fin d → ℝ)

theorem xnPoint_revar (hn : n ≠ 0) (hs : ∀ j, s j ≠ 0) (hx : ∀ j, |s j| = 1 ∨ ∃ i i', x i (τ j) ≠ x i' (τ j))
    (z : Fin d → ℝ) :
    xnPoint (fun i => revar τ s t (x i)) (revar τ s t z) = fun j => s j / |s j| * xnPoint x z (τ j) := by
  funext j
  have h1 := colMean_affine hn (fun i => x i (τ j)) (s j) (t j)
  have h2 := stdOf_revar hn (fun i => x i (τ j)) (s j) (t j) (hs j) (hx j)
  have h3 := (stdOf_pos fun i => x i (τ j)).ne'
  have h4 := abs_ne_zero.2 (hs j)
  simp only [xnPoint, revar]
  rw [h1, h2]
  field_simp
  ring

theorem unit_sign (hs : ∀ j, s j ≠ 0) (j : Fin d) : |s j / abs (s j)| = 1 := by
  rw [abs_div, abs_abs, div_self (abs_ne_zero.2 (hs j))]

theorem kernel_revar (hn : n ≠ 0) (hs : ∀ j, s j ≠ 0) (hx : ∀ j, |s j| = 1 ∨ ∃ i i', x i (τ j) ≠ x i' (τ j))
    (ρ : Equiv.Perm (Fin h)) (hw : ∀ j l, |w2 j l| = |w (τ j) (ρ l)|) (a b : Fin d → ℝ) :
    kernel.value (fun l => theta (ρ l)) w2 (xnPoint (fun i => revar τ s t (x i)) (revar τ s t a) -
      xnPoint (fun i => revar τ s t (x i)) (revar τ s t b)) = kernel.value theta w (xnPoint x a - xnPoint x b) := by
  rw [← kernel_vars (theta := theta) (w := w) kernel τ ρ (fun j => s j / |s j|) (theta2 := fun l => theta (ρ l)) (w2 := w2) fun j l => by
    rw [unit_sign s hs, hw, mul_one]]
  congr 1
  funext j
  simp only [xnPoint_revar τ s t hn hs hx, Pi.sub_apply]
  ring

theorem corrMatrix_revar (hn : n ≠ 0) (hs : ∀ j, s j ≠ 0) (hx : ∀ j, |s j| = 1 ∨ ∃ i i', x i (τ j) ≠ x i' (τ j))
    (ρ : Equiv.Perm (Fin h)) (hw : ∀ j l, |w2 j l| = |w (τ j) (ρ l)|) :
    corrMatrix kernel (fun l => theta (ρ l)) w2 nugget (xnData fun i => revar τ s t (x i)) =
      corrMatrix kernel theta w nugget (xnData x) := by
  funext i j
  simp only [corrMatrix, Matrix.of_apply]
  exact congrArg (ite _ _) (kernel_revar τ s t hn hs hx ρ hw (x i) (x j))

/-- The basis functions of the changed variables are combinations of the basis functions. -/
theorem basis_revar (mean : Mean) (x : Fin n → Fin d → ℝ) : ∃ A : Matrix (Fin (basis mean d)) (Fin (basis mean d)) ℝ,
    meanMat mean (xnData fun i => revar τ s t (x i)) = meanMat mean (xnData x) * A ∧
    ∀ x', fAt mean (fun i => revar τ s t (x i)) (revar τ s t x') = Aᵀ * fAt mean x x' := by
  have h : ∀ a, ∃ c : Fin (basis mean d) → ℝ, ∀ z,
      feat mean (fun i => revar τ s t (x i)) a (revar τ s t z) = ∑ b, feat mean x b z * c b := by
    intro a
    have h1 := (feat_trend (mean := mean) (x := fun i => revar τ s t (x i)) a).revar τ s t
    rw [trend_iff (x := x), Submodule.mem_span_range_iff_exists_fun] at h1
    obtain ⟨c, hc⟩ := h1
    refine ⟨c, fun z => ?_⟩
    rw [← congrFun hc z, Finset.sum_apply]
    exact Finset.sum_congr rfl fun b _ => by rw [Pi.smul_apply, smul_eq_mul, mul_comm]
  choose c hc using h
  refine ⟨Matrix.of fun b a => c a b, ?_, fun x' => ?_⟩
  · funext i a
    rw [Matrix.mul_apply]
    exact hc a (x i)
  · funext a b
    rw [Matrix.mul_apply]
    refine (hc a x').trans (Finset.sum_congr rfl fun b _ => ?_)
    rw [mul_comm]; rfl

/-- Two fits of the same data, the second with the variables in another order, other units and other directions, and
with the same hyperparameters for the same variables (and weights up to their sign), have the same likelihood, and the
same predictions, variances and covariances at the same points. -/
theorem C113_variables (ρ : Equiv.Perm (Fin h)) (hs : ∀ j, s j ≠ 0)
    (hx : ∀ j, |s j| = 1 ∨ ∃ i i', x i (τ j) ≠ x i' (τ j)) (hw : ∀ j l, |w2 j l| = |w (τ j) (ρ l)|)
    (hg : fitWith la kernel mean nugget theta w x y = some g)
    (h2 : fitWith la2 kernel mean nugget (fun l => theta (ρ l)) w2 (fun i j => s j * x i (τ j) + t j) y = some g2) :
    g2.likelihood = g.likelihood ∧ ∀ la' la'' : LinAlg,
      (∀ x', g2.predict (fun j => s j * x' (τ j) + t j) = g.predict x' ∧
        g2.predictVar la' (fun j => s j * x' (τ j) + t j) = g.predictVar la'' x') ∧
      (∀ (m : ℕ) (xs : Fin m → Fin d → ℝ),
        g2.covariance la' (fun a j => s j * xs a (τ j) + t j) = g.covariance la'' xs) := by
  have hn : n ≠ 0 := by have := (fitWith_ok hg).two; omega
  have h2' : fitWith la2 kernel mean nugget (fun l => theta (ρ l)) w2 (fun i => revar τ s t (x i)) y = some g2 := h2
  obtain ⟨A, hF, hf⟩ := basis_revar τ s t mean x
  have hR := corrMatrix_revar (kernel := kernel) (nugget := nugget) (theta := theta) τ s t hn hs hx ρ hw
  obtain ⟨_, _, hB, hs2⟩ := fit_matrices h2'
  obtain ⟨_, _, _, hs1⟩ := fit_matrices hg
  rw [hR, hF] at hB
  have hA := basis_unit hB
  have hr : ∀ x', rAt kernel (fun l => theta (ρ l)) w2 (fun i => revar τ s t (x i)) (revar τ s t x') =
      rAt kernel theta w x x' := fun x' => by
    funext i j
    exact kernel_revar τ s t hn hs hx ρ hw x' (x i)
  refine ⟨?_, fun la' la'' => ⟨fun x' => ?_, fun m xs => ?_⟩⟩
  · obtain ⟨e1, e2, e3⟩ := la2.chol_spec _ _ (corrMatrix_symm _ _ _ _ _) (fitWith_chol h2')
    obtain ⟨e4, e5, e6⟩ := la.chol_spec _ _ (corrMatrix_symm _ _ _ _ _) (fitWith_chol hg)
    rw [likelihood_closed h2', likelihood_closed hg, hR, hF, krigSigma2_basis hA, ← Finset.sum_div, ← Finset.sum_div,
      log_chol e1 e2 e3, log_chol e4 e5 e6, hR]
  · obtain ⟨e1, e2⟩ := predict_closed h2' la' (revar τ s t x')
    obtain ⟨e3, e4⟩ := predict_closed hg la'' x'
    refine ⟨?_, ?_⟩
    · refine e1.trans ?_
      rw [e3, hR, hF, hr, hf, krigMean_basis hA]
    · refine e2.trans ?_
      rw [e4, hR, hF, hr, hf, krigSigma2_basis hA, krigVar_basis hA]
  · obtain ⟨C2, c1, _, _, c2⟩ := C78_covariance h2' la' fun a => revar τ s t (xs a)
    obtain ⟨C1, c3, _, _, c4⟩ := C78_covariance hg la'' xs
    refine c1.trans ?_
    rw [c3]
    congr 1
    funext a b
    have ok := fitWith_ok hg
    have ok2 := fitWith_ok h2'
    have hxd : g.xtData = xnData x := by funext i j; rw [ok.xdata, ok.xmean, ok.xstdOf, xnData]
    have hxd2 : g2.xtData = xnData fun i => revar τ s t (x i) := by
      funext i j; rw [ok2.xdata, ok2.xmean, ok2.xstdOf, xnData]
    have hxp : ∀ z, g.xnorm z = xnPoint x z := fun z => by
      funext j; rw [Model.xnorm, ok.xmean, ok.xstdOf, xnPoint]
    have hxp2 : ∀ z, g2.xnorm z = xnPoint (fun i => revar τ s t (x i)) z := fun z => by
      funext j; rw [Model.xnorm, ok2.xmean, ok2.xstdOf, xnPoint]
    rw [c2, c4, hs2, hs1]
    simp only [hxd, hxd2, hxp, hxp2]
    have f1 := fun z => hr z
    have f2 := fun z => hf z
    simp only [rAt, fAt] at f1 f2
    rw [f1, f1, f2, f2, hR, hF, krigSigma2_basis hA, krigCov_basis hA, kernel_revar τ s t hn hs hx ρ hw]

/-- Components of gradients are those of the same variables, divided by the factors of the units (with the absolute
exponential kernel, where the component differs from those of the training inputs). -/
theorem C113_gradients (ρ : Equiv.Perm (Fin h)) (hs : ∀ j, s j ≠ 0)
    (hx : ∀ j, |s j| = 1 ∨ ∃ i i', x i (τ j) ≠ x i' (τ j)) (hw : ∀ j l, |w2 j l| = |w (τ j) (ρ l)|)
    (hg : fitWith la kernel mean nugget theta w x y = some g)
    (h2 : fitWith la2 kernel mean nugget (fun l => theta (ρ l)) w2 (fun i j => s j * x i (τ j) + t j) y = some g2)
    (x' : Fin d → ℝ) :
    ∃ v v2, g.predictGradient x' = some v ∧ g2.predictGradient (fun j => s j * x' (τ j) + t j) = some v2 ∧
      ∀ j, (kernel = .absoluteExponential → ∀ i, x' (τ j) ≠ x i (τ j)) → v2 j = v (τ j) / s j := by
  obtain ⟨v, e1, d1⟩ := C47_gradient_partial hg x'
  obtain ⟨v2, e2, d2⟩ := C47_gradient_partial h2 (fun j => s j * x' (τ j) + t j)
  refine ⟨v, v2, e1, e2, fun j hk => ?_⟩
  have hpred := ((C113_variables τ s t ρ hs hx hw hg h2).2 la la).1
  have a1 := d1 (τ j) hk
  have a2 := d2 j fun hka i he => hk hka i (mul_left_cancel₀ (hs j) (add_right_cancel he))
  have key : ∀ u, g2.predict (Function.update (fun j => s j * x' (τ j) + t j) j u) =
      g.predict (Function.update x' (τ j) ((u - t j) / s j)) := by
    intro u
    rw [← (hpred _).1]
    congr 1
    funext k
    by_cases hkj : k = j
    · subst hkj
      rw [Function.update_self, Function.update_self, mul_div_cancel₀ _ (hs k), sub_add_cancel]
    · rw [Function.update_of_ne hkj, Function.update_of_ne fun e => hkj (τ.injective e)]
  simp only [key] at a2
  have a3 : HasDerivAt (fun u : ℝ => (u - t j) / s j) (1 / s j) (s j * x' (τ j) + t j) :=
    ((hasDerivAt_id _).sub_const _).div_const _
  have a4 : (s j * x' (τ j) + t j - t j) / s j = x' (τ j) := by
    rw [add_sub_cancel_right, mul_div_cancel_left₀ _ (hs j)]
  rw [← a4] at a1
  have a5 := HasDerivAt.comp (s j * x' (τ j) + t j)
    (h₂ := fun t => g.predict (Function.update x' (τ j) t)) (h := fun u => (u - t j) / s j) a1 a3
  rw [a2.unique a5, mul_one_div]

/-- With exact linear algebra, the fit with changed variables succeeds when the fit does. -/
theorem C113_success (ρ : Equiv.Perm (Fin h)) (hs : ∀ j, s j ≠ 0)
    (hx : ∀ j, |s j| = 1 ∨ ∃ i i', x i (τ j) ≠ x i' (τ j)) (hw : ∀ j l, |w2 j l| = |w (τ j) (ρ l)|)
    (hg : fitWith la kernel mean nugget theta w x y = some g) :
    ∃ g2, fitWith exact kernel mean nugget (fun l => theta (ρ l)) w2 (fun i j => s j * x i (τ j) + t j) y = some g2 := by
  have hn : n ≠ 0 := by have := (fitWith_ok hg).two; omega
  obtain ⟨hpd, _, hB, _⟩ := fit_matrices hg
  refine fit_succeeds _ _ _ _ _ (fun i => revar τ s t (x i)) _ (fitWith_ok hg).two ?_ ?_
  · have hR := corrMatrix_revar (kernel := kernel) (nugget := nugget) (theta := theta) τ s t hn hs hx ρ hw
    rw [← hR] at hpd
    exact hpd
  · obtain ⟨A, hF, _⟩ := basis_revar τ s t mean x
    -- the inverse change gives a left inverse of the matrix of basis functions
    have hinv : ∀ z, revar τ⁻¹ (fun j => 1 / s (τ⁻¹ j)) (fun j => -t (τ⁻¹ j) / s (τ⁻¹ j)) (revar τ s t z) = z := by
      intro z
      funext j
      have h1 := hs (τ⁻¹ j)
      have h2 : τ (τ⁻¹ j) = j := τ.apply_symm_apply j
      simp only [revar, h2]
      field_simp
      ring
    obtain ⟨B, hF2, _⟩ := basis_revar τ⁻¹ (fun j => 1 / s (τ⁻¹ j)) (fun j => -t (τ⁻¹ j) / s (τ⁻¹ j)) mean
      fun i => revar τ s t (x i)
    simp only [hinv] at hF2
    have hAB : A * B = 1 := by
      have e : meanMat mean (xnData x) = meanMat mean (xnData x) * (A * B) := by
        rw [← Matrix.mul_assoc, ← hF]; exact hF2
      have e2 := congrArg (fun M => (meanMat mean (xnData x))ᵀ *
        (corrMatrix kernel theta w nugget (xnData x))⁻¹ * M) e
      simp only [← Matrix.mul_assoc] at e2
      have e3 := congrArg (fun M => ((meanMat mean (xnData x))ᵀ * (corrMatrix kernel theta w nugget (xnData x))⁻¹ *
        meanMat mean (xnData x))⁻¹ * M) e2
      simp only [Matrix.mul_assoc _ A B] at e3
      rw [Matrix.nonsing_inv_mul _ hB, ← Matrix.mul_assoc, Matrix.nonsing_inv_mul _ hB, Matrix.one_mul] at e3
      exact e3.symm
    have hBA : B * A = 1 := mul_eq_one_comm.1 hAB
    intro v v' hv
    have hv' : (meanMat mean (xnData x)).mulVec (A.mulVec v) = (meanMat mean (xnData x)).mulVec (A.mulVec v') := by
      rw [Matrix.mulVec_mulVec, Matrix.mulVec_mulVec, ← hF]; exact hv
    have h2 := congrArg (((meanMat mean (xnData x))ᵀ * (corrMatrix kernel theta w nugget (xnData x))⁻¹).mulVec) hv'
    rw [Matrix.mulVec_mulVec (A.mulVec v), Matrix.mulVec_mulVec (A.mulVec v')] at h2
    have h3 := Matrix.mulVec_injective_of_isUnit ((Matrix.isUnit_iff_isUnit_det _).2 hB) h2
    have h4 := congrArg B.mulVec h3
    rwa [Matrix.mulVec_mulVec, Matrix.mulVec_mulVec, hBA, Matrix.one_mulVec, Matrix.one_mulVec] at h4

end

/-- Without reduction of the dimension: the variables in another order, each with its hyperparameter. -/
theorem C113_order_of_variables {theta : Fin d → ℝ} {g g2 : Model n d d} (τ : Equiv.Perm (Fin d))
    (hg : fitWith la kernel mean nugget theta (1 : Matrix (Fin d) (Fin d) ℝ) x y = some g)
    (h2 : fitWith la2 kernel mean nugget (fun j => theta (τ j)) (1 : Matrix (Fin d) (Fin d) ℝ) (fun i j => x i (τ j)) y =
      some g2) :
    g2.likelihood = g.likelihood ∧ ∀ (la' la'' : LinAlg) (x' : Fin d → ℝ),
      g2.predict (fun j => x' (τ j)) = g.predict x' ∧ g2.predictVar la' (fun j => x' (τ j)) = g.predictVar la'' x' := by
  have hx : (fun (i : Fin n) (j : Fin d) => (1 : ℝ) * x i (τ j) + 0) = fun i j => x i (τ j) := by
    funext i j; ring
  have := C113_variables (la2 := la2) (g2 := g2) τ (fun _ => 1) (fun _ => 0) τ (fun _ => one_ne_zero)
    (fun _ => Or.inl abs_one) (w2 := (1 : Matrix (Fin d) (Fin d) ℝ)) (fun j l => by
      simp only [Matrix.one_apply, EmbeddingLike.apply_eq_iff_eq]) hg (by simpa using h2)
  refine ⟨this.1, fun la' la'' x' => ?_⟩
  have h3 := (this.2 la' la'').1 x'
  simpa using h3

/-! ## Examples -/

/-- Three points in dimension two, the variables exchanged. -/
example : ∃ g g2, fitWith exact .matern52 .constant 1 ![1, 4] (1 : Matrix (Fin 2) (Fin 2) ℝ)
      ![![0, 1], ![2, 3], ![5, -7]] ![3, 5, 4] = some g ∧
    fitWith exact .matern52 .constant 1 (fun j => ![1, 4] (Equiv.swap 0 1 j)) (1 : Matrix (Fin 2) (Fin 2) ℝ)
      (fun i j => ![![0, 1], ![2, 3], ![5, -7]] i (Equiv.swap 0 1 j)) ![3, 5, 4] = some g2 ∧
    g2.likelihood = g.likelihood ∧ g2.predict ![10, 20] = g.predict ![20, 10] := by
  have h0 : ∀ j, (0 : ℝ) ≤ ![1, 4] j := by intro j; fin_cases j <;> simp
  obtain ⟨g, hg⟩ := C90_constant_mean_fits .matern52 ![1, 4] h0 (1 : Matrix (Fin 2) (Fin 2) ℝ) 1 one_pos
    ![![0, 1], ![2, 3], ![5, -7]] ![3, 5, 4] (by norm_num)
  obtain ⟨g2, h2⟩ := C90_constant_mean_fits .matern52 (fun j => ![1, 4] (Equiv.swap 0 1 j)) (fun j => h0 _)
    (1 : Matrix (Fin 2) (Fin 2) ℝ) 1 one_pos (fun i j => ![![0, 1], ![2, 3], ![5, -7]] i (Equiv.swap 0 1 j)) ![3, 5, 4]
    (by norm_num)
  obtain ⟨e1, e2⟩ := C113_order_of_variables (Equiv.swap 0 1) hg h2
  refine ⟨g, g2, hg, h2, e1, ?_⟩
  rw [← (e2 exact exact ![20, 10]).1]
  congr 1
  funext j
  fin_cases j <;> simp

/-- A depth instead of an altitude, and weights of the other sign. -/
example : ∃ g g2, fitWith exact .squaredExponential .constant 0 (fun _ : Fin 1 => 1) (fun (_ : Fin 1) (_ : Fin 1) => 1)
      (fun (i : Fin 2) (_ : Fin 1) => (i : ℝ)) ![3, 5] = some g ∧
    fitWith exact .squaredExponential .constant 0 (fun _ : Fin 1 => 1) (fun (_ : Fin 1) (_ : Fin 1) => -1)
      (fun (i : Fin 2) (_ : Fin 1) => -1000 * (i : ℝ) + 0) ![3, 5] = some g2 ∧
    g2.likelihood = g.likelihood ∧ ∀ c : ℝ, g2.predict (fun _ => -1000 * c + 0) = g.predict (fun _ => c) := by
  obtain ⟨g, hg⟩ := fit_two_points 1 one_pos ![3, 5]
  have hx : ∀ j : Fin 1, |(-1000 : ℝ)| = 1 ∨ ∃ i i', (fun (i : Fin 2) (_ : Fin 1) => ((i : ℕ) : ℝ)) i (Equiv.refl (Fin 1) j) ≠
      (fun (i : Fin 2) (_ : Fin 1) => ((i : ℕ) : ℝ)) i' (Equiv.refl (Fin 1) j) := fun _ => Or.inr ⟨0, 1, by simp⟩
  have hw : ∀ (j l : Fin 1), |(fun (_ : Fin 1) (_ : Fin 1) => (-1 : ℝ)) j l| =
      |(fun (_ : Fin 1) (_ : Fin 1) => (1 : ℝ)) (Equiv.refl _ j) (Equiv.refl _ l)| := fun _ _ => by simp
  obtain ⟨g2, h2⟩ := C113_success (Equiv.refl _) (fun _ => -1000) (fun _ => 0) (Equiv.refl _) (fun _ => by norm_num)
    hx hw hg
  obtain ⟨e1, e2⟩ := C113_variables (Equiv.refl _) (fun _ => -1000) (fun _ => 0) (Equiv.refl _) (fun _ => by norm_num)
    hx hw hg h2
  exact ⟨g, g2, hg, h2, e1, fun c => ((e2 exact exact).1 fun _ => c).1⟩

end Verif.Props
