import Verif.Lemmas.Sparse

/-!
# C50, C51, C92, C93: predictions of sparse Gaussian processes
-/

set_option autoImplicit false

namespace Verif.Props

open Matrix Kernels Gp Sparse Spec

variable {n m d h : ℕ} {la : LinAlg} {kernel : Kernel} {θ : Fin h → ℝ} {s noise nugget : ℝ} {w : Fin d → Fin h → ℝ} {method : Method}
  {x : Fin n → Fin d → ℝ} {y : Fin n → ℝ} {z : Fin m → Fin d → ℝ} {g : Sparse.Model n m d h}

/-- The outputs as a column. -/
def column (y : Fin n → ℝ) : Matrix (Fin n) (Fin 1) ℝ := Matrix.of fun i _ => y i

theorem computeK_eq {p q : ℕ} (k : Kernel) (a : Fin p → Fin d → ℝ) (b : Fin q → Fin d → ℝ)
    (w : Fin d → Fin h → ℝ) (θ : Fin h → ℝ) (s : ℝ) : computeK k a b w θ s = crossCov k θ w s a b := by
  funext i j
  rw [computeK, crossCov, Matrix.of_apply, Matrix.of_apply, C40_documented, mul_comm]

theorem crossCov_transpose {p q : ℕ} (k : Kernel) (θ : Fin h → ℝ) (w : Fin d → Fin h → ℝ) (s : ℝ)
    (a : Fin p → Fin d → ℝ) (b : Fin q → Fin d → ℝ) : (crossCov k θ w s a b)ᵀ = crossCov k θ w s b a := by
  funext i j
  rw [← computeK_eq, ← computeK_eq, Matrix.transpose_apply, computeK, computeK, Matrix.of_apply, Matrix.of_apply]
  congr 1
  exact C40_symmetric k θ w _ _ fun l => by right; ring

/-- Covariance of the inducing variables and of the observations. -/
theorem inducing_eq (k : Kernel) (θ : Fin h → ℝ) (w : Fin d → Fin h → ℝ) (s nugget : ℝ) (z : Fin m → Fin d → ℝ)
    (hs : s ≠ 0) : inducingCov k θ w s nugget z = s • corrMatrix k θ w (nugget / s) z := by
  rw [corrMatrix_eq, inducingCov, smul_add, smul_smul, mul_div_cancel₀ _ hs, ← computeK_eq]
  congr 1
  funext i j
  rw [computeK, Matrix.smul_apply, Matrix.of_apply, Matrix.of_apply, smul_eq_mul, mul_comm]
  rfl

theorem inducing_posDef (k : Kernel) (θ : Fin h → ℝ) (hθ : ∀ l, 0 ≤ θ l) (w : Fin d → Fin h → ℝ) (s nugget : ℝ)
    (hs : 0 < s) (hn : 0 < nugget) (z : Fin m → Fin d → ℝ) : (inducingCov k θ w s nugget z).PosDef := by
  rw [inducing_eq _ _ _ _ _ _ hs.ne']
  exact (corrMatrix_posDef k θ hθ w _ (by positivity) z).smul hs

/-- The inducing variables never explain more than the prior covariance. -/
theorem nystrom_le (k : Kernel) (θ : Fin h → ℝ) (hθ : ∀ l, 0 ≤ θ l) (w : Fin d → Fin h → ℝ) (s nugget : ℝ)
    (hs : 0 < s) (hn : 0 ≤ nugget) (z : Fin m → Fin d → ℝ) {p : ℕ} (xs : Fin p → Fin d → ℝ)
    (hK : (inducingCov k θ w s nugget z).PosDef) :
    (crossCov k θ w s xs xs - nystrom (inducingCov k θ w s nugget z) (crossCov k θ w s z xs)).PosSemidef := by
  have hR : (corrMatrix k θ w (nugget / s) z).PosDef := by
    rw [inducing_eq _ _ _ _ _ _ hs.ne'] at hK
    have := hK.smul (inv_pos.2 hs)
    rwa [smul_smul, inv_mul_cancel₀ hs.ne', one_smul] at this
  have h := (schur_psd k θ hθ w (nugget / s) (by positivity) z xs hR).smul hs.le
  refine (congrArg Matrix.PosSemidef ?_).mp h
  set R : Matrix (Fin m) (Fin p) ℝ := Matrix.of fun i a => k.value θ w (xs a - z i)
  have e1 : crossCov k θ w s z xs = s • R := by
    rw [← crossCov_transpose, ← computeK_eq]
    funext i j
    rw [Matrix.transpose_apply, computeK, Matrix.smul_apply, Matrix.of_apply, smul_eq_mul, mul_comm]
    rfl
  have e2 : crossCov k θ w s xs xs = s • (Matrix.of fun a b => k.value θ w (xs a - xs b) : Matrix (Fin p) (Fin p) ℝ) := by
    rw [← computeK_eq]
    funext i j
    rw [computeK, Matrix.smul_apply, Matrix.of_apply, Matrix.of_apply, smul_eq_mul, mul_comm]
    rfl
  have hinv : (s • corrMatrix k θ w (nugget / s) z)⁻¹ = s⁻¹ • (corrMatrix k θ w (nugget / s) z)⁻¹ := by
    refine Matrix.inv_eq_right_inv ?_
    rw [Matrix.smul_mul, Matrix.mul_smul, smul_smul, mul_inv_cancel₀ hs.ne', one_smul,
      Matrix.mul_nonsing_inv _ ((Matrix.isUnit_iff_isUnit_det _).1 hR.isUnit)]
  rw [smul_sub, e2, nystrom, e1, inducing_eq _ _ _ _ _ _ hs.ne', hinv]
  congr 1
  simp only [Matrix.transpose_smul, Matrix.smul_mul, Matrix.mul_smul, smul_smul]
  congr 1
  simp [hs.ne']

theorem crossCov_diag (k : Kernel) (θ : Fin h → ℝ) (w : Fin d → Fin h → ℝ) (s : ℝ) {p : ℕ} (xs : Fin p → Fin d → ℝ)
    (i : Fin p) : crossCov k θ w s xs xs i i = s := by
  rw [← computeK_eq, computeK, Matrix.of_apply]
  have : (fun l => xs i l - xs i l) = 0 := by funext l; simp
  rw [this, C40_at_zero, one_mul]

theorem fitcVariances_ge (k : Kernel) (θ : Fin h → ℝ) (hθ : ∀ l, 0 ≤ θ l) (w : Fin d → Fin h → ℝ) (s nugget noise : ℝ)
    (hs : 0 < s) (hn : 0 ≤ nugget) (z : Fin m → Fin d → ℝ) (x : Fin n → Fin d → ℝ)
    (hK : (inducingCov k θ w s nugget z).PosDef) (i : Fin n) :
    noise ≤ fitcVariances (inducingCov k θ w s nugget z) (crossCov k θ w s z x) s noise i := by
  have := (nystrom_le k θ hθ w s nugget hs hn z x hK).diag_nonneg (i := i)
  rw [Matrix.sub_apply, crossCov_diag] at this
  rw [fitcVariances]
  linarith

/-! ## FITC -/

theorem fitWith_fitc (hg : Sparse.fitWith la .fitc kernel θ s noise w x y z nugget = some g) :
    ∃ wd, g = ⟨kernel, θ, s, noise, g.likelihood, w, z, wd, x, y⟩ ∧
      fitc la kernel θ s noise w x y z nugget = some (g.likelihood, wd) := by
  simp only [Sparse.fitWith, Sparse.reducedLikelihood, Option.map_eq_some_iff] at hg
  obtain ⟨⟨lk, wd⟩, h, rfl⟩ := hg
  exact ⟨wd, rfl, h⟩

theorem fitWith_vfe (hg : Sparse.fitWith la .vfe kernel θ s noise w x y z nugget = some g) :
    ∃ wd, g = ⟨kernel, θ, s, noise, g.likelihood, w, z, wd, x, y⟩ ∧
      vfe la kernel θ s noise w x y z nugget = some (g.likelihood, wd) := by
  simp only [Sparse.fitWith, Sparse.reducedLikelihood, Option.map_eq_some_iff] at hg
  obtain ⟨⟨lk, wd⟩, h, rfl⟩ := hg
  exact ⟨wd, rfl, h⟩

theorem nu_eq {U Ui L Li : Matrix (Fin m) (Fin m) ℝ} {nu : Fin n → ℝ} {Kmm : Matrix (Fin m) (Fin m) ℝ}
    {Kmn : Matrix (Fin m) (Fin n) ℝ} {D : Matrix (Fin n) (Fin n) ℝ} (hf : Factors Kmm Kmn D U Ui L Li)
    (h : ∀ i, nu i = s - ∑ a, (Ui * Kmn) a i * (Ui * Kmn) a i + noise) : nu = fitcVariances Kmm Kmn s noise := by
  funext i
  rw [h, fitcVariances, hf.nystrom, Matrix.mul_apply]
  rfl

theorem predict_eq (g : Sparse.Model n m d h) (x' : Fin d → ℝ) :
    g.predict x' = ((crossCov g.kernel g.theta g.w g.sigma2 g.inducings fun _ : Fin 1 => x')ᵀ * g.data.vec) 0 0 := by
  rw [Sparse.Model.predict, computeK_eq, crossCov_transpose]

theorem predictVar_eq (g : Sparse.Model n m d h) (x' : Fin d → ℝ) :
    let km := crossCov g.kernel g.theta g.w g.sigma2 g.inducings fun _ : Fin 1 => x'
    g.predictVar x' = max 1e-15 (g.sigma2 - (kmᵀ * g.data.inv * km) 0 0) + g.noise := by
  intro km
  have e : ∑ a, (g.data.invᵀ * km) a 0 * km a 0 = (kmᵀ * g.data.inv * km) 0 0 := by
    have : kmᵀ * g.data.inv = (g.data.invᵀ * km)ᵀ := by rw [Matrix.transpose_mul, Matrix.transpose_transpose]
    rw [this, Matrix.mul_apply]
    rfl
  simp only [Sparse.Model.predictVar, computeK_eq]
  rw [show crossCov g.kernel g.theta g.w g.sigma2 g.inducings (fun _ : Fin 1 => x') = km from rfl, e]
  split_ifs with hlt
  · rw [max_eq_left hlt.le]
  · rw [max_eq_right (not_lt.1 hlt)]

/-- C50 for FITC: mean and variance are those of the textbook. -/
theorem C50_fitc_predictions (hg : Sparse.fitWith la .fitc kernel θ s noise w x y z nugget = some g)
    (x' : Fin d → ℝ) :
    let Kmm := inducingCov kernel θ w s nugget z
    let Kmn := crossCov kernel θ w s z x
    let Λ := fitcVariances Kmm Kmn s noise
    let km := crossCov kernel θ w s z fun _ : Fin 1 => x'
    g.predict x' = sparseMean Kmm Kmn Λ (column y) km ∧
      g.predictVar x' = max 1e-15 (sparseVar Kmm Kmn Λ km s) + noise := by
  intro Kmm Kmn Λ km
  obtain ⟨wd, hg', hf⟩ := fitWith_fitc hg
  obtain ⟨U, Ui, L, Li, nu, h1, h2, h3, h4, h5, _⟩ := fitc_ok hf
  simp only [computeK_eq] at h1 h3 h4
  have hnu := nu_eq h3 h1
  change nu = Λ at hnu
  subst hnu
  rw [predict_eq, predictVar_eq, hg']
  refine ⟨?_, ?_⟩
  · rw [h4, h3.mean, sparseMean, sparseSigma, diagonal_inv h2]
    simp only [← Matrix.mul_assoc]
    rfl
  · rw [h5, h3.inv_kmm, h3.sigma, sparseVar, sparseSigma, diagonal_inv h2]
    rfl

/-- The fit succeeds when the covariance of the inducing variables is positive definite. -/
theorem fitc_fits_of (la : LinAlg) (kernel : Kernel) (θ : Fin h → ℝ) (hθ : ∀ l, 0 ≤ θ l) (w : Fin d → Fin h → ℝ)
    (s noise nugget : ℝ) (hs : 0 < s) (hnoise : 0 < noise) (hn : 0 ≤ nugget) (x : Fin n → Fin d → ℝ) (y : Fin n → ℝ)
    (z : Fin m → Fin d → ℝ) (hK : (inducingCov kernel θ w s nugget z).PosDef) :
    ∃ g, Sparse.fitWith la .fitc kernel θ s noise w x y z nugget = some g := by
  obtain ⟨U, hU⟩ := la.chol_total _ hK
  have hUs := la.chol_spec _ _ (by have := computeK_symm kernel z w θ s nugget; rwa [computeK_eq] at this) hU
  obtain ⟨Ui, hUi⟩ := la.solve_total .lower U (1 : Matrix (Fin m) (Fin m) ℝ) fun i => (hUs.2.2 i).ne'
  have u4 := (la.solve_spec _ _ _ _ hUi).2
  rw [tri_lower hUs.2.1] at u4
  set Kmn := crossCov kernel θ w s z x with hKmn
  set V := Ui * Kmn with hV
  have hny : nystrom (inducingCov kernel θ w s nugget z) Kmn = Vᵀ * V := by
    rw [nystrom, ← hUs.1, ← inv_of_factor u4, hV, Matrix.transpose_mul]
    simp only [Matrix.mul_assoc]
  have hnu : ∀ i, 0 < s - ∑ a, V a i * V a i + noise := by
    intro i
    have := fitcVariances_ge kernel θ hθ w s nugget noise hs hn z x hK i
    rw [fitcVariances, ← hKmn, hny, Matrix.mul_apply] at this
    exact lt_of_lt_of_le hnoise this
  have hA : (1 + (Matrix.of fun i j => V i j * (1 / (s - ∑ a, V a j * V a j + noise)) : Matrix (Fin m) (Fin n) ℝ) * Vᵀ).PosDef := by
    refine Matrix.PosDef.one.add_posSemidef ?_
    have hD : (Matrix.diagonal fun i => 1 / (s - ∑ a, V a i * V a i + noise)).PosSemidef :=
      Matrix.PosSemidef.diagonal fun i => (one_div_pos.2 (hnu i)).le
    have := hD.mul_mul_conjTranspose_same V
    rw [Matrix.conjTranspose_eq_transpose_of_trivial] at this
    refine (congrArg Matrix.PosSemidef ?_).mp this
    congr 1
    funext i j
    rw [Matrix.mul_diagonal, Matrix.of_apply]
  obtain ⟨L, hL⟩ := la.chol_total _ hA
  have hLs := la.chol_spec _ _ (by
    have := hA.isHermitian.eq; rwa [Matrix.conjTranspose_eq_transpose_of_trivial] at this) hL
  obtain ⟨Li, hLi⟩ := la.solve_total .lower L (1 : Matrix (Fin m) (Fin m) ℝ) fun i => (hLs.2.2 i).ne'
  have hne : ¬ ∃ i, s - ∑ a, V a i * V a i + noise = 0 := fun ⟨i, hi⟩ => (hnu i).ne' hi
  simp only [Sparse.fitWith, Sparse.reducedLikelihood, Option.map_eq_some_iff, fitc, computeK_eq, Option.bind_eq_bind]
  change la.chol (crossCov kernel θ w s z z + nugget • 1) = some U at hU
  rw [hU]
  simp only [Option.bind_some, hUi]
  rw [if_neg hne, hL]
  simp only [Option.bind_some, hLi]
  exact ⟨_, _, rfl, rfl⟩

/-- C50 for FITC: the fit succeeds. -/
theorem C50_fitc_fits (la : LinAlg) (kernel : Kernel) (θ : Fin h → ℝ) (hθ : ∀ l, 0 ≤ θ l) (w : Fin d → Fin h → ℝ)
    (s noise nugget : ℝ) (hs : 0 < s) (hnoise : 0 < noise) (hn : 0 < nugget) (x : Fin n → Fin d → ℝ) (y : Fin n → ℝ)
    (z : Fin m → Fin d → ℝ) : ∃ g, Sparse.fitWith la .fitc kernel θ s noise w x y z nugget = some g :=
  fitc_fits_of la kernel θ hθ w s noise nugget hs hnoise hn.le x y z (inducing_posDef kernel θ hθ w s nugget hs hn z)

/-- Case of `C50_fitc_fits` and of `C50_fitc_predictions`. -/
example : ∃ g, Sparse.fitWith Gp.exact .fitc .matern52 (fun _ : Fin 2 => (1 : ℝ)) 2 (1 / 100)
    (fun (a b : Fin 2) => if a = b then 1 else 0) (fun (i : Fin 5) _ => (i.val : ℝ)) (fun i => (i.val : ℝ) ^ 2)
    (fun (i : Fin 3) _ => (i.val : ℝ)) 1e-9 = some g :=
  C50_fitc_fits _ _ _ (fun _ => zero_le_one) _ _ _ _ (by norm_num) (by norm_num) (by norm_num) _ _ _

/-! ## VFE -/

/-- C50 for VFE, part: the mean is the one of the textbook; the variance is not, the sign of a term is wrong. -/
theorem C50_vfe_predictions_partial (hg : Sparse.fitWith la .vfe kernel θ s noise w x y z nugget = some g)
    (x' : Fin d → ℝ) :
    let Kmm := inducingCov kernel θ w s nugget z
    let Kmn := crossCov kernel θ w s z x
    let Λ : Fin n → ℝ := fun _ => max noise nugget
    let km := crossCov kernel θ w s z fun _ : Fin 1 => x'
    g.predict x' = sparseMean Kmm Kmn Λ (column y) km ∧
      g.predictVar x' = max 1e-15 (s - (kmᵀ * (Kmm⁻¹ + sparseSigma Kmm Kmn Λ) * km) 0 0) + noise := by
  intro Kmm Kmn Λ km
  obtain ⟨wd, hg', hf⟩ := fitWith_vfe hg
  obtain ⟨h2, U, Ui, L, Li, h3, h4, h5, _⟩ := vfe_ok hf
  simp only [computeK_eq] at h3 h4
  have hd : (Matrix.diagonal Λ)⁻¹ = Matrix.diagonal fun _ => 1 / max noise nugget := diagonal_inv fun _ => h2
  rw [predict_eq, predictVar_eq, hg']
  refine ⟨?_, ?_⟩
  · rw [h4, h3.mean, sparseMean, sparseSigma, hd]
    simp only [← Matrix.mul_assoc]
    rfl
  · rw [h5, h3.inv_kmm, h3.sigma, sparseSigma, hd]
    rfl

/-- The fit succeeds when the covariance of the inducing variables is positive definite. -/
theorem vfe_fits_of (la : LinAlg) (kernel : Kernel) (θ : Fin h → ℝ) (w : Fin d → Fin h → ℝ)
    (s noise nugget : ℝ) (hmax : 0 < max noise nugget) (x : Fin n → Fin d → ℝ) (y : Fin n → ℝ)
    (z : Fin m → Fin d → ℝ) (hK : (inducingCov kernel θ w s nugget z).PosDef) :
    ∃ g, Sparse.fitWith la .vfe kernel θ s noise w x y z nugget = some g := by
  obtain ⟨U, hU⟩ := la.chol_total _ hK
  have hUs := la.chol_spec _ _ (by have := computeK_symm kernel z w θ s nugget; rwa [computeK_eq] at this) hU
  obtain ⟨Ui, hUi⟩ := la.solve_total .lower U (1 : Matrix (Fin m) (Fin m) ℝ) fun i => (hUs.2.2 i).ne'
  set V := Ui * crossCov kernel θ w s z x with hV
  have hA : (1 + (1 / max noise nugget) • (V * Vᵀ)).PosDef := by
    refine Matrix.PosDef.one.add_posSemidef ?_
    have := Matrix.posSemidef_self_mul_conjTranspose V
    rw [Matrix.conjTranspose_eq_transpose_of_trivial] at this
    exact this.smul (one_div_pos.2 hmax).le
  obtain ⟨L, hL⟩ := la.chol_total _ hA
  have hLs := la.chol_spec _ _ (by
    have := hA.isHermitian.eq; rwa [Matrix.conjTranspose_eq_transpose_of_trivial] at this) hL
  obtain ⟨Li, hLi⟩ := la.solve_total .lower L (1 : Matrix (Fin m) (Fin m) ℝ) fun i => (hLs.2.2 i).ne'
  simp only [Sparse.fitWith, Sparse.reducedLikelihood, Option.map_eq_some_iff, vfe, computeK_eq, Option.bind_eq_bind]
  change la.chol (crossCov kernel θ w s z z + nugget • 1) = some U at hU
  rw [hU]
  simp only [Option.bind_some, hUi]
  rw [if_neg hmax.ne', hL]
  simp only [Option.bind_some, hLi]
  exact ⟨_, _, rfl, rfl⟩

/-- C50 for VFE: the fit succeeds. -/
theorem C50_vfe_fits (la : LinAlg) (kernel : Kernel) (θ : Fin h → ℝ) (hθ : ∀ l, 0 ≤ θ l) (w : Fin d → Fin h → ℝ)
    (s noise nugget : ℝ) (hs : 0 < s) (hn : 0 < nugget) (x : Fin n → Fin d → ℝ) (y : Fin n → ℝ)
    (z : Fin m → Fin d → ℝ) : ∃ g, Sparse.fitWith la .vfe kernel θ s noise w x y z nugget = some g :=
  vfe_fits_of la kernel θ w s noise nugget (lt_max_of_lt_right hn) x y z (inducing_posDef kernel θ hθ w s nugget hs hn z)

theorem fitc_posDef (hg : Sparse.fitWith la .fitc kernel θ s noise w x y z nugget = some g) :
    (inducingCov kernel θ w s nugget z).PosDef := by
  obtain ⟨wd, hg', hf⟩ := fitWith_fitc hg
  obtain ⟨U, Ui, L, Li, nu, h1, h2, h3, h4, h5, _⟩ := fitc_ok hf
  simp only [computeK_eq] at h3
  exact h3.posDef_kmm

theorem vfe_posDef (hg : Sparse.fitWith la .vfe kernel θ s noise w x y z nugget = some g) :
    max noise nugget ≠ 0 ∧ (inducingCov kernel θ w s nugget z).PosDef ∧
      (sparseSigma (inducingCov kernel θ w s nugget z) (crossCov kernel θ w s z x) fun _ => max noise nugget).PosDef := by
  obtain ⟨wd, hg', hf⟩ := fitWith_vfe hg
  obtain ⟨h2, U, Ui, L, Li, h3, h4, h5, _⟩ := vfe_ok hf
  simp only [computeK_eq] at h3
  refine ⟨h2, h3.posDef_kmm, ?_⟩
  rw [sparseSigma, diagonal_inv fun _ => h2]
  exact h3.posDef_sigma

theorem quad_nonneg {M : Matrix (Fin m) (Fin m) ℝ} (hM : M.PosSemidef) (v : Matrix (Fin m) (Fin 1) ℝ) :
    0 ≤ (vᵀ * M * v) 0 0 := by
  have := hM.conjTranspose_mul_mul_same v
  rw [Matrix.conjTranspose_eq_transpose_of_trivial] at this
  exact this.diag_nonneg

theorem quad_pos {M : Matrix (Fin m) (Fin m) ℝ} (hM : M.PosDef) (v : Matrix (Fin m) (Fin 1) ℝ) (hv : ∃ i, v i 0 ≠ 0) :
    0 < (vᵀ * M * v) 0 0 := by
  have hne : (fun i => v i 0) ≠ 0 := by
    obtain ⟨i, hi⟩ := hv
    exact fun h => hi (congrFun h i)
  have := hM.dotProduct_mulVec_pos hne
  rw [Matrix.mul_assoc]
  simp only [Matrix.mul_apply, Matrix.transpose_apply]
  simpa [dotProduct, Matrix.mulVec] using this

/-- C50: the variance of VFE is strictly below the one of the textbook wherever the latter is above the threshold, as
soon as there is an inducing point. -/
theorem C50_refuted_vfe_variance (hg : Sparse.fitWith la .vfe kernel θ s noise w x y z nugget = some g)
    (hθ : ∀ l, 0 ≤ θ l) (hs : 0 < s) (hm : 0 < m) (x' : Fin d → ℝ)
    (hx : 1e-15 < sparseVar (inducingCov kernel θ w s nugget z) (crossCov kernel θ w s z x) (fun _ => max noise nugget)
      (crossCov kernel θ w s z fun _ : Fin 1 => x') s) :
    g.predictVar x' < sparseVar (inducingCov kernel θ w s nugget z) (crossCov kernel θ w s z x)
      (fun _ => max noise nugget) (crossCov kernel θ w s z fun _ : Fin 1 => x') s + noise := by
  obtain ⟨h1, h2, h3⟩ := vfe_posDef hg
  rw [(C50_vfe_predictions_partial hg x').2]
  set km := crossCov kernel θ w s z fun _ : Fin 1 => x'
  have hq := quad_pos h3 km ⟨⟨0, hm⟩, by
    have := (C40_range kernel θ w (fun l => z ⟨0, hm⟩ l - x' l) hθ).1
    rw [C40_documented] at this
    exact (mul_pos hs this).ne'⟩
  refine add_lt_add_left (max_lt hx ?_) _
  rw [sparseVar, Matrix.mul_add, Matrix.add_mul, Matrix.mul_sub, Matrix.sub_mul, Matrix.add_apply, Matrix.sub_apply]
  linarith

/-- C50: both methods give variances between the noise (plus the threshold) and the prior variance plus noise. -/
theorem C50_variance_bounds (method : Method)
    (hg : Sparse.fitWith la method kernel θ s noise w x y z nugget = some g) (hθ : ∀ l, 0 ≤ θ l) (hs : 0 < s)
    (hn : 0 ≤ nugget) (hnoise : 0 ≤ noise) (x' : Fin d → ℝ) :
    noise + 1e-15 ≤ g.predictVar x' ∧ g.predictVar x' ≤ max s 1e-15 + noise := by
  cases method with
  | fitc =>
    obtain ⟨wd, hg', hf⟩ := fitWith_fitc hg
    obtain ⟨U, Ui, L, Li, nu, h1, h2, h3, h4, h5, _⟩ := fitc_ok hf
    simp only [computeK_eq] at h1 h3
    change Factors (inducingCov kernel θ w s nugget z) _ _ _ _ _ _ at h3
    have hnu := nu_eq h3 h1
    have hD : (Matrix.diagonal fun i => 1 / nu i).PosSemidef := by
      refine Matrix.PosSemidef.diagonal fun i => one_div_nonneg.2 (hnoise.trans ?_)
      rw [hnu]
      exact fitcVariances_ge kernel θ hθ w s nugget noise hs hn z x h3.posDef_kmm i
    rw [(C50_fitc_predictions hg x').2]
    have hq := quad_nonneg (h3.reduction hD) (crossCov kernel θ w s z fun _ : Fin 1 => x')
    subst hnu
    rw [sparseVar, sparseSigma, diagonal_inv h2]
    refine ⟨by rw [add_comm]; exact add_le_add_left (le_max_left _ _) _, add_le_add_left (max_le (le_max_right _ _) ?_) _⟩
    refine le_trans ?_ (le_max_left _ _)
    linarith
  | vfe =>
    obtain ⟨h1, h2, h3⟩ := vfe_posDef hg
    rw [(C50_vfe_predictions_partial hg x').2]
    have hq := quad_nonneg (h2.inv.posSemidef.add h3.posSemidef) (crossCov kernel θ w s z fun _ : Fin 1 => x')
    refine ⟨by rw [add_comm]; exact add_le_add_left (le_max_left _ _) _, add_le_add_left (max_le (le_max_right _ _) ?_) _⟩
    refine le_trans ?_ (le_max_left _ _)
    linarith

/-- Case of `C50_vfe_fits`, `C50_refuted_vfe_variance` and `C50_variance_bounds`: one observation at the only inducing
point, where the textbook variance is a half (almost) and the prior variance is one. -/
theorem C50_refuted_vfe_instance : ∃ g : Sparse.Model 1 1 1 1,
    Sparse.fitWith Gp.exact .vfe .squaredExponential (fun _ : Fin 1 => (1 : ℝ)) 1 1 (fun _ _ => 1) (fun _ _ => 0)
      (fun _ => 3) (fun _ _ => 0) 1 = some g ∧ g.predictVar (fun _ => 0) = 1 / 6 + 1 ∧
      sparseVar (inducingCov .squaredExponential (fun _ : Fin 1 => (1 : ℝ)) (fun (_ : Fin 1) (_ : Fin 1) => 1) 1 1
        (fun (_ : Fin 1) (_ : Fin 1) => 0)) (crossCov .squaredExponential (fun _ : Fin 1 => (1 : ℝ)) (fun _ _ => 1) 1
        (fun (_ : Fin 1) (_ : Fin 1) => 0) (fun (_ : Fin 1) (_ : Fin 1) => 0)) (fun _ => max 1 1)
        (crossCov .squaredExponential (fun _ : Fin 1 => (1 : ℝ)) (fun _ _ => 1) 1 (fun (_ : Fin 1) (_ : Fin 1) => 0)
          fun (_ : Fin 1) (_ : Fin 1) => 0) 1 = 5 / 6 := by
  obtain ⟨g, hg⟩ := C50_vfe_fits Gp.exact .squaredExponential (fun _ : Fin 1 => (1 : ℝ)) (fun _ => zero_le_one)
    (fun (_ : Fin 1) (_ : Fin 1) => 1) 1 1 1 one_pos one_pos (fun (_ : Fin 1) _ => 0) (fun _ => 3)
    (fun (_ : Fin 1) _ => 0)
  refine ⟨g, hg, ?_, ?_⟩
  · rw [(C50_vfe_predictions_partial hg _).2]
    simp [sparseSigma, inducingCov, crossCov, corr, corr1, Matrix.inv_subsingleton, Matrix.mul_apply]
    norm_num
  · simp [sparseVar, sparseSigma, inducingCov, crossCov, corr, corr1, Matrix.inv_subsingleton, Matrix.mul_apply]
    norm_num

/-! ## C92: likelihood -/

/-- C92 for FITC: the likelihood is the log-density of the outputs under the covariance of the method. -/
theorem C92_fitc_likelihood (hg : Sparse.fitWith la .fitc kernel θ s noise w x y z nugget = some g)
    (hθ : ∀ l, 0 ≤ θ l) (hs : 0 < s) (hn : 0 ≤ nugget) (hnoise : 0 < noise) :
    let Kmm := inducingCov kernel θ w s nugget z
    let Kmn := crossCov kernel θ w s z x
    g.likelihood = some (logDensity (nystrom Kmm Kmn + Matrix.diagonal (fitcVariances Kmm Kmn s noise)) (column y)) := by
  intro Kmm Kmn
  obtain ⟨wd, hg', hf⟩ := fitWith_fitc hg
  obtain ⟨U, Ui, L, Li, nu, h1, h2, h3, h4, h5, h6⟩ := fitc_ok hf
  simp only [computeK_eq] at h1 h3 h6
  change Factors Kmm Kmn _ _ _ _ _ at h3
  have hnu := nu_eq h3 h1
  have hpos : ∀ i, 0 < nu i := fun i => by
    rw [hnu]
    exact lt_of_lt_of_le hnoise (fitcVariances_ge kernel θ hθ w s nugget noise hs hn z x h3.posDef_kmm i)
  rw [h6, sumLn, if_pos hpos, sumLn, if_pos h3.diag, Option.bind_some, Option.map_some, Option.some.injEq]
  rw [← hnu]
  set D : Matrix (Fin n) (Fin n) ℝ := Matrix.diagonal fun i => 1 / nu i with hD
  have hDu : IsUnit D := by
    rw [Matrix.isUnit_iff_isUnit_det, Matrix.det_diagonal, isUnit_iff_ne_zero]
    exact Finset.prod_ne_zero_iff.2 fun i _ => (one_div_pos.2 (hpos i)).ne'
  have hDi : Matrix.diagonal nu = D⁻¹ := by
    rw [hD, diagonal_inv fun i => (one_div_pos.2 (hpos i)).ne']
    simp
  have hdet : (nystrom Kmm Kmn + Matrix.diagonal nu).det = (∏ i, nu i) * (∏ i, L i i) ^ 2 := by
    rw [hDi, h3.det_s hDu, ← hDi, Matrix.det_diagonal]
  have hlog : Real.log (nystrom Kmm Kmn + Matrix.diagonal nu).det = ∑ i, Real.log (nu i) + 2 * ∑ i, Real.log (L i i) := by
    have p1 : ∏ i, nu i ≠ 0 := Finset.prod_ne_zero_iff.2 fun i _ => (hpos i).ne'
    have p2 : ∏ i, L i i ≠ 0 := Finset.prod_ne_zero_iff.2 fun i _ => (h3.diag i).ne'
    rw [hdet, Real.log_mul p1 (pow_ne_zero _ p2), Real.log_pow, Real.log_prod fun i _ => (hpos i).ne',
      Real.log_prod fun i _ => (h3.diag i).ne']
    norm_num
  have hb : (Matrix.of fun i (_ : Fin 1) => y i * (1 / nu i) : Matrix (Fin n) (Fin 1) ℝ) = D * column y := by
    funext i j
    rw [hD, Matrix.diagonal_mul, column, Matrix.of_apply, Matrix.of_apply, mul_comm]
  have hquad : ((column y)ᵀ * (nystrom Kmm Kmn + Matrix.diagonal nu)⁻¹ * column y) 0 0 =
      ∑ i, y i * (1 / nu i) * y i - ∑ i, (Li * (Ui * Kmn) * (D * column y)) i 0 * (Li * (Ui * Kmn) * (D * column y)) i 0 := by
    rw [hDi, h3.inv_s hDu, Matrix.mul_sub, Matrix.sub_mul, Matrix.sub_apply]
    congr 1
    · rw [Matrix.mul_assoc, ← hb, Matrix.mul_apply]
      refine Finset.sum_congr rfl fun i _ => ?_
      rw [Matrix.transpose_apply, column, Matrix.of_apply, Matrix.of_apply]
      ring
    · have hDt : Dᵀ = D := by rw [hD, Matrix.diagonal_transpose]
      have : (column y)ᵀ * (D * (Ui * Kmn)ᵀ * (Liᵀ * Li) * (Ui * Kmn) * D) * column y =
          (Li * (Ui * Kmn) * (D * column y))ᵀ * (Li * (Ui * Kmn) * (D * column y)) := by
        simp only [Matrix.transpose_mul, hDt, Matrix.mul_assoc]
      rw [this, Matrix.mul_apply]
      rfl
  rw [logDensity, hlog, hquad]
  simp only [hb]
  ring

/-- C92 for VFE: the likelihood is the variational lower bound. -/
theorem C92_vfe_likelihood (hg : Sparse.fitWith la .vfe kernel θ s noise w x y z nugget = some g)
    (hpos : 0 < max noise nugget) :
    let Kmm := inducingCov kernel θ w s nugget z
    let Kmn := crossCov kernel θ w s z x
    g.likelihood = some (logDensity (nystrom Kmm Kmn + max noise nugget • 1) (column y) -
      1 / 2 * ((crossCov kernel θ w s x x).trace - (nystrom Kmm Kmn).trace) / max noise nugget) := by
  intro Kmm Kmn
  obtain ⟨wd, hg', hf⟩ := fitWith_vfe hg
  obtain ⟨h2, U, Ui, L, Li, h3, h4, h5, h6⟩ := vfe_ok hf
  simp only [computeK_eq] at h3 h6
  change Factors Kmm Kmn _ _ _ _ _ at h3
  set nu := max noise nugget with hnu
  rw [h6, ln, if_pos (one_div_pos.2 hpos), sumLn, if_pos h3.diag, Option.bind_some, Option.map_some, Option.some.injEq]
  set D : Matrix (Fin n) (Fin n) ℝ := Matrix.diagonal fun _ => 1 / nu with hD
  have hDu : IsUnit D := by
    rw [Matrix.isUnit_iff_isUnit_det, Matrix.det_diagonal, isUnit_iff_ne_zero]
    exact Finset.prod_ne_zero_iff.2 fun i _ => (one_div_pos.2 hpos).ne'
  have hDi : nu • (1 : Matrix (Fin n) (Fin n) ℝ) = D⁻¹ := by
    rw [hD, diagonal_inv fun i => (one_div_pos.2 hpos).ne', Matrix.smul_one_eq_diagonal]
    simp
  have hdet : (nystrom Kmm Kmn + nu • 1).det = nu ^ n * (∏ i, L i i) ^ 2 := by
    rw [hDi, h3.det_s hDu, ← hDi, Matrix.smul_one_eq_diagonal, Matrix.det_diagonal, Finset.prod_const, Finset.card_univ,
      Fintype.card_fin]
  have hlog : Real.log (nystrom Kmm Kmn + nu • 1).det = n * Real.log nu + 2 * ∑ i, Real.log (L i i) := by
    have p2 : ∏ i, L i i ≠ 0 := Finset.prod_ne_zero_iff.2 fun i _ => (h3.diag i).ne'
    rw [hdet, Real.log_mul (pow_ne_zero _ hpos.ne') (pow_ne_zero _ p2), Real.log_pow, Real.log_pow,
      Real.log_prod fun i _ => (h3.diag i).ne']
    norm_num
  have hDs : ∀ {q : ℕ} (M : Matrix (Fin n) (Fin q) ℝ), D * M = (1 / nu) • M := fun M => by
    rw [hD, ← Matrix.smul_one_eq_diagonal, Matrix.smul_mul, Matrix.one_mul]
  have hb : (1 / nu) • (Li * (Ui * Kmn) * Matrix.of fun (i : Fin n) (_ : Fin 1) => y i) =
      Li * (Ui * Kmn) * (D * column y) := by
    rw [hDs, Matrix.mul_smul]
    rfl
  have hquad : ((column y)ᵀ * (nystrom Kmm Kmn + nu • 1)⁻¹ * column y) 0 0 =
      1 / nu * ∑ i, y i * y i - ((Li * (Ui * Kmn) * (D * column y))ᵀ * (Li * (Ui * Kmn) * (D * column y))) 0 0 := by
    rw [hDi, h3.inv_s hDu, Matrix.mul_sub, Matrix.sub_mul, Matrix.sub_apply]
    congr 1
    · rw [Matrix.mul_assoc, hDs, Matrix.mul_smul, Matrix.smul_apply, Matrix.mul_apply, smul_eq_mul]
      rfl
    · have hDt : Dᵀ = D := by rw [hD, Matrix.diagonal_transpose]
      have : (column y)ᵀ * (D * (Ui * Kmn)ᵀ * (Liᵀ * Li) * (Ui * Kmn) * D) * column y =
          (Li * (Ui * Kmn) * (D * column y))ᵀ * (Li * (Ui * Kmn) * (D * column y)) := by
        simp only [Matrix.transpose_mul, hDt, Matrix.mul_assoc]
      rw [this]
  have htr : (nystrom Kmm Kmn).trace = ∑ i, ((Ui * Kmn) * (Ui * Kmn)ᵀ) i i := by
    rw [h3.nystrom, Matrix.trace_mul_comm]
    rfl
  have htr2 : (crossCov kernel θ w s x x).trace = n * s := by
    rw [Matrix.trace]
    simp only [Matrix.diag_apply, crossCov_diag, Finset.sum_const, Finset.card_univ, Fintype.card_fin, nsmul_eq_mul]
  have hln : Real.log (1 / nu) = -Real.log nu := by rw [one_div, Real.log_inv]
  rw [logDensity, hlog, hquad, htr, htr2, hb, hln]
  simp only [Matrix.smul_apply, smul_eq_mul, ← Finset.mul_sum]
  field_simp
  ring

/-! ## C51 -/

/-- C51, part: the number of inputs is right, and the number of outputs is if and only if there is one observation. -/
theorem C51_dims_partial (g : Sparse.Model n m d h) : g.dims.1 = d ∧ (g.dims = (d, 1) ↔ n = 1) := by
  simp [Sparse.Model.dims]

/-- C51: with several observations the answer is not `(d, 1)`. -/
theorem C51_refuted (hn : n ≠ 1) (g : Sparse.Model n m d h) : g.dims ≠ (d, 1) := fun h =>
  hn ((C51_dims_partial g).2.1 h)

/-! ## C93: trajectories -/

/-- C93, part: trajectories are drawn with a valid covariance, the one of the prior. -/
theorem C93_prior_covariance_partial (hg : Sparse.fitWith la method kernel θ s noise w x y z nugget = some g)
    (hθ : ∀ l, 0 ≤ θ l) (hs : 0 ≤ s) {t : ℕ} (xs : Fin t → Fin d → ℝ) :
    g.sampleCovariance xs = crossCov kernel θ w s xs xs ∧ (g.sampleCovariance xs).PosSemidef ∧
      ∀ a, g.sampleCovariance xs a a = s := by
  simp only [Sparse.fitWith, Option.map_eq_some_iff] at hg
  obtain ⟨r, _, rfl⟩ := hg
  simp only [Sparse.Model.sampleCovariance, computeK_eq, crossCov_diag, implies_true, and_true, true_and]
  have := (psd_kernel kernel θ hθ w xs).smul hs
  refine (congrArg Matrix.PosSemidef ?_).mp this
  rw [← computeK_eq]
  funext i j
  rw [computeK, Matrix.smul_apply, Matrix.of_apply, Matrix.of_apply, smul_eq_mul, mul_comm]
  rfl

/-- C93: whatever the data, trajectories of a VFE model have at every point a variance strictly larger than the
predicted variance (noise excluded). -/
theorem C93_refuted_vfe (hg : Sparse.fitWith la .vfe kernel θ s noise w x y z nugget = some g) (hθ : ∀ l, 0 ≤ θ l)
    (hs : 1e-15 < s) (hm : 0 < m) {t : ℕ} (xs : Fin t → Fin d → ℝ) (a : Fin t) :
    g.predictVar (xs a) - noise < g.sampleCovariance xs a a := by
  have hs0 : 0 < s := lt_trans (by norm_num) hs
  rw [(C93_prior_covariance_partial hg hθ hs0.le xs).2.2, (C50_vfe_predictions_partial hg _).2, add_sub_cancel_right]
  obtain ⟨h1, h2, h3⟩ := vfe_posDef hg
  have hq := quad_pos (h2.inv.add_posSemidef h3.posSemidef) (crossCov kernel θ w s z fun _ : Fin 1 => xs a) ⟨⟨0, hm⟩, by
    have := (C40_range kernel θ w (fun l => z ⟨0, hm⟩ l - xs a l) hθ).1
    rw [C40_documented] at this
    exact (mul_pos hs0 this).ne'⟩
  refine max_lt hs ?_
  linarith

/-- C93: the same for FITC with one inducing point and at least one observation. -/
theorem C93_refuted_fitc {z : Fin 1 → Fin d → ℝ} {g : Sparse.Model n 1 d h}
    (hg : Sparse.fitWith la .fitc kernel θ s noise w x y z nugget = some g) (hθ : ∀ l, 0 ≤ θ l)
    (hs : 1e-15 < s) (hn : 0 ≤ nugget) (hnoise : 0 < noise) (h0 : 0 < n) {t : ℕ} (xs : Fin t → Fin d → ℝ) (a : Fin t) :
    g.predictVar (xs a) - noise < g.sampleCovariance xs a a := by
  have hs0 : 0 < s := lt_trans (by norm_num) hs
  rw [(C93_prior_covariance_partial hg hθ hs0.le xs).2.2, (C50_fitc_predictions hg _).2, add_sub_cancel_right]
  refine max_lt hs ?_
  have hK := fitc_posDef hg
  have hker : ∀ v, 0 < s * corr kernel θ w v := fun v => by
    have := (C40_range kernel θ w v hθ).1
    rw [C40_documented] at this
    exact mul_pos hs0 this
  set Λ := fitcVariances (inducingCov kernel θ w s nugget z) (crossCov kernel θ w s z x) s noise
  have hΛ : ∀ i, 0 < Λ i := fun i =>
    lt_of_lt_of_le hnoise (fitcVariances_ge kernel θ hθ w s nugget noise hs0 hn z x hK i)
  have h1 : 0 < inducingCov kernel θ w s nugget z 0 0 := hK.diag_pos
  have h2 : 0 < (crossCov kernel θ w s z x * (Matrix.diagonal Λ)⁻¹ * (crossCov kernel θ w s z x)ᵀ) 0 0 := by
    rw [diagonal_inv fun i => (hΛ i).ne', Matrix.mul_apply]
    refine Finset.sum_pos (fun i _ => ?_) ⟨⟨0, h0⟩, Finset.mem_univ _⟩
    rw [Matrix.mul_diagonal, Matrix.transpose_apply]
    exact mul_pos (mul_pos (hker _) (one_div_pos.2 (hΛ i))) (hker _)
  have h3 : 0 < crossCov kernel θ w s z (fun _ : Fin 1 => xs a) 0 0 := hker _
  rw [sparseVar, sparseSigma, Matrix.inv_subsingleton, Matrix.inv_subsingleton]
  simp only [Matrix.mul_apply, Finset.univ_unique, Fin.default_eq_zero, Finset.sum_singleton, Matrix.transpose_apply,
    Matrix.sub_apply, Matrix.diagonal_apply_eq, Matrix.add_apply, Ring.inverse_eq_inv'] at h2 ⊢
  set a' := inducingCov kernel θ w s nugget z 0 0
  have h4 : (a' + ∑ i, (∑ j, crossCov kernel θ w s z x 0 j * (Matrix.diagonal Λ)⁻¹ j i) * crossCov kernel θ w s z x 0 i)⁻¹ < a'⁻¹ :=
    inv_strictAnti₀ h1 (by linarith)
  have := mul_pos (mul_pos h3 (sub_pos.2 h4)) h3
  linarith

end Verif.Props
