import Verif.Props.GpFar
import Verif.Props.Sparse

/-!
# C114, C115: invariances of sparse Gaussian processes, inducing points at the training points
-/

set_option autoImplicit false
set_option linter.unusedSectionVars false

namespace Verif.Props

open Matrix Kernels GpUtils Spec Gp Sparse Filter Topology

variable {n m d h : ℕ} {la la2 : LinAlg} {kernel : Kernel} {θ θ2 : Fin h → ℝ} {w w2 : Fin d → Fin h → ℝ}
  {s noise nugget : ℝ} {x : Fin n → Fin d → ℝ} {y : Fin n → ℝ} {z : Fin m → Fin d → ℝ} {method : Method}
  {g g2 : Sparse.Model n m d h}

/-! ## Predictions of both methods -/

/-- Variances of the observations given the inducing variables, for both methods. -/
noncomputable def obsVar (method : Method) (Kmm : Matrix (Fin m) (Fin m) ℝ) (Kmn : Matrix (Fin m) (Fin n) ℝ)
    (s noise nugget : ℝ) : Fin n → ℝ :=
  match method with
  | .fitc => fitcVariances Kmm Kmn s noise
  | .vfe => fun _ => max noise nugget

/-- Variance before the threshold, for both methods. -/
noncomputable def methodVar (method : Method) (Kmm : Matrix (Fin m) (Fin m) ℝ) (Kmn : Matrix (Fin m) (Fin n) ℝ)
    (Λ : Fin n → ℝ) (km : Matrix (Fin m) (Fin 1) ℝ) (s : ℝ) : ℝ :=
  match method with
  | .fitc => sparseVar Kmm Kmn Λ km s
  | .vfe => s - (kmᵀ * (Kmm⁻¹ + sparseSigma Kmm Kmn Λ) * km) 0 0

/-- Likelihood of both methods. -/
noncomputable def sparseLik (method : Method) (Kmm : Matrix (Fin m) (Fin m) ℝ) (Kmn : Matrix (Fin m) (Fin n) ℝ)
    (y : Matrix (Fin n) (Fin 1) ℝ) (s noise nugget : ℝ) : ℝ :=
  match method with
  | .fitc => logDensity (nystrom Kmm Kmn + Matrix.diagonal (fitcVariances Kmm Kmn s noise)) y
  | .vfe => logDensity (nystrom Kmm Kmn + max noise nugget • 1) y -
      1 / 2 * (n * s - (nystrom Kmm Kmn).trace) / max noise nugget

theorem sparse_closed (hg : Sparse.fitWith la method kernel θ s noise w x y z nugget = some g) (x' : Fin d → ℝ) :
    let Kmm := inducingCov kernel θ w s nugget z
    let Kmn := crossCov kernel θ w s z x
    let Λ := obsVar method Kmm Kmn s noise nugget
    let km := crossCov kernel θ w s z fun _ : Fin 1 => x'
    g.predict x' = sparseMean Kmm Kmn Λ (column y) km ∧
      g.predictVar x' = max 1e-15 (methodVar method Kmm Kmn Λ km s) + noise := by
  cases method with
  | fitc => exact C50_fitc_predictions hg x'
  | vfe => exact C50_vfe_predictions_partial hg x'

theorem crossCov_trace (k : Kernel) (θ : Fin h → ℝ) (w : Fin d → Fin h → ℝ) (s : ℝ) (x : Fin n → Fin d → ℝ) :
    (crossCov k θ w s x x).trace = n * s := by
  simp [Matrix.trace, crossCov_diag]

/-- Conditions under which likelihoods are numbers. -/
def LikOk (method : Method) (θ : Fin h → ℝ) (s noise nugget : ℝ) : Prop :=
  match method with
  | .fitc => (∀ l, 0 ≤ θ l) ∧ 0 < s ∧ 0 ≤ nugget ∧ 0 < noise
  | .vfe => 0 < max noise nugget

theorem sparse_likelihood (hg : Sparse.fitWith la method kernel θ s noise w x y z nugget = some g)
    (h : LikOk method θ s noise nugget) :
    g.likelihood = some (sparseLik method (inducingCov kernel θ w s nugget z) (crossCov kernel θ w s z x) (column y)
      s noise nugget) := by
  cases method with
  | fitc => exact C92_fitc_likelihood hg h.1 h.2.1 h.2.2.1 h.2.2.2
  | vfe =>
    have := C92_vfe_likelihood hg h
    rw [crossCov_trace] at this
    exact this

/-! ## Order of the points -/

section
variable (σ : Equiv.Perm (Fin n)) (π : Equiv.Perm (Fin m)) (Kmm : Matrix (Fin m) (Fin m) ℝ) (Kmn : Matrix (Fin m) (Fin n) ℝ)
  (Λ : Fin n → ℝ) (km : Matrix (Fin m) (Fin 1) ℝ) (y0 : Matrix (Fin n) (Fin 1) ℝ)

theorem submatrix_add_same {p : ℕ} (ρ : Equiv.Perm (Fin p)) (A B : Matrix (Fin p) (Fin p) ℝ) :
    A.submatrix ρ ρ + B.submatrix ρ ρ = (A + B).submatrix ρ ρ := rfl

theorem submatrix_sub_same {p : ℕ} (ρ : Equiv.Perm (Fin p)) (A B : Matrix (Fin p) (Fin p) ℝ) :
    A.submatrix ρ ρ - B.submatrix ρ ρ = (A - B).submatrix ρ ρ := rfl

theorem diag_perm : Matrix.diagonal (fun i => Λ (σ i)) = (Matrix.diagonal Λ).submatrix σ σ := by
  rw [Matrix.submatrix_diagonal _ _ σ.injective]; rfl

theorem sparseSigma_perm : sparseSigma (Kmm.submatrix π π) (Kmn.submatrix π σ) (fun i => Λ (σ i)) =
    (sparseSigma Kmm Kmn Λ).submatrix π π := by
  rw [sparseSigma, diag_perm, Matrix.inv_submatrix_equiv, Matrix.submatrix_mul_equiv, Matrix.transpose_submatrix,
    Matrix.submatrix_mul_equiv, submatrix_add_same, Matrix.inv_submatrix_equiv, sparseSigma]

theorem sparseMean_perm : sparseMean (Kmm.submatrix π π) (Kmn.submatrix π σ) (fun i => Λ (σ i)) (y0.submatrix σ id)
    (km.submatrix π id) = sparseMean Kmm Kmn Λ y0 km := by
  rw [sparseMean, sparseSigma_perm, diag_perm, Matrix.inv_submatrix_equiv, Matrix.transpose_submatrix]
  simp only [Matrix.submatrix_mul_equiv]
  rfl

theorem nystrom_perm : nystrom (Kmm.submatrix π π) (Kmn.submatrix π σ) = (nystrom Kmm Kmn).submatrix σ σ := by
  simp only [nystrom, Matrix.inv_submatrix_equiv, Matrix.transpose_submatrix, Matrix.submatrix_mul_equiv]

theorem obsVar_perm (s noise nugget : ℝ) : obsVar method (Kmm.submatrix π π) (Kmn.submatrix π σ) s noise nugget =
    fun i => obsVar method Kmm Kmn s noise nugget (σ i) := by
  cases method with
  | fitc =>
    funext i
    simp only [obsVar, fitcVariances, nystrom_perm, Matrix.submatrix_apply]
  | vfe => rfl

theorem methodVar_perm (s : ℝ) : methodVar method (Kmm.submatrix π π) (Kmn.submatrix π σ) (fun i => Λ (σ i))
    (km.submatrix π id) s = methodVar method Kmm Kmn Λ km s := by
  cases method with
  | fitc =>
    simp only [methodVar, sparseVar, sparseSigma_perm, Matrix.inv_submatrix_equiv, Matrix.transpose_submatrix,
      submatrix_sub_same, Matrix.submatrix_mul_equiv]
    rfl
  | vfe =>
    simp only [methodVar, sparseSigma_perm, Matrix.inv_submatrix_equiv, Matrix.transpose_submatrix,
      submatrix_add_same, Matrix.submatrix_mul_equiv]
    rfl

theorem logDensity_perm (S : Matrix (Fin n) (Fin n) ℝ) :
    logDensity (S.submatrix σ σ) (y0.submatrix σ id) = logDensity S y0 := by
  simp only [logDensity, Matrix.det_submatrix_equiv_self, Matrix.inv_submatrix_equiv, Matrix.transpose_submatrix,
    Matrix.submatrix_mul_equiv]
  rfl

theorem sparseLik_perm (s noise nugget : ℝ) :
    sparseLik method (Kmm.submatrix π π) (Kmn.submatrix π σ) (y0.submatrix σ id) s noise nugget =
      sparseLik method Kmm Kmn y0 s noise nugget := by
  cases method with
  | fitc =>
    have := obsVar_perm (method := .fitc) σ π Kmm Kmn s noise nugget
    simp only [obsVar] at this
    simp only [sparseLik, nystrom_perm, this]
    rw [diag_perm σ (fitcVariances Kmm Kmn s noise), submatrix_add_same]
    exact logDensity_perm σ y0 _
  | vfe =>
    have e : (max noise nugget • (1 : Matrix (Fin n) (Fin n) ℝ)) = (max noise nugget • 1 : Matrix (Fin n) (Fin n) ℝ).submatrix σ σ := by
      rw [Matrix.submatrix_smul, Pi.smul_apply, Pi.smul_apply, Matrix.submatrix_one_equiv]
    have t : ((nystrom Kmm Kmn).submatrix σ σ).trace = (nystrom Kmm Kmn).trace := by
      simp only [Matrix.trace, Matrix.diag_apply, Matrix.submatrix_apply]
      exact Equiv.sum_comp σ fun i => nystrom Kmm Kmn i i
    simp only [sparseLik, nystrom_perm, t]
    congr 1
    conv_lhs => rw [e, submatrix_add_same]
    exact logDensity_perm σ y0 _

end

/-- The order of the training points and the order of the inducing points do not matter: same predictions, same
likelihood. -/
theorem C114_order (σ : Equiv.Perm (Fin n)) (π : Equiv.Perm (Fin m))
    (hg : Sparse.fitWith la method kernel θ s noise w x y z nugget = some g)
    (h2 : Sparse.fitWith la2 method kernel θ s noise w (fun i => x (σ i)) (fun i => y (σ i)) (fun a => z (π a)) nugget =
      some g2) :
    (∀ x', g2.predict x' = g.predict x' ∧ g2.predictVar x' = g.predictVar x') ∧
      (LikOk method θ s noise nugget → g2.likelihood = g.likelihood) := by
  have hK : inducingCov kernel θ w s nugget (fun a => z (π a)) = (inducingCov kernel θ w s nugget z).submatrix π π := by
    rw [inducingCov, inducingCov, Matrix.submatrix_add]
    funext a b
    simp [crossCov, Matrix.one_apply]
  have hN : crossCov kernel θ w s (fun a => z (π a)) (fun i => x (σ i)) = (crossCov kernel θ w s z x).submatrix π σ := rfl
  have hy : column (fun i => y (σ i)) = (column y).submatrix σ id := rfl
  refine ⟨fun x' => ?_, fun hl => ?_⟩
  · have hm : crossCov kernel θ w s (fun a => z (π a)) (fun _ : Fin 1 => x') =
        (crossCov kernel θ w s z fun _ : Fin 1 => x').submatrix π id := rfl
    obtain ⟨e1, e2⟩ := sparse_closed h2 x'
    obtain ⟨e3, e4⟩ := sparse_closed hg x'
    rw [e1, e2, e3, e4, hK, hN, hm, hy, obsVar_perm, sparseMean_perm, methodVar_perm]
    exact ⟨rfl, rfl⟩
  · rw [sparse_likelihood h2 hl, sparse_likelihood hg hl, hK, hN, hy, sparseLik_perm]

/-- Order, direction, unit and origin of the variables, the hyperparameters being changed accordingly (there is no
normalization). -/
theorem C114_variables (τ : Equiv.Perm (Fin d)) (ρ : Equiv.Perm (Fin h)) (e t : Fin d → ℝ)
    (hw : ∀ j l, θ2 l * |w2 j l| * |e j| = θ (ρ l) * |w (τ j) (ρ l)|)
    (hg : Sparse.fitWith la method kernel θ s noise w x y z nugget = some g)
    (h2 : Sparse.fitWith la2 method kernel θ2 s noise w2 (fun i j => e j * x i (τ j) + t j) y
      (fun a j => e j * z a (τ j) + t j) nugget = some g2) :
    (∀ x', g2.predict (fun j => e j * x' (τ j) + t j) = g.predict x' ∧
      g2.predictVar (fun j => e j * x' (τ j) + t j) = g.predictVar x') ∧
      (LikOk method θ s noise nugget → LikOk method θ2 s noise nugget → g2.likelihood = g.likelihood) := by
  have hC : ∀ {p q : ℕ} (a : Fin p → Fin d → ℝ) (b : Fin q → Fin d → ℝ),
      crossCov kernel θ2 w2 s (fun i j => e j * a i (τ j) + t j) (fun i j => e j * b i (τ j) + t j) =
        crossCov kernel θ w s a b := by
    intro p q a b
    rw [← computeK_eq, ← computeK_eq]
    funext i j
    simp only [computeK, Matrix.of_apply]
    rw [← kernel_vars (theta := θ) (w := w) kernel τ ρ e hw]
    congr 2
    funext l
    ring
  have hK : inducingCov kernel θ2 w2 s nugget (fun a j => e j * z a (τ j) + t j) = inducingCov kernel θ w s nugget z := by
    rw [inducingCov, hC, inducingCov]
  refine ⟨fun x' => ?_, fun hl hl2 => ?_⟩
  · obtain ⟨e1, e2⟩ := sparse_closed h2 fun j => e j * x' (τ j) + t j
    obtain ⟨e3, e4⟩ := sparse_closed hg x'
    have hm := hC z fun _ : Fin 1 => x'
    rw [e1, e2, e3, e4, hK, hC z x, hm]
    exact ⟨rfl, rfl⟩
  · rw [sparse_likelihood h2 hl2, sparse_likelihood hg hl, hK, hC z x]

/-! ## Unit of the output -/

section
variable (c : ℝ) (hc : c ≠ 0) (Kmm : Matrix (Fin m) (Fin m) ℝ) (Kmn : Matrix (Fin m) (Fin n) ℝ)
  (Λ : Fin n → ℝ) (km : Matrix (Fin m) (Fin 1) ℝ) (y0 : Matrix (Fin n) (Fin 1) ℝ)
include hc

theorem smul_inv_real {p : ℕ} (A : Matrix (Fin p) (Fin p) ℝ) : (c • A)⁻¹ = c⁻¹ • A⁻¹ := by
  by_cases h : IsUnit A.det
  · exact Matrix.inv_smul' A (Units.mk0 c hc) h
  · rw [Matrix.nonsing_inv_apply_not_isUnit _ h, smul_zero, Matrix.nonsing_inv_apply_not_isUnit]
    rw [Matrix.det_smul]
    intro h'
    exact h (isUnit_of_mul_isUnit_right h')

theorem sparseSigma_smul : sparseSigma (c • Kmm) (c • Kmn) (fun i => c * Λ i) = c⁻¹ • sparseSigma Kmm Kmn Λ := by
  have e : Matrix.diagonal (fun i => c * Λ i) = c • Matrix.diagonal Λ := by
    rw [← Matrix.diagonal_smul]; rfl
  rw [sparseSigma, e, smul_inv_real c hc]
  have e2 : c • Kmn * c⁻¹ • (Matrix.diagonal Λ)⁻¹ * (c • Kmn)ᵀ = c • (Kmn * (Matrix.diagonal Λ)⁻¹ * Kmnᵀ) := by
    simp only [Matrix.transpose_smul, Matrix.smul_mul, Matrix.mul_smul, smul_smul]
    congr 1
    field_simp
  rw [e2, ← smul_add, smul_inv_real c hc, sparseSigma]

theorem sparseMean_smul (a : ℝ) : sparseMean (c • Kmm) (c • Kmn) (fun i => c * Λ i) (a • y0) (c • km) =
    a * sparseMean Kmm Kmn Λ y0 km := by
  have e : Matrix.diagonal (fun i => c * Λ i) = c • Matrix.diagonal Λ := by
    rw [← Matrix.diagonal_smul]; rfl
  have e2 : (c • km)ᵀ * c⁻¹ • sparseSigma Kmm Kmn Λ * c • Kmn * c⁻¹ • (Matrix.diagonal Λ)⁻¹ * a • y0 =
      a • (kmᵀ * sparseSigma Kmm Kmn Λ * Kmn * (Matrix.diagonal Λ)⁻¹ * y0) := by
    simp only [Matrix.transpose_smul, Matrix.smul_mul, Matrix.mul_smul, smul_smul]
    congr 1
    field_simp
  rw [sparseMean, sparseSigma_smul c hc, e, smul_inv_real c hc, e2]
  rfl

theorem nystrom_smul : nystrom (c • Kmm) (c • Kmn) = c • nystrom Kmm Kmn := by
  simp only [nystrom, smul_inv_real c hc, Matrix.transpose_smul, Matrix.smul_mul, Matrix.mul_smul, smul_smul]
  congr 1
  field_simp

theorem methodVar_smul (s : ℝ) : methodVar method (c • Kmm) (c • Kmn) (fun i => c * Λ i) (c • km) (c * s) =
    c * methodVar method Kmm Kmn Λ km s := by
  have e2 : ∀ A : Matrix (Fin m) (Fin m) ℝ, (c • km)ᵀ * c⁻¹ • A * c • km = c • (kmᵀ * A * km) := by
    intro A
    simp only [Matrix.transpose_smul, Matrix.smul_mul, Matrix.mul_smul, smul_smul]
    congr 1
    field_simp
  cases method with
  | fitc =>
    rw [methodVar, sparseVar, sparseSigma_smul c hc, smul_inv_real c hc, ← smul_sub, e2, Matrix.smul_apply, smul_eq_mul,
      ← mul_sub]
    rfl
  | vfe =>
    rw [methodVar, sparseSigma_smul c hc, smul_inv_real c hc, ← smul_add, e2, Matrix.smul_apply, smul_eq_mul,
      ← mul_sub]
    rfl

end

theorem obsVar_smul (c : ℝ) (hc : 0 < c) (Kmm : Matrix (Fin m) (Fin m) ℝ) (Kmn : Matrix (Fin m) (Fin n) ℝ) (s noise nugget : ℝ) :
    obsVar method (c • Kmm) (c • Kmn) (c * s) (c * noise) (c * nugget) =
      fun i => c * obsVar method Kmm Kmn s noise nugget i := by
  funext i
  cases method with
  | fitc =>
    simp only [obsVar, fitcVariances, nystrom_smul c hc.ne', Matrix.smul_apply, smul_eq_mul]
    ring
  | vfe => exact (mul_max_of_nonneg _ _ hc.le).symm

theorem logDensity_smul (a : ℝ) (ha : a ≠ 0) (S : Matrix (Fin n) (Fin n) ℝ) (hS : S.det ≠ 0)
    (y0 : Matrix (Fin n) (Fin 1) ℝ) : logDensity (a ^ 2 • S) (a • y0) = logDensity S y0 - n * Real.log |a| := by
  have h2 : a ^ 2 ≠ 0 := pow_ne_zero 2 ha
  have e : (a • y0)ᵀ * (a ^ 2)⁻¹ • S⁻¹ * a • y0 = y0ᵀ * S⁻¹ * y0 := by
    simp only [Matrix.transpose_smul, Matrix.smul_mul, Matrix.mul_smul, smul_smul]
    have : a * ((a ^ 2)⁻¹ * a) = 1 := by field_simp
    rw [this, one_smul]
  rw [logDensity, logDensity, smul_inv_real _ h2, e, Matrix.det_smul, Real.log_mul (pow_ne_zero _ h2) hS, Real.log_pow,
    Real.log_pow, Fintype.card_fin, Real.log_abs]
  push_cast
  ring

theorem column_smul (a : ℝ) (y : Fin n → ℝ) : column (fun i => a * y i) = a • column y := rfl

theorem crossCov_smul {p q : ℕ} (c : ℝ) (u : Fin p → Fin d → ℝ) (v : Fin q → Fin d → ℝ) :
    crossCov kernel θ w (c * s) u v = c • crossCov kernel θ w s u v := by
  funext i j
  simp only [crossCov, Matrix.of_apply, Matrix.smul_apply, smul_eq_mul]
  ring

theorem inducingCov_smul (c : ℝ) : inducingCov kernel θ w (c * s) (c * nugget) z =
    c • inducingCov kernel θ w s nugget z := by
  rw [inducingCov, inducingCov, crossCov_smul, smul_add, smul_smul]

/-- Determinant of the covariance of the observations. -/
theorem sparse_det (hg : Sparse.fitWith la method kernel θ s noise w x y z nugget = some g)
    (h : LikOk method θ s noise nugget) :
    (nystrom (inducingCov kernel θ w s nugget z) (crossCov kernel θ w s z x) + Matrix.diagonal
      (obsVar method (inducingCov kernel θ w s nugget z) (crossCov kernel θ w s z x) s noise nugget)).det ≠ 0 := by
  have key : ∀ (Kmm : Matrix (Fin m) (Fin m) ℝ) (Kmn : Matrix (Fin m) (Fin n) ℝ) (Λ : Fin n → ℝ), Kmm.PosDef →
      (∀ i, 0 < Λ i) → (nystrom Kmm Kmn + Matrix.diagonal Λ).det ≠ 0 := by
    intro Kmm Kmn Λ hK hΛ
    have h1 : (nystrom Kmm Kmn).PosSemidef := by
      have := hK.inv.posSemidef.conjTranspose_mul_mul_same Kmn
      rwa [Matrix.conjTranspose_eq_transpose_of_trivial] at this
    exact (Matrix.PosDef.posSemidef_add h1 (Matrix.PosDef.diagonal hΛ)).det_pos.ne'
  cases method with
  | fitc =>
    refine key _ _ _ (fitc_posDef hg) fun i => ?_
    exact h.2.2.2.trans_le (fitcVariances_ge kernel θ h.1 w s nugget noise h.2.1 h.2.2.1 z x (fitc_posDef hg) i)
  | vfe => exact key _ _ _ (vfe_posDef hg).2.1 fun i => h

theorem sparseLik_smul (a : ℝ) (ha : a ≠ 0) (Kmm : Matrix (Fin m) (Fin m) ℝ) (Kmn : Matrix (Fin m) (Fin n) ℝ)
    (y0 : Matrix (Fin n) (Fin 1) ℝ) (s noise nugget : ℝ)
    (hd : (nystrom Kmm Kmn + Matrix.diagonal (obsVar method Kmm Kmn s noise nugget)).det ≠ 0) :
    sparseLik method (a ^ 2 • Kmm) (a ^ 2 • Kmn) (a • y0) (a ^ 2 * s) (a ^ 2 * noise) (a ^ 2 * nugget) =
      sparseLik method Kmm Kmn y0 s noise nugget - n * Real.log |a| := by
  have hc : 0 < a ^ 2 := by positivity
  have e : ∀ Λ : Fin n → ℝ, Matrix.diagonal (fun i => a ^ 2 * Λ i) = a ^ 2 • Matrix.diagonal Λ := by
    intro Λ
    rw [← Matrix.diagonal_smul]; rfl
  cases method with
  | fitc =>
    have ho := obsVar_smul (method := .fitc) _ hc Kmm Kmn s noise nugget
    simp only [obsVar] at ho hd
    rw [sparseLik, nystrom_smul _ hc.ne', ho, e, ← smul_add, logDensity_smul a ha _ hd]
    rfl
  | vfe =>
    have e1 : (max noise nugget • 1 : Matrix (Fin n) (Fin n) ℝ) = Matrix.diagonal fun _ => max noise nugget := by
      rw [← Matrix.diagonal_one, ← Matrix.diagonal_smul]
      congr 1
      funext i
      simp
    simp only [obsVar] at hd
    rw [← e1] at hd
    rw [sparseLik, nystrom_smul _ hc.ne', ← mul_max_of_nonneg _ _ hc.le, ← smul_smul, ← smul_add,
      logDensity_smul a ha _ hd, Matrix.trace_smul, smul_eq_mul, sparseLik]
    have : 1 / 2 * (n * (a ^ 2 * s) - a ^ 2 * (nystrom Kmm Kmn).trace) / (a ^ 2 * max noise nugget) =
        1 / 2 * (n * s - (nystrom Kmm Kmn).trace) / max noise nugget := by
      rw [← mul_div_mul_left _ (max noise nugget) hc.ne']
      ring
    rw [this]
    ring

/-- Unit and sign of the output: the variances (and the nugget, which is not a parameter of the surrogate) being scaled
by the square, predictions are scaled, variances are scaled up to the threshold of `1e-15`, and the likelihood is shifted
by a constant. -/
theorem C114_output_unit_partial (a : ℝ) (ha : a ≠ 0)
    (hg : Sparse.fitWith la method kernel θ s noise w x y z nugget = some g)
    (h2 : Sparse.fitWith la2 method kernel θ (a ^ 2 * s) (a ^ 2 * noise) w x (fun i => a * y i) z (a ^ 2 * nugget) =
      some g2) :
    (∀ x', g2.predict x' = a * g.predict x' ∧
      (1e-15 < g.predictVar x' - noise → 1e-15 ≤ a ^ 2 * (g.predictVar x' - noise) →
        g2.predictVar x' = a ^ 2 * g.predictVar x')) ∧
      (LikOk method θ s noise nugget → ∃ l, g.likelihood = some l ∧ g2.likelihood = some (l - n * Real.log |a|)) := by
  have hc : 0 < a ^ 2 := by positivity
  refine ⟨fun x' => ?_, fun hl => ?_⟩
  · obtain ⟨e1, e2⟩ := sparse_closed h2 x'
    obtain ⟨e3, e4⟩ := sparse_closed hg x'
    simp only [inducingCov_smul, crossCov_smul, obsVar_smul _ hc, column_smul] at e1 e2
    rw [sparseMean_smul _ hc.ne'] at e1
    rw [methodVar_smul _ hc.ne'] at e2
    refine ⟨by rw [e1, e3], fun h3 h4 => ?_⟩
    rw [e4, add_sub_cancel_right] at h3 h4
    have h5 := (lt_max_iff.1 h3).resolve_left (lt_irrefl _)
    rw [max_eq_right h5.le] at h4
    rw [e2, e4, max_eq_right h5.le, max_eq_right h4]
    ring
  · have hl2 : LikOk method θ (a ^ 2 * s) (a ^ 2 * noise) (a ^ 2 * nugget) := by
      cases method with
      | fitc => exact ⟨hl.1, mul_pos hc hl.2.1, mul_nonneg hc.le hl.2.2.1, mul_pos hc hl.2.2.2⟩
      | vfe =>
        change 0 < max (a ^ 2 * noise) (a ^ 2 * nugget)
        rw [← mul_max_of_nonneg _ _ hc.le]
        exact mul_pos hc hl
    refine ⟨_, sparse_likelihood hg hl, ?_⟩
    rw [sparse_likelihood h2 hl2, inducingCov_smul, crossCov_smul, column_smul, sparseLik_smul a ha _ _ _ _ _ _ (sparse_det hg hl)]

/-! ## Far from the inducing points, origin of the output -/

theorem crossCov_tendsto (hθ : ∀ l, 0 ≤ θ l) :
    Tendsto (fun x' => crossCov kernel θ w s z fun _ : Fin 1 => x') (farAway θ w) (𝓝 0) := by
  refine tendsto_pi_nhds.2 fun a => tendsto_pi_nhds.2 fun j => ?_
  have := (kernel_far_tendsto (w := w) kernel hθ (z a) (fun _ => 1) fun _ => one_pos).const_mul s
  rw [mul_zero] at this
  refine this.congr fun v => ?_
  rw [crossCov, Matrix.of_apply, ← C40_documented, C40_symmetric kernel θ w (fun l => z a l - v l)
    (fun j => (v j - z a j) / 1) fun l => Or.inr (by ring)]

/-- Far from the inducing points, predictions are those of the prior: zero, with the prior variance plus noise. -/
theorem C116_sparse (hg : Sparse.fitWith la method kernel θ s noise w x y z nugget = some g) (hθ : ∀ l, 0 ≤ θ l)
    {ε : ℝ} (hε : 0 < ε) : ∃ M, ∀ x', Far θ w M x' → |g.predict x'| < ε ∧ |g.predictVar x' - (max 1e-15 s + noise)| < ε := by
  have hk := crossCov_tendsto (kernel := kernel) (w := w) (s := s) (z := z) hθ
  have h1 : Tendsto g.predict (farAway θ w) (𝓝 0) := by
    have hc : Continuous fun km => sparseMean (inducingCov kernel θ w s nugget z) (crossCov kernel θ w s z x)
        (obsVar method (inducingCov kernel θ w s nugget z) (crossCov kernel θ w s z x) s noise nugget) (column y) km := by
      unfold sparseMean
      fun_prop
    have := (hc.tendsto 0).comp hk
    have e : sparseMean (inducingCov kernel θ w s nugget z) (crossCov kernel θ w s z x)
        (obsVar method (inducingCov kernel θ w s nugget z) (crossCov kernel θ w s z x) s noise nugget) (column y) 0 = 0 := by
      simp [sparseMean]
    rw [e] at this
    exact this.congr fun x' => (sparse_closed hg x').1.symm
  have h2 : Tendsto g.predictVar (farAway θ w) (𝓝 (max 1e-15 s + noise)) := by
    have hc : Continuous fun km => max 1e-15 (methodVar method (inducingCov kernel θ w s nugget z) (crossCov kernel θ w s z x)
        (obsVar method (inducingCov kernel θ w s nugget z) (crossCov kernel θ w s z x) s noise nugget) km s) + noise := by
      cases method <;> simp only [methodVar, sparseVar] <;> fun_prop
    have := (hc.tendsto 0).comp hk
    have e : methodVar method (inducingCov kernel θ w s nugget z) (crossCov kernel θ w s z x)
        (obsVar method (inducingCov kernel θ w s nugget z) (crossCov kernel θ w s z x) s noise nugget) 0 s = s := by
      cases method <;> simp [methodVar, sparseVar]
    rw [e] at this
    exact this.congr fun x' => (sparse_closed hg x').2.symm
  obtain ⟨M1, hM1⟩ := farAway_tendsto.1 h1 ε hε
  obtain ⟨M2, hM2⟩ := farAway_tendsto.1 h2 ε hε
  refine ⟨max M1 M2, fun x' hx' => ⟨?_, hM2 x' (hx'.mono (le_max_right _ _))⟩⟩
  have := hM1 x' (hx'.mono (le_max_left _ _))
  rwa [sub_zero] at this

/-- The origin of the output matters: adding a constant to all outputs never adds it to all predictions. -/
theorem C114_refuted_output_origin (hθ : ∀ l, 0 ≤ θ l) (hw : ∃ j l, 0 < θ l * |w j l|) {c : ℝ} (hc : c ≠ 0)
    (hg : Sparse.fitWith la method kernel θ s noise w x y z nugget = some g)
    (h2 : Sparse.fitWith la2 method kernel θ s noise w x (fun i => y i + c) z nugget = some g2) :
    ∃ x', g2.predict x' ≠ g.predict x' + c := by
  by_contra hall
  push Not at hall
  have h3 : 0 < |c| / 2 := by positivity
  obtain ⟨M1, hM1⟩ := C116_sparse hg hθ h3
  obtain ⟨M2, hM2⟩ := C116_sparse h2 hθ h3
  obtain ⟨j, l, hjl⟩ := hw
  have hf : Far θ w (max M1 M2) fun _ => |max M1 M2| + 1 :=
    ⟨j, l, hjl, by rw [abs_of_pos (by positivity)]; linarith [le_abs_self (max M1 M2)]⟩
  have a1 := (hM1 _ (hf.mono (le_max_left _ _))).1
  have a2 := (hM2 _ (hf.mono (le_max_right _ _))).1
  rw [hall] at a2
  rw [abs_lt] at a1 a2
  rcases abs_cases c with ⟨h, _⟩ | ⟨h, _⟩ <;> rw [h] at a1 a2 <;> linarith

theorem inv_one_one (A : Matrix (Fin 1) (Fin 1) ℝ) : A⁻¹ 0 0 = (A 0 0)⁻¹ := by
  rw [Matrix.inv_def, Matrix.det_fin_one]
  simp

/-- One observation at the only inducing point. -/
theorem fitc_one_point {x z : Fin 1 → Fin d → ℝ} {y : Fin 1 → ℝ} {g : Sparse.Model 1 1 d h} (hz : z 0 = x 0)
    (hs : 0 < s) (hnoise : 0 < noise) (hn : 0 < nugget)
    (hg : Sparse.fitWith la .fitc kernel θ s noise w x y z nugget = some g) :
    g.predict (x 0) = s ^ 2 * y 0 / ((s + nugget) * (s + noise)) := by
  have hc : corr kernel θ w (fun l => x 0 l - x 0 l) = 1 := by
    rw [← C40_documented]
    simp only [sub_self]
    exact C40_at_zero kernel θ w
  rw [(sparse_closed hg _).1]
  simp only [sparseMean, sparseSigma, obsVar, fitcVariances, nystrom, Matrix.mul_apply, Matrix.transpose_apply,
    Finset.univ_unique, Fin.default_eq_zero, Finset.sum_singleton, inv_one_one, Matrix.add_apply, Matrix.diagonal_apply_eq,
    inducingCov, crossCov, Matrix.of_apply, Matrix.smul_apply, Matrix.one_apply_eq, smul_eq_mul, column, hz, hc, mul_one]
  have h1 : s + nugget ≠ 0 := by positivity
  have h2 : s + noise ≠ 0 := by positivity
  have hL : (s - s * (s + nugget)⁻¹ * s + noise) * (s + nugget) = s * nugget + noise * (s + nugget) := by
    field_simp
    ring
  generalize s - s * (s + nugget)⁻¹ * s + noise = L at hL ⊢
  have h3 : L ≠ 0 := by
    rintro rfl
    have : 0 < s * nugget + noise * (s + nugget) := by positivity
    linarith
  have h4 : s + nugget + s * L⁻¹ * s = (s + nugget) * (s + noise) / L := by
    rw [eq_div_iff h3]
    field_simp
    linear_combination hL
  rw [h4, inv_div]
  field_simp

/-- The nugget must be scaled with the variances: when it is kept (its default value does not depend on the data),
predictions for outputs in another unit are not the scaled predictions. -/
theorem C114_refuted_fixed_nugget {x z : Fin 1 → Fin d → ℝ} {y : Fin 1 → ℝ} {g g2 : Sparse.Model 1 1 d h} (hz : z 0 = x 0)
    (hs : 0 < s) (hnoise : 0 < noise) (hn : 0 < nugget) (hy : y 0 ≠ 0) (a : ℝ) (ha : a ≠ 0) (ha1 : |a| ≠ 1)
    (hg : Sparse.fitWith la .fitc kernel θ s noise w x y z nugget = some g)
    (h2 : Sparse.fitWith la2 .fitc kernel θ (a ^ 2 * s) (a ^ 2 * noise) w x (fun i => a * y i) z nugget = some g2) :
    g2.predict (x 0) ≠ a * g.predict (x 0) := by
  have hc : 0 < a ^ 2 := by positivity
  rw [fitc_one_point hz hs hnoise hn hg, fitc_one_point hz (by positivity) (by positivity) hn h2]
  intro e
  have h1 : s + nugget ≠ 0 := by positivity
  have h3 : s + noise ≠ 0 := by positivity
  have h4 : a ^ 2 * s + nugget ≠ 0 := by positivity
  have h5 : a ^ 2 * s + a ^ 2 * noise ≠ 0 := by positivity
  rw [mul_div_assoc', div_eq_div_iff (mul_ne_zero h4 h5) (mul_ne_zero h1 h3)] at e
  have e2 : a ^ 3 * s ^ 2 * y 0 * (s + noise) * nugget * (a ^ 2 - 1) = 0 := by linear_combination e
  have h6 : a ^ 2 - 1 ≠ 0 := by
    intro h
    exact ha1 ((pow_eq_one_iff_of_nonneg (abs_nonneg a) two_ne_zero).1 (by rw [sq_abs]; linarith))
  refine (mul_ne_zero ?_ h6) e2
  positivity

/-! ## Inducing points at the training points -/

section
variable {K : Matrix (Fin n) (Fin n) ℝ} (hK : K.PosDef) (hsy : Kᵀ = K) (hnoise : 0 < noise)
include hK hsy

theorem nystrom_full : nystrom K K = K := by
  have hu := (Matrix.isUnit_iff_isUnit_det _).1 hK.isUnit
  rw [nystrom, hsy, Matrix.mul_nonsing_inv _ hu, Matrix.one_mul]

include hnoise

theorem sparseSigma_full : sparseSigma K K (fun _ => noise) = noise • ((K + noise • 1)⁻¹ * K⁻¹) := by
  have hd : (Matrix.diagonal fun _ : Fin n => noise)⁻¹ = noise⁻¹ • 1 := by
    have : (Matrix.diagonal fun _ : Fin n => noise) = noise • 1 := by
      rw [← Matrix.diagonal_one, ← Matrix.diagonal_smul]
      congr 1
      funext i
      simp
    rw [this, smul_inv_real _ hnoise.ne', inv_one]
  have e : K + K * noise⁻¹ • (1 : Matrix (Fin n) (Fin n) ℝ) * K = noise⁻¹ • (K * (K + noise • 1)) := by
    rw [Matrix.mul_add, Matrix.mul_smul, Matrix.mul_smul, Matrix.mul_one, smul_add, smul_smul, inv_mul_cancel₀ hnoise.ne',
      one_smul, Matrix.smul_mul]
    abel
  rw [sparseSigma, hd, hsy, e, smul_inv_real _ (inv_ne_zero hnoise.ne'), inv_inv, Matrix.mul_inv_rev]

theorem full_unit : IsUnit (K + noise • 1).det := by
  refine (Matrix.isUnit_iff_isUnit_det _).1 (Matrix.PosDef.isUnit (hK.add_posSemidef ?_))
  exact Matrix.PosSemidef.one.smul hnoise.le

theorem sparseMean_full (y0 km : Matrix (Fin n) (Fin 1) ℝ) :
    sparseMean K K (fun _ => noise) y0 km = (kmᵀ * (K + noise • 1)⁻¹ * y0) 0 0 := by
  have hu := (Matrix.isUnit_iff_isUnit_det _).1 hK.isUnit
  have hd : (Matrix.diagonal fun _ : Fin n => noise)⁻¹ = noise⁻¹ • 1 := by
    have : (Matrix.diagonal fun _ : Fin n => noise) = noise • 1 := by
      rw [← Matrix.diagonal_one, ← Matrix.diagonal_smul]
      congr 1
      funext i
      simp
    rw [this, smul_inv_real _ hnoise.ne', inv_one]
  rw [sparseMean, sparseSigma_full hK hsy hnoise, hd]
  have e : kmᵀ * noise • ((K + noise • 1)⁻¹ * K⁻¹) * K * noise⁻¹ • (1 : Matrix (Fin n) (Fin n) ℝ) =
      kmᵀ * (K + noise • 1)⁻¹ := by
    simp only [Matrix.mul_smul, Matrix.smul_mul, Matrix.mul_one, smul_smul]
    rw [inv_mul_cancel₀ hnoise.ne', one_smul, Matrix.mul_assoc, Matrix.mul_assoc, Matrix.nonsing_inv_mul _ hu,
      Matrix.mul_one]
  rw [e]

theorem sparseVar_full (km : Matrix (Fin n) (Fin 1) ℝ) (k : ℝ) :
    sparseVar K K (fun _ => noise) km k = k - (kmᵀ * (K + noise • 1)⁻¹ * km) 0 0 := by
  have hu := (Matrix.isUnit_iff_isUnit_det _).1 hK.isUnit
  have h2 := full_unit hK hsy hnoise
  rw [sparseVar, sparseSigma_full hK hsy hnoise]
  have e : K⁻¹ - noise • ((K + noise • 1)⁻¹ * K⁻¹) = (K + noise • 1)⁻¹ := by
    have e1 : K⁻¹ = (K + noise • 1)⁻¹ * ((K + noise • 1) * K⁻¹) := by
      rw [← Matrix.mul_assoc, Matrix.nonsing_inv_mul _ h2, Matrix.one_mul]
    have e2 : (K + noise • 1) * K⁻¹ = 1 + noise • K⁻¹ := by
      rw [Matrix.add_mul, Matrix.mul_nonsing_inv _ hu, Matrix.smul_mul, Matrix.one_mul]
    conv_lhs => arg 1; rw [e1, e2]
    rw [Matrix.mul_add, Matrix.mul_one, Matrix.mul_smul, add_sub_cancel_right]
  rw [e]

end

theorem full_cov (hK : (inducingCov kernel θ w s 0 x).PosDef) :
    inducingCov kernel θ w s 0 x = crossCov kernel θ w s x x ∧ (crossCov kernel θ w s x x).PosDef ∧
      (crossCov kernel θ w s x x)ᵀ = crossCov kernel θ w s x x := by
  have e : inducingCov kernel θ w s 0 x = crossCov kernel θ w s x x := by rw [inducingCov, zero_smul, add_zero]
  rw [e] at hK
  exact ⟨e, hK, crossCov_transpose _ _ _ _ _ _⟩

/-- With the inducing points at the training points and no nugget, FITC is the Gaussian process with noise: same
predictions, variances and likelihood. -/
theorem C115_fitc {g : Sparse.Model n n d h} (hg : Sparse.fitWith la .fitc kernel θ s noise w x y x 0 = some g) (hnoise : 0 < noise) :
    let S := crossCov kernel θ w s x x + noise • 1
    (∀ x', let k := crossCov kernel θ w s x fun _ : Fin 1 => x'
      g.predict x' = (kᵀ * S⁻¹ * column y) 0 0 ∧
        g.predictVar x' = max 1e-15 (s - (kᵀ * S⁻¹ * k) 0 0) + noise) ∧
      ((∀ l, 0 ≤ θ l) → 0 < s → g.likelihood = some (logDensity S (column y))) := by
  intro S
  obtain ⟨e, hK, hsy⟩ := full_cov (fitc_posDef hg)
  have hΛ : fitcVariances (crossCov kernel θ w s x x) (crossCov kernel θ w s x x) s noise = fun _ => noise := by
    funext i
    rw [fitcVariances, nystrom_full hK hsy, crossCov_diag]
    ring
  refine ⟨fun x' => ?_, fun hθ hs => ?_⟩
  · intro k
    obtain ⟨h1, h2⟩ := C50_fitc_predictions hg x'
    rw [h1, h2, e, hΛ, sparseMean_full hK hsy hnoise, sparseVar_full hK hsy hnoise]
    exact ⟨rfl, rfl⟩
  · rw [C92_fitc_likelihood hg hθ hs le_rfl hnoise, e, hΛ, nystrom_full hK hsy]
    have : (Matrix.diagonal fun _ : Fin n => noise) = noise • 1 := by
      rw [← Matrix.diagonal_one, ← Matrix.diagonal_smul]
      congr 1
      funext i
      simp
    rw [this]

/-- So does VFE for the predictions and the likelihood (its variances are below, `C50_refuted_vfe_variance`). -/
theorem C115_vfe_partial {g : Sparse.Model n n d h} (hg : Sparse.fitWith la .vfe kernel θ s noise w x y x 0 = some g) (hnoise : 0 < noise) :
    let S := crossCov kernel θ w s x x + noise • 1
    (∀ x', g.predict x' = ((crossCov kernel θ w s x fun _ : Fin 1 => x')ᵀ * S⁻¹ * column y) 0 0) ∧
      g.likelihood = some (logDensity S (column y)) := by
  intro S
  obtain ⟨e, hK, hsy⟩ := full_cov (vfe_posDef hg).2.1
  have hm : max noise 0 = noise := max_eq_left hnoise.le
  refine ⟨fun x' => ?_, ?_⟩
  · rw [(C50_vfe_predictions_partial hg x').1, e, hm, sparseMean_full hK hsy hnoise]
  · rw [C92_vfe_likelihood hg (by rw [hm]; exact hnoise), e, hm, nystrom_full hK hsy]
    simp [S]

/-- The variance of VFE differs: for one observation at the point predicted, it is below that of the Gaussian process with
noise. -/
theorem C115_refuted_vfe_variance {g : Sparse.Model n n d h} (hg : Sparse.fitWith la .vfe kernel θ s noise w x y x 0 = some g) (hnoise : 0 < noise)
    (hθ : ∀ l, 0 ≤ θ l) (hs : 0 < s) (hn : 0 < n) (x' : Fin d → ℝ)
    (hx : 1e-15 < s - ((crossCov kernel θ w s x fun _ : Fin 1 => x')ᵀ * (crossCov kernel θ w s x x + noise • 1)⁻¹ *
      crossCov kernel θ w s x fun _ : Fin 1 => x') 0 0) :
    g.predictVar x' < s - ((crossCov kernel θ w s x fun _ : Fin 1 => x')ᵀ * (crossCov kernel θ w s x x + noise • 1)⁻¹ *
      crossCov kernel θ w s x fun _ : Fin 1 => x') 0 0 + noise := by
  obtain ⟨e, hK, hsy⟩ := full_cov (vfe_posDef hg).2.1
  have hm : max noise 0 = noise := max_eq_left hnoise.le
  have := C50_refuted_vfe_variance hg hθ hs hn x'
  rw [e, hm, sparseVar_full hK hsy hnoise] at this
  exact this hx

/-! ## Cases -/

/-- Case of `C115_fitc` and `C115_vfe_partial`: two points, no nugget. -/
theorem two_points_cov (s : ℝ) (hs : 0 < s) : (inducingCov .squaredExponential (fun _ : Fin 1 => (1 : ℝ))
    (fun (_ : Fin 1) (_ : Fin 1) => 1) s 0 fun (i : Fin 2) (_ : Fin 1) => (i.val : ℝ)).PosDef := by
  rw [inducing_eq _ _ _ _ _ _ hs.ne', zero_div]
  refine Matrix.PosDef.smul (posDef_two (Kernel.squaredExponential.value (fun _ : Fin 1 => 1)
    (fun (_ : Fin 1) (_ : Fin 1) => 1) ((fun _ => 1) : Fin 1 → ℝ)) ?_ _ ?_ ?_ ?_ ?_) hs
  · simp only [Kernel.value, seValue, Finset.univ_unique, Finset.sum_singleton, mul_one]
    rw [abs_of_pos (Real.exp_pos _), Real.exp_lt_one_iff]
    norm_num
  · simp [corrMatrix]
  · simp [corrMatrix]
  · rw [corrMatrix, Matrix.of_apply, if_neg (by decide)]
    exact C40_symmetric _ _ _ _ _ fun l => Or.inr (by simp)
  · rw [corrMatrix, Matrix.of_apply, if_neg (by decide)]
    exact C40_symmetric _ _ _ _ _ fun l => Or.inl (by simp)

example (y : Fin 2 → ℝ) : ∃ g : Sparse.Model 2 2 1 1, Sparse.fitWith Gp.exact .fitc .squaredExponential
    (fun _ : Fin 1 => (1 : ℝ)) 2 (1 / 10) (fun _ _ => 1) (fun (i : Fin 2) (_ : Fin 1) => (i.val : ℝ)) y
    (fun (i : Fin 2) (_ : Fin 1) => (i.val : ℝ)) 0 = some g :=
  fitc_fits_of _ _ _ (fun _ => zero_le_one) _ _ _ _ two_pos (by norm_num) le_rfl _ _ _ (two_points_cov 2 two_pos)

example (y : Fin 2 → ℝ) : ∃ g : Sparse.Model 2 2 1 1, Sparse.fitWith Gp.exact .vfe .squaredExponential
    (fun _ : Fin 1 => (1 : ℝ)) 2 (1 / 10) (fun _ _ => 1) (fun (i : Fin 2) (_ : Fin 1) => (i.val : ℝ)) y
    (fun (i : Fin 2) (_ : Fin 1) => (i.val : ℝ)) 0 = some g :=
  vfe_fits_of _ _ _ _ _ _ _ (by norm_num) _ _ _ (two_points_cov 2 two_pos)

/-- Case of `C114_order`: two inducing points exchanged, three training points in reverse order. -/
example (y : Fin 3 → ℝ) (x' : Fin 1 → ℝ) : ∃ g g2 : Sparse.Model 3 2 1 1,
    Sparse.fitWith Gp.exact .fitc .matern32 (fun _ : Fin 1 => (1 : ℝ)) 2 (1 / 10) (fun _ _ => 1)
      (fun (i : Fin 3) (_ : Fin 1) => (i.val : ℝ)) y (fun (a : Fin 2) (_ : Fin 1) => (a.val : ℝ)) 1e-9 = some g ∧
    Sparse.fitWith Gp.exact .fitc .matern32 (fun _ : Fin 1 => (1 : ℝ)) 2 (1 / 10) (fun _ _ => 1)
      (fun (i : Fin 3) (_ : Fin 1) => ((Fin.revPerm i).val : ℝ)) (fun i => y (Fin.revPerm i))
      (fun (a : Fin 2) (_ : Fin 1) => ((Equiv.swap 0 1 a : Fin 2).val : ℝ)) 1e-9 = some g2 ∧
    g2.predict x' = g.predict x' ∧ g2.likelihood = g.likelihood := by
  obtain ⟨g, hg⟩ := C50_fitc_fits Gp.exact .matern32 (fun _ : Fin 1 => (1 : ℝ)) (fun _ => zero_le_one)
    (fun (_ : Fin 1) (_ : Fin 1) => 1) 2 (1 / 10) 1e-9 two_pos (by norm_num) (by norm_num)
    (fun (i : Fin 3) (_ : Fin 1) => (i.val : ℝ)) y (fun (a : Fin 2) (_ : Fin 1) => (a.val : ℝ))
  obtain ⟨g2, h2⟩ := C50_fitc_fits Gp.exact .matern32 (fun _ : Fin 1 => (1 : ℝ)) (fun _ => zero_le_one)
    (fun (_ : Fin 1) (_ : Fin 1) => 1) 2 (1 / 10) 1e-9 two_pos (by norm_num) (by norm_num)
    (fun (i : Fin 3) (_ : Fin 1) => ((Fin.revPerm i).val : ℝ)) (fun i => y (Fin.revPerm i))
    (fun (a : Fin 2) (_ : Fin 1) => ((Equiv.swap 0 1 a : Fin 2).val : ℝ))
  have h := C114_order Fin.revPerm (Equiv.swap 0 1) hg h2
  exact ⟨g, g2, hg, h2, (h.1 x').1, h.2 ⟨fun _ => zero_le_one, two_pos, by norm_num, by norm_num⟩⟩

/-- Case of `C114_refuted_output_origin` and `C116_sparse`. -/
example (y : Fin 3 → ℝ) : ∃ g g2 : Sparse.Model 3 2 1 1,
    Sparse.fitWith Gp.exact .vfe .matern32 (fun _ : Fin 1 => (1 : ℝ)) 2 (1 / 10) (fun _ _ => 1)
      (fun (i : Fin 3) (_ : Fin 1) => (i.val : ℝ)) y (fun (a : Fin 2) (_ : Fin 1) => (a.val : ℝ)) 1e-9 = some g ∧
    Sparse.fitWith Gp.exact .vfe .matern32 (fun _ : Fin 1 => (1 : ℝ)) 2 (1 / 10) (fun _ _ => 1)
      (fun (i : Fin 3) (_ : Fin 1) => (i.val : ℝ)) (fun i => y i + 7) (fun (a : Fin 2) (_ : Fin 1) => (a.val : ℝ)) 1e-9 =
      some g2 ∧ ∃ x', g2.predict x' ≠ g.predict x' + 7 := by
  obtain ⟨g, hg⟩ := C50_vfe_fits Gp.exact .matern32 (fun _ : Fin 1 => (1 : ℝ)) (fun _ => zero_le_one)
    (fun (_ : Fin 1) (_ : Fin 1) => 1) 2 (1 / 10) 1e-9 two_pos (by norm_num)
    (fun (i : Fin 3) (_ : Fin 1) => (i.val : ℝ)) y (fun (a : Fin 2) (_ : Fin 1) => (a.val : ℝ))
  obtain ⟨g2, h2⟩ := C50_vfe_fits Gp.exact .matern32 (fun _ : Fin 1 => (1 : ℝ)) (fun _ => zero_le_one)
    (fun (_ : Fin 1) (_ : Fin 1) => 1) 2 (1 / 10) 1e-9 two_pos (by norm_num)
    (fun (i : Fin 3) (_ : Fin 1) => (i.val : ℝ)) (fun i => y i + 7) (fun (a : Fin 2) (_ : Fin 1) => (a.val : ℝ))
  exact ⟨g, g2, hg, h2, C114_refuted_output_origin (fun _ => zero_le_one) ⟨0, 0, by norm_num⟩ (by norm_num) hg h2⟩

/-- Case of `C114_variables`: one variable in another unit. -/
example : ∀ (_ _ : Fin 1), (1 : ℝ) / 1000 * |(1 : ℝ)| * |(1000 : ℝ)| = 1 * |(1 : ℝ)| := by norm_num

end Verif.Props
