import Verif.Lemmas.KernelPsd
import Verif.Props.Gp

/-!
# C90: the correlation models are valid; C91: variances and covariances of a Gaussian process
-/

set_option autoImplicit false

namespace Verif.Props

open Matrix Kernels Means GpUtils Spec Gp

variable {n d h : ℕ}

/-! ## C90 -/

/-- The matrix of the correlations of any points is symmetric positive semidefinite: for any coefficients the
quadratic form is non negative. -/
theorem C90_positive_semidefinite (k : Kernel) (θ : Fin h → ℝ) (hθ : ∀ l, 0 ≤ θ l) (w : Fin d → Fin h → ℝ)
    (x : Fin n → Fin d → ℝ) :
    (∀ i j, k.value θ w (x i - x j) = k.value θ w (x j - x i)) ∧
      ∀ c : Fin n → ℝ, 0 ≤ ∑ i, ∑ j, c i * c j * k.value θ w (x i - x j) := by
  refine ⟨fun i j => C40_symmetric k θ w _ _ fun l => by right; simp, fun c => ?_⟩
  have := (psd_kernel k θ hθ w x).dotProduct_mulVec_nonneg c
  simp only [dotProduct, Matrix.mulVec, star_trivial, Finset.mul_sum, Matrix.of_apply] at this
  calc (0 : ℝ) ≤ _ := this
    _ = _ := Finset.sum_congr rfl fun i _ => Finset.sum_congr rfl fun j _ => by ring

theorem corrMatrix_eq (k : Kernel) (θ : Fin h → ℝ) (w : Fin d → Fin h → ℝ) (nugget : ℝ) (x : Fin n → Fin d → ℝ) :
    corrMatrix k θ w nugget x = (Matrix.of fun i j => k.value θ w (x i - x j)) + nugget • (1 : Matrix (Fin n) (Fin n) ℝ) := by
  funext i j
  rw [Matrix.add_apply, Matrix.smul_apply, corrMatrix, Matrix.of_apply, Matrix.of_apply, Matrix.one_apply]
  by_cases e : i = j
  · subst e
    rw [if_pos rfl, if_pos rfl, sub_self, C40_at_zero]; simp
  · rw [if_neg e, if_neg e]; simp

theorem smul_one_posDef (nugget : ℝ) (hn : 0 < nugget) : (nugget • (1 : Matrix (Fin n) (Fin n) ℝ)).PosDef :=
  Matrix.PosDef.one.smul hn

theorem smul_one_posSemidef (nugget : ℝ) (hn : 0 ≤ nugget) : (nugget • (1 : Matrix (Fin n) (Fin n) ℝ)).PosSemidef :=
  Matrix.PosSemidef.one.smul hn

/-- With a positive nugget the correlation matrix is positive definite, even with repeated points. -/
theorem corrMatrix_posDef (k : Kernel) (θ : Fin h → ℝ) (hθ : ∀ l, 0 ≤ θ l) (w : Fin d → Fin h → ℝ) (nugget : ℝ)
    (hn : 0 < nugget) (x : Fin n → Fin d → ℝ) : (corrMatrix k θ w nugget x).PosDef := by
  rw [corrMatrix_eq]
  exact Matrix.PosDef.posSemidef_add (psd_kernel k θ hθ w x) (smul_one_posDef nugget hn)

/-- The Cholesky factorization of the correlation matrix assembled by the fit succeeds for all inputs, with a
positive nugget. -/
theorem C90_cholesky_succeeds (la : LinAlg) (k : Kernel) (θ : Fin h → ℝ) (hθ : ∀ l, 0 ≤ θ l) (w : Fin d → Fin h → ℝ)
    (nugget : ℝ) (hn : 0 < nugget) (x : Fin n → Fin d → ℝ) (N : ℕ) (c : Cross d) (hc : crossDiff x = .ok (N, c)) :
    ∃ l, la.chol (rMx (n := n) N c.ind (fun r => k.value θ w (c.d r)) nugget) = some l := by
  rw [rMx_eq _ _ _ _ _ _ _ hc]
  exact la.chol_total _ (corrMatrix_posDef k θ hθ w nugget hn x)

/-- A fit with a constant trend succeeds for all training inputs and outputs (two or more observations) when the
linear algebra is exact. -/
theorem C90_constant_mean_fits (kernel : Kernel) (θ : Fin h → ℝ) (hθ : ∀ l, 0 ≤ θ l) (w : Fin d → Fin h → ℝ)
    (nugget : ℝ) (hn : 0 < nugget) (x : Fin n → Fin d → ℝ) (y : Fin n → ℝ) (h2 : 2 ≤ n) :
    ∃ g, fitWith Gp.exact kernel .constant nugget θ w x y = some g := by
  refine fit_succeeds _ _ _ _ _ _ _ h2 (corrMatrix_posDef kernel θ hθ w nugget hn _) ?_
  intro a b hab
  have h0 := congrFun hab ⟨0, by omega⟩
  funext i
  have hi : i = (0 : Fin 1) := Subsingleton.elim (α := Fin 1) _ _
  subst hi
  simp only [Matrix.mulVec, dotProduct, meanMat, Mean.value, constValue] at h0
  have e : ∀ c : Fin (basis Mean.constant d) → ℝ, ∑ i, c i = c (0 : Fin 1) := fun c => Fin.sum_univ_one c
  simp only [e] at h0
  simpa using h0

/-- The condition on the hyperparameters is needed: with a negative one, a correlation is above one, and there are
coefficients for which the quadratic form is negative. -/
theorem C90_negative_hyperparameter : ∃ c : Fin 2 → ℝ,
    ∑ i, ∑ j, c i * c j * Kernel.absoluteExponential.value (fun _ : Fin 1 => (-1 : ℝ)) (fun (_ : Fin 1) (_ : Fin 1) => 1)
      ((fun (a : Fin 2) (_ : Fin 1) => (a.val : ℝ)) i - (fun (a : Fin 2) (_ : Fin 1) => (a.val : ℝ)) j) < 0 := by
  refine ⟨fun i => if i = 0 then 1 else -1, ?_⟩
  have h : (1 : ℝ) < Real.exp 1 := Real.one_lt_exp_iff.2 one_pos
  simp [Fin.sum_univ_two, Kernel.value, absValue]
  linarith

example : ∀ l : Fin 2, (0 : ℝ) ≤ (fun _ => 3) l := fun _ => by norm_num

/-! ## C91 -/

variable {la : LinAlg} {kernel : Kernel} {mean : Mean} {nugget : ℝ} {theta : Fin h → ℝ} {w : Fin d → Fin h → ℝ}
  {x : Fin n → Fin d → ℝ} {y : Fin n → ℝ} {g : Model n d h}

theorem inner_posDef {p : ℕ} {R : Matrix (Fin n) (Fin n) ℝ} {F : Matrix (Fin n) (Fin p) ℝ}
    {Y : Matrix (Fin n) (Fin 1) ℝ} {ys : ℝ} {i : Inner n p} (ok : InnerOk R F Y ys i) : R.PosDef := by
  rw [← ok.hR, ← Matrix.conjTranspose_eq_transpose_of_trivial]
  exact Matrix.PosDef.mul_conjTranspose_self _
    (Matrix.vecMul_injective_of_isUnit ((Matrix.isUnit_iff_isUnit_det _).2 ok.unitL))

theorem inner_sigma_nonneg {p : ℕ} {R : Matrix (Fin n) (Fin n) ℝ} {F : Matrix (Fin n) (Fin p) ℝ}
    {Y : Matrix (Fin n) (Fin 1) ℝ} {ys : ℝ} {i : Inner n p} (ok : InnerOk R F Y ys i) : 0 ≤ i.sigma2 := by
  rw [ok.hsigma, ← ok.hgamma, Matrix.transpose_mul, ok.symm]
  have h1 : 0 ≤ (i.gammaᵀ * R * i.gamma) 0 0 := by
    have := (inner_posDef ok).posSemidef.conjTranspose_mul_mul_same i.gamma
    rw [Matrix.conjTranspose_eq_transpose_of_trivial] at this
    exact this.diag_nonneg
  have : (i.gammaᵀ * R * i.gamma) 0 0 / n * ys * ys = (i.gammaᵀ * R * i.gamma) 0 0 / n * (ys * ys) := by ring
  rw [this]
  exact mul_nonneg (div_nonneg h1 (Nat.cast_nonneg n)) (mul_self_nonneg ys)

/-- The joint correlations of training inputs and points, in blocks. -/
theorem joint_blocks {m : ℕ} (k : Kernel) (θ : Fin h → ℝ) (w : Fin d → Fin h → ℝ) (nugget : ℝ)
    (x : Fin n → Fin d → ℝ) (xs : Fin m → Fin d → ℝ) :
    (Matrix.of fun i j => k.value θ w ((Sum.elim x xs : Fin n ⊕ Fin m → Fin d → ℝ) i -
        (Sum.elim x xs : Fin n ⊕ Fin m → Fin d → ℝ) j) : Matrix (Fin n ⊕ Fin m) (Fin n ⊕ Fin m) ℝ) +
        Matrix.fromBlocks (nugget • (1 : Matrix (Fin n) (Fin n) ℝ)) 0 0 (0 : Matrix (Fin m) (Fin m) ℝ) =
      Matrix.fromBlocks (corrMatrix k θ w nugget x) (Matrix.of fun i a => k.value θ w (xs a - x i))
        (Matrix.of fun i a => k.value θ w (xs a - x i) : Matrix (Fin n) (Fin m) ℝ)ᴴ
        (Matrix.of fun a b => k.value θ w (xs a - xs b)) := by
  rw [corrMatrix_eq]
  funext i j
  cases i with
  | inl i =>
    cases j with
    | inl j => simp [Matrix.fromBlocks]
    | inr j =>
      simp only [Matrix.add_apply, Matrix.of_apply, Matrix.fromBlocks_apply₁₂, Sum.elim_inl, Sum.elim_inr,
        Matrix.zero_apply, add_zero]
      exact C40_symmetric k θ w _ _ fun l => by right; simp
  | inr i =>
    cases j with
    | inl j =>
      simp [Matrix.fromBlocks]
    | inr j => simp [Matrix.fromBlocks]

/-- The simple kriging part of the covariance. -/
theorem schur_psd {m : ℕ} (k : Kernel) (θ : Fin h → ℝ) (hθ : ∀ l, 0 ≤ θ l) (w : Fin d → Fin h → ℝ) (nugget : ℝ)
    (hn : 0 ≤ nugget) (x : Fin n → Fin d → ℝ) (xs : Fin m → Fin d → ℝ) (hR : (corrMatrix k θ w nugget x).PosDef) :
    ((Matrix.of fun a b => k.value θ w (xs a - xs b) : Matrix (Fin m) (Fin m) ℝ) -
      (Matrix.of fun i a => k.value θ w (xs a - x i) : Matrix (Fin n) (Fin m) ℝ)ᵀ * (corrMatrix k θ w nugget x)⁻¹ *
        (Matrix.of fun i a => k.value θ w (xs a - x i) : Matrix (Fin n) (Fin m) ℝ)).PosSemidef := by
  have hinv : Invertible (corrMatrix k θ w nugget x) := hR.isUnit.invertible
  have h1 := psd_kernel k θ hθ w (Sum.elim x xs : Fin n ⊕ Fin m → Fin d → ℝ)
  have h2 : (Matrix.fromBlocks (nugget • (1 : Matrix (Fin n) (Fin n) ℝ)) 0 0 (0 : Matrix (Fin m) (Fin m) ℝ)).PosSemidef := by
    have e : Matrix.fromBlocks (nugget • (1 : Matrix (Fin n) (Fin n) ℝ)) 0 0 (0 : Matrix (Fin m) (Fin m) ℝ) =
        Matrix.diagonal (Sum.elim (fun _ => nugget) fun _ => 0) := by
      rw [← Matrix.fromBlocks_diagonal]
      congr 1
      · funext i j; simp [Matrix.diagonal, Matrix.one_apply]
      · simp
    rw [e]
    refine Matrix.PosSemidef.diagonal fun i => ?_
    cases i with
    | inl i => simpa using hn
    | inr i => simp
  have h3 := h1.add h2
  have e := joint_blocks (m := m) k θ w nugget x xs
  rw [e, Matrix.PosDef.fromBlocks₁₁ _ _ hR, Matrix.conjTranspose_eq_transpose_of_trivial] at h3
  exact h3

/-- The covariance of the predictions at any points is symmetric positive semidefinite, so that it is the covariance
of a Gaussian vector, and the predicted variances are its diagonal: the clamping to zero of negative variances
has no effect in exact arithmetic. -/
theorem C91_covariance (hg : fitWith la kernel mean nugget theta w x y = some g) (hθ : ∀ l, 0 ≤ theta l)
    (hn : 0 ≤ nugget) (la' : LinAlg) {m : ℕ} (xs : Fin m → Fin d → ℝ) :
    ∃ C, g.covariance la' xs = some C ∧ C.PosSemidef ∧ ∀ a, g.predictVar la' (xs a) = some (C a a) := by
  obtain ⟨C, h1, h2, h3, h4⟩ := C78_covariance hg la' xs
  have ok := fitWith_ok hg
  suffices hC : C.PosSemidef by
    refine ⟨C, h1, hC, fun a => ?_⟩
    rw [h3 a, max_eq_right hC.diag_nonneg]
  obtain ⟨kernel', mean', theta', w', lk, inner, xd, xm, xs', yd, ym, ys⟩ := g
  obtain rfl : kernel' = kernel := ok.kernel
  obtain rfl : mean' = mean := ok.mean
  obtain rfl : theta' = theta := ok.theta
  obtain rfl : w' = w := ok.w
  set g : Model n d h := ⟨kernel', mean', theta', w', lk, inner, xd, xm, xs', yd, ym, ys⟩ with hgdef
  have hin := ok.inner
  have hR := inner_posDef hin
  set R := corrMatrix kernel' theta' w' nugget xd with hRdef
  set F := meanMat mean' xd with hF
  set r : Matrix (Fin n) (Fin m) ℝ := Matrix.of fun i a => kernel'.value theta' w' (g.xnorm (xs a) - xd i) with hr
  set f : Matrix (Fin (basis mean' d)) (Fin m) ℝ := Matrix.of fun l a => (mean'.value (g.xnorm (xs a))).getD l 0 with hf
  set K : Matrix (Fin m) (Fin m) ℝ := Matrix.of fun a b => kernel'.value theta' w' (g.xnorm (xs a) - g.xnorm (xs b))
    with hK
  have e : C = inner.sigma2 • (K - rᵀ * R⁻¹ * r + (f - Fᵀ * R⁻¹ * r)ᵀ * (Fᵀ * R⁻¹ * F)⁻¹ * (f - Fᵀ * R⁻¹ * r)) := by
    funext a b
    have h5 : ∀ c : Fin m, (Matrix.of fun i (_ : Fin 1) => (f - Fᵀ * R⁻¹ * r) i c) =
        (Matrix.of fun (l : Fin (basis mean' d)) (_ : Fin 1) => (mean'.value (g.xnorm (xs c))).getD l 0) - Fᵀ * R⁻¹ *
          Matrix.of fun i (_ : Fin 1) => kernel'.value theta' w' (g.xnorm (xs c) - xd i) := by
      intro c
      funext i k
      rw [Matrix.of_apply, Matrix.sub_apply, Matrix.sub_apply, Matrix.mul_apply, Matrix.mul_apply (N := Matrix.of _)]
      rfl
    rw [h4 a b, Matrix.smul_apply, Matrix.add_apply, Matrix.sub_apply, entry_quad, entry_quad, smul_eq_mul, krigCov, h5,
      h5]
    rfl
  rw [e]
  refine Matrix.PosSemidef.smul ?_ (inner_sigma_nonneg hin)
  refine Matrix.PosSemidef.add (schur_psd kernel' theta' hθ w' nugget hn xd (fun a => g.xnorm (xs a)) hR) ?_
  have hB : (Fᵀ * R⁻¹ * F).PosSemidef := by
    have := hR.posSemidef.inv.conjTranspose_mul_mul_same F
    rwa [Matrix.conjTranspose_eq_transpose_of_trivial] at this
  have := hB.inv.conjTranspose_mul_mul_same (f - Fᵀ * R⁻¹ * r)
  rwa [Matrix.conjTranspose_eq_transpose_of_trivial] at this

/-- The predicted variance is exactly the universal kriging variance. -/
theorem C91_variance (hg : fitWith la kernel mean nugget theta w x y = some g) (hθ : ∀ l, 0 ≤ theta l)
    (hn : 0 ≤ nugget) (la' : LinAlg) (x' : Fin d → ℝ) :
    let R := corrMatrix kernel theta w nugget g.xtData
    let F := meanMat mean g.xtData
    let Y : Matrix (Fin n) (Fin 1) ℝ := Matrix.of fun i _ => (y i - g.ytMean) / g.ytStd
    let r : Matrix (Fin n) (Fin 1) ℝ := Matrix.of fun i _ => kernel.value theta w (g.xnorm x' - g.xtData i)
    let f : Matrix (Fin (basis mean d)) (Fin 1) ℝ := Matrix.of fun a _ => (mean.value (g.xnorm x')).getD a 0
    g.predictVar la' x' = some (krigSigma2 R F Y * g.ytStd ^ 2 * krigVar R F r f) := by
  intro R F Y r f
  obtain ⟨C, _, h2, h3⟩ := C91_covariance hg hθ hn la' (fun _ : Fin 1 => x')
  obtain ⟨C', h1', _, h3', h4'⟩ := C78_covariance hg la' (fun _ : Fin 1 => x')
  have h5 := (C45_universal_kriging hg la' x').2
  have h6 := h3 0
  have h0 : 0 ≤ C 0 0 := h2.diag_nonneg
  have ok := fitWith_ok hg
  have h7 : krigSigma2 R F Y * g.ytStd ^ 2 = g.inner.sigma2 := by
    have := ok.inner.sigma_eq
    obtain ⟨kernel', mean', theta', w', lk, inner, xd, xm, xs', yd, ym, ys⟩ := g
    obtain rfl : kernel' = kernel := ok.kernel
    obtain rfl : mean' = mean := ok.mean
    obtain rfl : theta' = theta := ok.theta
    obtain rfl : w' = w := ok.w
    have hY : Y = Matrix.of fun i _ => yd i := by
      funext i k
      exact (ok.ydata i).symm
    rw [hY]
    rw [show inner.sigma2 = _ from this]
    show _ * ys ^ 2 = _ * ys * ys
    ring
  have h8 : C = C' := by
    have := ‹g.covariance la' (fun _ : Fin 1 => x') = some C›
    rw [h1'] at this
    exact (Option.some.inj this).symm
  have h9 : C 0 0 = krigSigma2 R F Y * g.ytStd ^ 2 * krigVar R F r f := by
    rw [h8, h4' 0 0, h7, sub_self, C40_at_zero]
    rfl
  rw [h6, h9]

/-- Sampling by eigenvalues: the eigenvalues of the covariance are non negative, so that the covariance of the
trajectories is the predicted one up to `1e-9` at any points, with no condition on the points. -/
theorem C91_trajectories (hg : fitWith la kernel mean nugget theta w x y = some g) (hθ : ∀ l, 0 ≤ theta l)
    (hn : 0 ≤ nugget) (la' : LinAlg) {m : ℕ} (xs : Fin m → Fin d → ℝ) (q : Matrix (Fin m) (Fin m) ℝ) (v : Fin m → ℝ)
    (hq : qᵀ * q = 1) (C : Matrix (Fin m) (Fin m) ℝ) (hC : g.covariance la' xs = some C)
    (heig : q * Matrix.diagonal v * qᵀ = C) (z : Fin m → ℝ) :
    let D := C - factorEig v q * (factorEig v q)ᵀ
    0 ≤ z ⬝ᵥ D *ᵥ z ∧ z ⬝ᵥ D *ᵥ z ≤ 1e-9 * (z ⬝ᵥ z) := by
  obtain ⟨C', h1, h2, _⟩ := C91_covariance hg hθ hn la' xs
  rw [hC] at h1
  simp only [Option.some.injEq] at h1
  subst h1
  refine C78_sample_eigenvalues C q v (fun i => ?_) hq heig z
  have h3 := h2.conjTranspose_mul_mul_same q
  rw [Matrix.conjTranspose_eq_transpose_of_trivial, ← heig] at h3
  have e : qᵀ * (q * Matrix.diagonal v * qᵀ) * q = Matrix.diagonal v := by
    rw [Matrix.mul_assoc, Matrix.mul_assoc, hq, Matrix.mul_one, ← Matrix.mul_assoc, hq, Matrix.one_mul]
  rw [e] at h3
  have := h3.diag_nonneg (i := i)
  simpa using this

/-- Two points in dimension one, without nugget: the hypotheses are met. -/
example : ∃ g, fitWith Gp.exact .squaredExponential .constant 0 (fun _ : Fin 1 => 2) (fun (_ : Fin 1) (_ : Fin 1) => 1)
    (fun (i : Fin 2) (_ : Fin 1) => (i : ℝ)) (fun i => (i : ℝ)) = some g ∧ ∃ v, g.predictVar Gp.exact (fun _ => 5) = some v := by
  obtain ⟨g, hg⟩ := fit_two_points 2 two_pos (fun i => (i : ℝ))
  exact ⟨g, hg, _, C91_variance hg (fun _ => zero_le_two) le_rfl Gp.exact _⟩

end Verif.Props
