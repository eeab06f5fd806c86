import Verif.Lemmas.GpFit
import Mathlib.Analysis.Calculus.Deriv.Comp

/-!
# C45 to C47, C76: Gaussian process predictions
-/

set_option autoImplicit false

namespace Verif.Props

open Verif.Gp Verif.Kernels Verif.Means Verif.Spec Matrix

variable {n d h : ℕ} {la : LinAlg} {kernel : Kernel} {mean : Mean} {nugget : ℝ} {theta : Fin h → ℝ}
  {w : Fin d → Fin h → ℝ} {x : Fin n → Fin d → ℝ} {y : Fin n → ℝ} {g : Model n d h}

/-- Correlations at a point as a column. -/
noncomputable def rCol (g : Model n d h) (xn : Fin d → ℝ) : Matrix (Fin n) (Fin 1) ℝ := Matrix.of fun i _ => g.corr xn i

/-- Basis functions at a point as a column. -/
noncomputable def fCol (g : Model n d h) (xn : Fin d → ℝ) : Matrix (Fin (basis g.mean d)) (Fin 1) ℝ :=
  Matrix.of fun a _ => g.f xn a

/-! ## C45 -/

theorem predict_matrix (g : Model n d h) (x : Fin d → ℝ) :
    g.predict x = ((fCol g (g.xnorm x))ᵀ * g.inner.beta + (rCol g (g.xnorm x))ᵀ * g.inner.gamma) 0 0 * g.ytStd +
      g.ytMean := by
  rw [Matrix.add_apply, Matrix.mul_apply, Matrix.mul_apply]
  rfl

theorem rtU_total (ok : FitOk kernel mean nugget theta w x y g) (la : LinAlg) (xn : Fin d → ℝ) :
    ∃ rt u, g.rtU la xn = some (rt, u) ∧ g.inner.rChol * rt = rCol g xn ∧
      g.inner.ftQrRᵀ * u = g.inner.ftᵀ * rt - fCol g xn := by
  obtain ⟨rt, h1⟩ := la.solve_total .lower g.inner.rChol (rCol g xn) fun i => (ok.inner.diag i).ne'
  obtain ⟨u, h2⟩ := la.solve_total .lower g.inner.ftQrRᵀ (g.inner.ftᵀ * rt - fCol g xn) fun i => ok.inner.rdiag i
  have h3 := (la.solve_spec _ _ _ _ h1).2
  have h4 := (la.solve_spec _ _ _ _ h2).2
  rw [tri_lower ok.inner.lower] at h3
  rw [tri_lower (l := g.inner.ftQrRᵀ) (fun i j hij => ok.inner.upper j i hij)] at h4
  refine ⟨rt, u, ?_, h3, h4⟩
  unfold Model.rtU
  have e1 : la.solve .lower g.inner.rChol (fun i (_ : Fin 1) => g.corr xn i) = some rt := h1
  rw [e1]
  show (do
    let u ← la.solve .lower g.inner.ftQrRᵀ (g.inner.ftᵀ * rt - fCol g xn)
    some (rt, u)) = _
  rw [h2]
  rfl

theorem mse_eq (ok : FitOk kernel mean nugget theta w x y g) (la : LinAlg) (x' : Fin d → ℝ) :
    g.mse la x' = some (g.inner.sigma2 * krigVar (corrMatrix g.kernel g.theta g.w nugget g.xtData)
      (meanMat g.mean g.xtData) (rCol g (g.xnorm x')) (fCol g (g.xnorm x'))) := by
  obtain ⟨rt, u, h1, h2, h3⟩ := rtU_total ok la (g.xnorm x')
  rw [Model.mse, h1, Option.map_some, ok.inner.var_eq h2 h3]

/-- After a successful fit, predictions are the universal kriging predictor and variance of the normalized data,
with the generalized least squares trend and the maximum likelihood process variance, brought back to the scale of
the outputs. -/
theorem C45_universal_kriging (hg : fitWith la kernel mean nugget theta w x y = some g) (la' : LinAlg)
    (x' : Fin d → ℝ) :
    let R := corrMatrix kernel theta w nugget g.xtData
    let F := meanMat mean g.xtData
    let Y : Matrix (Fin n) (Fin 1) ℝ := Matrix.of fun i _ => (y i - g.ytMean) / g.ytStd
    let r : Matrix (Fin n) (Fin 1) ℝ := Matrix.of fun i _ => kernel.value theta w (g.xnorm x' - g.xtData i)
    let f : Matrix (Fin (basis mean d)) (Fin 1) ℝ := Matrix.of fun a _ => (mean.value (g.xnorm x')).getD a 0
    g.predict x' = krigMean R F Y r f * g.ytStd + g.ytMean ∧
      g.predictVar la' x' = some (max 0 (krigSigma2 R F Y * g.ytStd ^ 2 * krigVar R F r f)) := by
  intro R F Y r f
  have ok := fitWith_ok hg
  obtain ⟨kernel', mean', theta', w', lk, inner, xd, xm, xs, yd, ym, ys⟩ := g
  obtain rfl : kernel' = kernel := ok.kernel
  obtain rfl : mean' = mean := ok.mean
  obtain rfl : theta' = theta := ok.theta
  obtain rfl : w' = w := ok.w
  have hY : (Matrix.of fun i (_ : Fin 1) => yd i) = Y := by
    funext i j
    exact ok.ydata i
  have hin := ok.inner
  simp only [hY] at hin
  constructor
  · rw [predict_matrix, hin.gamma_eq, hin.beta_eq, ← Matrix.mul_assoc]
    rfl
  · rw [Model.predictVar, mse_eq ok, Option.map_some]
    simp only [hin.sigma_eq]
    have e : krigSigma2 R F Y * ys * ys * krigVar R F r f = krigSigma2 R F Y * ys ^ 2 * krigVar R F r f := by ring
    have e2 : (if krigSigma2 R F Y * ys * ys * krigVar R F r f < 0 then 0 else
        krigSigma2 R F Y * ys * ys * krigVar R F r f) = max 0 (krigSigma2 R F Y * ys ^ 2 * krigVar R F r f) := by
      rw [e]
      split_ifs with hneg
      · exact (max_eq_left hneg.le).symm
      · exact (max_eq_right (not_lt.1 hneg)).symm
    exact congrArg some e2

theorem xnorm_train (ok : FitOk kernel mean nugget theta w x y g) (i : Fin n) : g.xnorm (x i) = g.xtData i := by
  funext j; exact (ok.xdata i j).symm

theorem corr_train (nugget : ℝ) (g : Model n d h) (i : Fin n) :
    rCol g (g.xtData i) = corrMatrix g.kernel g.theta g.w nugget g.xtData * (Matrix.of fun j (_ : Fin 1) => if j = i then (1 : ℝ) else 0) -
      Matrix.of fun j _ => if j = i then nugget else 0 := by
  funext j k
  rw [Matrix.sub_apply, Matrix.mul_apply]
  simp only [Matrix.of_apply, mul_ite, mul_one, mul_zero, Finset.sum_ite_eq', Finset.mem_univ, if_true, rCol]
  by_cases e : j = i
  · subst e
    simp only [corrMatrix, Matrix.of_apply, if_true, Model.corr, sub_self]
    have := C40_at_zero g.kernel g.theta g.w
    rw [show (fun l => (0 : ℝ)) = (0 : Fin d → ℝ) from rfl, this]
    ring
  · simp only [corrMatrix, Matrix.of_apply, if_neg e, sub_zero, Model.corr]
    refine C40_symmetric _ _ _ _ _ fun l => ?_
    right; simp

/-- The prediction at a training input is the training output, up to the nugget times the weight of this input
(in the scale of the outputs). -/
theorem C45_training_inputs (hg : fitWith la kernel mean nugget theta w x y = some g) (i : Fin n) :
    g.predict (x i) = y i - nugget * g.inner.gamma i 0 * g.ytStd := by
  have ok := fitWith_ok hg
  rw [predict_matrix, xnorm_train ok, corr_train _ g]
  have h1 : ((fCol g (g.xtData i))ᵀ * g.inner.beta) 0 0 = (meanMat g.mean g.xtData * g.inner.beta) i 0 := by
    rw [Matrix.mul_apply, Matrix.mul_apply]; rfl
  rw [Matrix.add_apply, h1, Matrix.transpose_sub, Matrix.sub_mul, Matrix.sub_apply, Matrix.transpose_mul,
    corrMatrix_symm, Matrix.mul_assoc, ok.inner.hgamma]
  have h2 : ∀ (v : Matrix (Fin n) (Fin 1) ℝ) (c : ℝ),
      ((Matrix.of fun j (_ : Fin 1) => if j = i then c else 0)ᵀ * v) 0 0 = c * v i 0 := by
    intro v c
    rw [Matrix.mul_apply]
    simp
  rw [h2, h2, Matrix.sub_apply]
  have h3 := ok.ydata i
  have h4 := ok.ystd.ne'
  simp only [Matrix.of_apply]
  rw [h3]
  field_simp
  ring

/-- Without nugget the model interpolates its training data. -/
theorem C45_interpolation (hg : fitWith la kernel mean 0 theta w x y = some g) (i : Fin n) :
    g.predict (x i) = y i := by
  rw [C45_training_inputs hg]; ring

/-- Without nugget the predicted variance at a training input is zero. -/
theorem C45_variance_at_data (hg : fitWith la kernel mean 0 theta w x y = some g) (la' : LinAlg) (i : Fin n) :
    g.predictVar la' (x i) = some 0 := by
  have ok := fitWith_ok hg
  rw [Model.predictVar, mse_eq ok, xnorm_train ok, corr_train _ g, Option.map_some]
  set R := corrMatrix g.kernel g.theta g.w 0 g.xtData with hR
  set e : Matrix (Fin n) (Fin 1) ℝ := Matrix.of fun j (_ : Fin 1) => if j = i then 1 else 0 with he
  have h0 : (Matrix.of fun j (_ : Fin 1) => if j = i then (0 : ℝ) else 0 : Matrix (Fin n) (Fin 1) ℝ) = 0 := by
    funext j k; simp
  rw [h0, sub_zero]
  have hu := ok.inner.unitR
  have hv : krigVar R (meanMat g.mean g.xtData) (R * e) (fCol g (g.xtData i)) = 0 := by
    have h1 : (R * e)ᵀ * R⁻¹ * (R * e) = (eᵀ * R) * e := by
      rw [Matrix.mul_assoc, ← Matrix.mul_assoc R⁻¹, Matrix.nonsing_inv_mul _ hu, Matrix.one_mul, Matrix.transpose_mul,
        corrMatrix_symm]
    have h2 : (meanMat g.mean g.xtData)ᵀ * R⁻¹ * (R * e) = (meanMat g.mean g.xtData)ᵀ * e := by
      rw [Matrix.mul_assoc, ← Matrix.mul_assoc R⁻¹, Matrix.nonsing_inv_mul _ hu, Matrix.one_mul]
    have h3 : (meanMat g.mean g.xtData)ᵀ * e = fCol g (g.xtData i) := by
      funext a k
      rw [Matrix.mul_apply]
      simp [he, fCol, meanMat, Model.f, Matrix.transpose_apply]
    have h4 : ((eᵀ * R) * e) 0 0 = 1 := by
      rw [Matrix.mul_apply]
      simp only [Matrix.mul_apply, Matrix.transpose_apply, he, Matrix.of_apply, ite_mul, one_mul, zero_mul,
        Finset.sum_ite_eq', Finset.mem_univ, if_true, mul_ite, mul_one, mul_zero]
      simp [hR, corrMatrix]
    rw [krigVar, h1, h2, h3, h4]
    simp
  rw [hv]
  simp

/-! ## C46 -/

/-- Predicted variances are never negative. -/
theorem C46_variance_nonneg (g : Model n d h) (la : LinAlg) (x : Fin d → ℝ) (v : ℝ)
    (hv : g.predictVar la x = some v) : 0 ≤ v := by
  rw [Model.predictVar, map_some_iff] at hv
  obtain ⟨m, _, rfl⟩ := hv
  split_ifs with h
  · exact le_rfl
  · exact not_lt.1 h

/-- Predicting value and variance together gives the same results as separately. -/
theorem C46_joint (g : Model n d h) (la : LinAlg) (x : Fin d → ℝ) :
    g.predictValvar la x = (g.predictVar la x).map fun v => (g.predict x, v) := by
  unfold Model.predictValvar Model.predictVar Model.mse
  simp only [Option.map_map]
  rfl

/-- A fitted model gives a variance at every point. -/
theorem C46_variance_defined (hg : fitWith la kernel mean nugget theta w x y = some g) (la' : LinAlg)
    (x' : Fin d → ℝ) : ∃ v, g.predictVar la' x' = some v ∧ 0 ≤ v := by
  have := (C45_universal_kriging hg la' x').2
  exact ⟨_, this, le_max_left _ _⟩

/-! ## C47 -/

theorem xnorm_update (g : Model n d h) (x : Fin d → ℝ) (j : Fin d) (t : ℝ) :
    g.xnorm (Function.update x j t) = Function.update (g.xnorm x) j ((t - g.xtMean j) / g.xtStd j) := by
  funext l
  by_cases hl : l = j
  · subst hl; simp [Model.xnorm]
  · simp [Model.xnorm, Function.update_of_ne hl]

theorem hasDerivAt_xnorm (g : Model n d h) (x : Fin d → ℝ) (j : Fin d) :
    HasDerivAt (fun t => (t - g.xtMean j) / g.xtStd j) (1 / g.xtStd j) (x j) :=
  ((hasDerivAt_id (x j)).sub_const _).div_const _

theorem hasDerivAt_f (g : Model n d h) (x : Fin d → ℝ) (j : Fin d) {J : Jac d}
    (hJ : g.mean.jacobian (g.xnorm x) = .ok J) (a : Fin (basis g.mean d)) :
    HasDerivAt (fun t => g.f (g.xnorm (Function.update x j t)) a) (J.at_ a j / g.xtStd j) (x j) := by
  obtain ⟨J', h1, h2, h3⟩ := C42_jacobian g.mean (g.xnorm x)
  rw [hJ] at h1
  simp only [Except.ok.injEq] at h1
  subst h1
  have hb : basis g.mean d = basisSize g.mean d := by cases g.mean <;> rfl
  have ha : a.val < J.nrows := by
    rw [h2, C42_basis_size, ← hb]; exact a.2
  have h4 := (h3 a ha j).comp (x j) (hasDerivAt_xnorm g x j)
  have e : (fun t => g.f (g.xnorm (Function.update x j t)) a) =
      (fun t => (g.mean.value (Function.update (g.xnorm x) j t)).getD a 0) ∘
        fun t => (t - g.xtMean j) / g.xtStd j := by
    funext t
    simp only [Model.f, xnorm_update, Function.comp]
  rw [e]
  refine h4.congr_deriv ?_
  ring

theorem hasDerivAt_corr (g : Model n d h) (x : Fin d → ℝ) (j : Fin d) (i : Fin n)
    (hk : g.kernel = .absoluteExponential → g.xnorm x j ≠ g.xtData i j) :
    HasDerivAt (fun t => g.corr (g.xnorm (Function.update x j t)) i)
      (g.kernel.jacobian (g.xnorm x) g.xtData g.theta g.w i j / g.xtStd j) (x j) := by
  have h1 := (C41_jacobian g.kernel (g.xnorm x) g.xtData g.theta g.w i j hk).comp (x j) (hasDerivAt_xnorm g x j)
  have e : (fun t => g.corr (g.xnorm (Function.update x j t)) i) =
      (fun t => g.kernel.value g.theta g.w (differences (Function.update (g.xnorm x) j t) g.xtData i)) ∘
        fun t => (t - g.xtMean j) / g.xtStd j := by
    funext t
    simp only [Model.corr, xnorm_update, Function.comp]
    rfl
  rw [e]
  refine h1.congr_deriv ?_
  ring

/-- The gradient is returned at every point and its component `j` is the derivative of the prediction along
component `j` of the point (in the scale of the inputs); with the absolute exponential kernel, where the component
differs from those of the training inputs. -/
theorem C47_gradient_partial (hg : fitWith la kernel mean nugget theta w x y = some g) (x' : Fin d → ℝ) :
    ∃ v, g.predictGradient x' = some v ∧
      ∀ j, (kernel = .absoluteExponential → ∀ i, x' j ≠ x i j) →
        HasDerivAt (fun t => g.predict (Function.update x' j t)) (v j) (x' j) := by
  have ok := fitWith_ok hg
  obtain ⟨J, hJ, _, _⟩ := C42_jacobian g.mean (g.xnorm x')
  refine ⟨fun j => (∑ a : Fin (basis g.mean d), J.at_ a j * g.inner.beta a 0 +
    ∑ i, g.kernel.jacobian (g.xnorm x') g.xtData g.theta g.w i j * g.inner.gamma i 0) * g.ytStd / g.xtStd j, ?_, ?_⟩
  · unfold Model.predictGradient
    simp only [hJ]
  · intro j hk
    have hk' : ∀ i, g.kernel = .absoluteExponential → g.xnorm x' j ≠ g.xtData i j := by
      intro i hka heq
      rw [ok.kernel] at hka
      refine hk hka i ?_
      have h1 := ok.xdata i j
      have h2 := (ok.xstd j).ne'
      simp only [Model.xnorm] at heq
      rw [h1, div_left_inj' h2] at heq
      linarith
    have h1 : HasDerivAt (fun t => ∑ a, g.f (g.xnorm (Function.update x' j t)) a * g.inner.beta a 0)
        (∑ a : Fin (basis g.mean d), J.at_ a j / g.xtStd j * g.inner.beta a 0) (x' j) :=
      HasDerivAt.fun_sum fun a _ => (hasDerivAt_f g x' j hJ a).mul_const _
    have h2 : HasDerivAt (fun t => ∑ i, g.corr (g.xnorm (Function.update x' j t)) i * g.inner.gamma i 0)
        (∑ i, g.kernel.jacobian (g.xnorm x') g.xtData g.theta g.w i j / g.xtStd j * g.inner.gamma i 0) (x' j) :=
      HasDerivAt.fun_sum fun i _ => (hasDerivAt_corr g x' j i (hk' i)).mul_const _
    have h3 := ((h1.add h2).mul_const g.ytStd).add_const g.ytMean
    refine h3.congr_deriv ?_
    have e1 : ∑ a : Fin (basis g.mean d), J.at_ a j / g.xtStd j * g.inner.beta a 0 =
        (∑ a : Fin (basis g.mean d), J.at_ a j * g.inner.beta a 0) / g.xtStd j := by
      rw [Finset.sum_div]; exact Finset.sum_congr rfl fun a _ => by ring
    have e2 : ∑ i, g.kernel.jacobian (g.xnorm x') g.xtData g.theta g.w i j / g.xtStd j * g.inner.gamma i 0 =
        (∑ i, g.kernel.jacobian (g.xnorm x') g.xtData g.theta g.w i j * g.inner.gamma i 0) / g.xtStd j := by
      rw [Finset.sum_div]; exact Finset.sum_congr rfl fun a _ => by ring
    rw [e1, e2]
    ring

/-- For the squared exponential kernel without dimension reduction, the per-component derivative differs from the
gradient by a term in `theta^2 - 2 theta`: they agree exactly when this term vanishes. -/
theorem C47_kth_iff {theta : Fin d → ℝ} {g : Model n d d} (hg : fitWith la .squaredExponential mean nugget theta
      (fun i j => if i = j then 1 else 0) x y = some g) (x' : Fin d → ℝ) (k : Fin d) :
    ∃ v c, g.predictGradient x' = some v ∧ g.predictKth x' k = some c ∧
      (c = v k ↔ (theta k = 0 ∨ theta k = 2 ∨
        ∑ i, (g.xnorm x' k - g.xtData i k) * g.corr (g.xnorm x') i * g.inner.gamma i 0 = 0)) := by
  have ok := fitWith_ok hg
  obtain ⟨J, hJ, _, _⟩ := C42_jacobian g.mean (g.xnorm x')
  have hc : g.predictKth x' k = some ((∑ a : Fin (basis g.mean d), J.at_ a k * g.inner.beta a 0 - 2 * g.theta k *
      ∑ i, (g.xnorm x' k - g.xtData i k) * g.corr (g.xnorm x') i * g.inner.gamma i 0) * g.ytStd / g.xtStd k) := by
    unfold Model.predictKth
    simp only [hJ, k.2, dif_pos]
  have hv : g.predictGradient x' = some fun j => (∑ a : Fin (basis g.mean d), J.at_ a j * g.inner.beta a 0 +
      ∑ i, g.kernel.jacobian (g.xnorm x') g.xtData g.theta g.w i j * g.inner.gamma i 0) * g.ytStd / g.xtStd j := by
    unfold Model.predictGradient
    simp only [hJ]
  refine ⟨_, _, hv, hc, ?_⟩
  clear hc hv
  have hys : 0 < g.ytStd := ok.ystd
  have hxs : 0 < g.xtStd k := ok.xstd k
  have hjac : ∀ i, g.kernel.jacobian (g.xnorm x') g.xtData g.theta g.w i k =
      -(theta k ^ 2) * ((g.xnorm x' k - g.xtData i k) * g.corr (g.xnorm x') i) := by
    intro i
    have hcv : g.corr (g.xnorm x') i = seValue theta (fun i j => if i = j then 1 else 0)
        (differences (g.xnorm x') g.xtData i) := by
      unfold Model.corr
      rw [ok.kernel, ok.theta, ok.w]
      rfl
    rw [ok.kernel, ok.theta, ok.w, hcv]
    simp only [Kernel.jacobian, Kernel.jacRow, seJac]
    have : ∑ l, (theta l * if k = l then 1 else 0) ^ 2 = theta k ^ 2 := by
      rw [Finset.sum_eq_single k]
      · simp
      · intro b _ hb; simp [Ne.symm hb]
      · simp
    rw [this]
    have hdk : differences (g.xnorm x') g.xtData i k = g.xnorm x' k - g.xtData i k := rfl
    rw [hdk]
    ring
  set S := ∑ i, (g.xnorm x' k - g.xtData i k) * g.corr (g.xnorm x') i * g.inner.gamma i 0 with hS
  have hsum : ∑ i, g.kernel.jacobian (g.xnorm x') g.xtData g.theta g.w i k * g.inner.gamma i 0 =
      -(theta k ^ 2) * S := by
    rw [hS, Finset.mul_sum]
    exact Finset.sum_congr rfl fun i _ => by rw [hjac]; ring
  rw [hsum, ok.theta]
  set D := ∑ a : Fin (basis g.mean d), J.at_ a k * g.inner.beta a 0 with hD
  rw [div_left_inj' hxs.ne', mul_left_inj' hys.ne']
  constructor
  · intro heq
    have h1 : theta k * (theta k - 2) * S = 0 := by linarith
    rcases mul_eq_zero.1 h1 with h2 | h2
    · rcases mul_eq_zero.1 h2 with h3 | h3
      · exact .inl h3
      · exact .inr (.inl (by linarith))
    · exact .inr (.inr h2)
  · rintro (h1 | h1 | h1)
    · rw [h1]; ring
    · rw [h1]; ring
    · rw [h1]; ring

/-! ## C76 -/

theorem hasDerivAt_quadForm {m : ℕ} (u : Fin m → ℝ → ℝ) (u' : Fin m → ℝ) (t : ℝ) (K : Matrix (Fin m) (Fin m) ℝ)
    (hK : Kᵀ = K) (hu : ∀ i, HasDerivAt (u i) (u' i) t) :
    HasDerivAt (fun s => ((Matrix.of fun i (_ : Fin 1) => u i s)ᵀ * K * (Matrix.of fun i (_ : Fin 1) => u i s)) 0 0)
      (2 * ∑ i, (K * Matrix.of fun i (_ : Fin 1) => u i t) i 0 * u' i) t := by
  have e : (fun s => ((Matrix.of fun i (_ : Fin 1) => u i s)ᵀ * K * (Matrix.of fun i (_ : Fin 1) => u i s)) 0 0) =
      fun s => ∑ j, ∑ i, u i s * K i j * u j s := by
    funext s
    simp only [Matrix.mul_apply, Matrix.transpose_apply, Matrix.of_apply, Finset.sum_mul]
  rw [e]
  have h1 : HasDerivAt (fun s => ∑ j, ∑ i, u i s * K i j * u j s)
      (∑ j, ∑ i, (u' i * K i j * u j t + u i t * K i j * u' j)) t :=
    HasDerivAt.fun_sum fun j _ => HasDerivAt.fun_sum fun i _ => ((hu i).mul_const (K i j)).mul (hu j)
  refine h1.congr_deriv ?_
  have hsym : ∀ i j, K i j = K j i := fun i j => by
    conv_lhs => rw [← hK]
    rfl
  simp only [Finset.sum_add_distrib, Matrix.mul_apply, Matrix.of_apply]
  have s1 : ∑ j, ∑ i, u i t * K i j * u' j = ∑ i, (∑ j, K i j * u j t) * u' i := by
    refine Finset.sum_congr rfl fun j _ => ?_
    rw [Finset.sum_mul]
    refine Finset.sum_congr rfl fun i _ => ?_
    rw [hsym i j]; ring
  have s2 : ∑ j, ∑ i, u' i * K i j * u j t = ∑ i, (∑ j, K i j * u j t) * u' i := by
    rw [Finset.sum_comm]
    refine Finset.sum_congr rfl fun i _ => ?_
    rw [Finset.sum_mul]
    refine Finset.sum_congr rfl fun j _ => ?_
    ring
  rw [s1, s2]
  ring

/-- The variance gradient is returned at every point and is the derivative of the variance before clamping. -/
theorem varGradient_mse (hg : fitWith la kernel mean nugget theta w x y = some g) (la' : LinAlg) (x' : Fin d → ℝ) :
    ∃ v, g.predictVarGradient la' x' = some v ∧
      ∀ j, (kernel = .absoluteExponential → ∀ i, x' j ≠ x i j) →
        HasDerivAt (fun t => g.inner.sigma2 * krigVar (corrMatrix g.kernel g.theta g.w nugget g.xtData)
          (meanMat g.mean g.xtData) (rCol g (g.xnorm (Function.update x' j t)))
          (fCol g (g.xnorm (Function.update x' j t)))) (v j) (x' j) := by
  have ok := fitWith_ok hg
  obtain ⟨J, hJ, _, _⟩ := C42_jacobian g.mean (g.xnorm x')
  set R := corrMatrix g.kernel g.theta g.w nugget g.xtData with hR
  set F := meanMat g.mean g.xtData with hF
  set r := rCol g (g.xnorm x') with hr
  set f := fCol g (g.xnorm x') with hf
  set dr : Matrix (Fin n) (Fin d) ℝ := Matrix.of fun i j => g.kernel.jacobian (g.xnorm x') g.xtData g.theta g.w i j with hdr
  have hin := ok.inner
  have hld : ∀ i, g.inner.rChol i i ≠ 0 := fun i => (hin.diag i).ne'
  have hltd : ∀ i, g.inner.rCholᵀ i i ≠ 0 := hld
  -- the solves
  obtain ⟨rho1, s1⟩ := la'.solve_total .lower g.inner.rChol r hld
  obtain ⟨invKr, s2⟩ := la'.solve_total .upper g.inner.rCholᵀ rho1 hltd
  obtain ⟨rho2, s3⟩ := la'.solve_total .lower g.inner.rChol F hld
  obtain ⟨invKf, s4⟩ := la'.solve_total .upper g.inner.rCholᵀ rho2 hltd
  have t1 := (la'.solve_spec _ _ _ _ s1).2
  have t2 := (la'.solve_spec _ _ _ _ s2).2
  have t3 := (la'.solve_spec _ _ _ _ s3).2
  have t4 := (la'.solve_spec _ _ _ _ s4).2
  rw [tri_lower hin.lower] at t1 t3
  rw [tri_upper (u := g.inner.rCholᵀ) (fun i j hij => hin.lower j i hij)] at t2 t4
  have hinv : ∀ {k : ℕ} (a b : Matrix (Fin n) (Fin k) ℝ), g.inner.rChol * (g.inner.rCholᵀ * a) = b → a = R⁻¹ * b := by
    intro k a b hab
    rw [← Matrix.mul_assoc, hin.hR] at hab
    rw [← hab, ← Matrix.mul_assoc, Matrix.nonsing_inv_mul _ hin.unitR, Matrix.one_mul]
  have hKr : invKr = R⁻¹ * r := hinv _ _ (by rw [t2, t1])
  have hKf : invKf = R⁻¹ * F := hinv _ _ (by rw [t4, t3])
  set B := Fᵀ * invKf with hB
  have hB2 : B = Fᵀ * R⁻¹ * F := by rw [hB, hKf, Matrix.mul_assoc]
  have hBs : Bᵀ = B := by
    rw [hB2, hin.gram_eq, Matrix.transpose_mul, Matrix.transpose_transpose]
  have hBpd : B.PosDef := by
    rw [hB2, hin.gram_eq, ← Matrix.conjTranspose_eq_transpose_of_trivial]
    exact Matrix.PosDef.conjTranspose_mul_self _
      (Matrix.mulVec_injective_of_isUnit ((Matrix.isUnit_iff_isUnit_det _).2 hin.unitQ))
  obtain ⟨rho3, s5⟩ := la'.chol_total B hBpd
  obtain ⟨c1, c2, c3⟩ := la'.chol_spec _ _ hBs s5
  set aMat : Matrix (Fin 1) (Fin (basis g.mean d)) ℝ := fᵀ - rᵀ * invKf with ha
  obtain ⟨invBat, s6⟩ := la'.solve_total .lower rho3 aMatᵀ fun i => (c3 i).ne'
  obtain ⟨dMat, s7⟩ := la'.solve_total .upper rho3ᵀ invBat fun i => (c3 i).ne'
  have t6 := (la'.solve_spec _ _ _ _ s6).2
  have t7 := (la'.solve_spec _ _ _ _ s7).2
  rw [tri_lower c2] at t6
  rw [tri_upper (u := rho3ᵀ) (fun i j hij => c2 j i hij)] at t7
  have hBu : IsUnit B.det := by rw [hB2]; exact hin.unitB
  have hD : dMat = B⁻¹ * aMatᵀ := by
    have h1 : B * dMat = aMatᵀ := by rw [← c1, Matrix.mul_assoc, t7, t6]
    rw [← h1, ← Matrix.mul_assoc, Matrix.nonsing_inv_mul _ hBu, Matrix.one_mul]
  have hat : aMatᵀ = f - Fᵀ * R⁻¹ * r := by
    rw [ha, Matrix.transpose_sub, Matrix.transpose_transpose, Matrix.transpose_mul, Matrix.transpose_transpose, hKf,
      Matrix.transpose_mul, hin.inv_symm]
  set dfm : Matrix (Fin (basis g.mean d)) (Fin d) ℝ := Matrix.of fun a j => J.at_ a j with hdfm
  set dA : Matrix (Fin d) (Fin (basis g.mean d)) ℝ := dfmᵀ - drᵀ * invKf with hdA
  refine ⟨fun j => 2 * ((dMatᵀ * dAᵀ) 0 j - (invKrᵀ * dr) 0 j) / g.xtStd j * g.inner.sigma2, ?_, ?_⟩
  · unfold Model.predictVarGradient
    simp only [C41_valjac]
    show (la'.solve .lower g.inner.rChol r >>= fun rho1 => _) = _
    rw [s1]
    show (la'.solve .upper g.inner.rCholᵀ rho1 >>= fun _ => _) = _
    rw [s2]
    show (la'.solve .lower g.inner.rChol F >>= fun _ => _) = _
    rw [s3]
    show (la'.solve .upper g.inner.rCholᵀ rho2 >>= fun _ => _) = _
    rw [s4]
    show (la'.chol B >>= fun _ => _) = _
    rw [s5]
    show (la'.solve .lower rho3 aMatᵀ >>= fun _ => _) = _
    rw [s6]
    show (la'.solve .upper rho3ᵀ invBat >>= fun _ => _) = _
    rw [s7]
    show (match g.mean.jacobian (g.xnorm x') with
      | .error _ => none
      | .ok df => _) = _
    rw [hJ]
    rfl
  · intro j hk
    have hk' : ∀ i, g.kernel = .absoluteExponential → g.xnorm x' j ≠ g.xtData i j := by
      intro i hka heq
      rw [ok.kernel] at hka
      refine hk hka i ?_
      have h1 := ok.xdata i j
      have h2 := (ok.xstd j).ne'
      simp only [Model.xnorm] at heq
      rw [h1, div_left_inj' h2] at heq
      linarith
    have hrd : ∀ i, HasDerivAt (fun t => g.corr (g.xnorm (Function.update x' j t)) i) (dr i j / g.xtStd j) (x' j) :=
      fun i => hasDerivAt_corr g x' j i (hk' i)
    have had : ∀ a, HasDerivAt (fun t => (fCol g (g.xnorm (Function.update x' j t)) -
        Fᵀ * R⁻¹ * rCol g (g.xnorm (Function.update x' j t))) a 0) (dA j a / g.xtStd j) (x' j) := by
      intro a
      have e1 : (fun t => (fCol g (g.xnorm (Function.update x' j t)) -
          Fᵀ * R⁻¹ * rCol g (g.xnorm (Function.update x' j t))) a 0) =
          fun t => g.f (g.xnorm (Function.update x' j t)) a -
            ∑ i, (Fᵀ * R⁻¹) a i * g.corr (g.xnorm (Function.update x' j t)) i := by
        funext t
        rw [Matrix.sub_apply, Matrix.mul_apply]
        rfl
      rw [e1]
      have h1 := (hasDerivAt_f g x' j hJ a).sub
        (HasDerivAt.fun_sum (u := Finset.univ) fun i _ => (hrd i).const_mul ((Fᵀ * R⁻¹) a i))
      refine h1.congr_deriv ?_
      rw [hdA, Matrix.sub_apply, Matrix.mul_apply, hKf, sub_div, Finset.sum_div]
      congr 1
      refine Finset.sum_congr rfl fun i _ => ?_
      have h2 : (Fᵀ * R⁻¹) a i = (R⁻¹ * F) i a := by
        have : (Fᵀ * R⁻¹)ᵀ = R⁻¹ * F := by rw [Matrix.transpose_mul, Matrix.transpose_transpose, hin.inv_symm]
        rw [← this]; rfl
      rw [h2, Matrix.transpose_apply]
      ring
    have q1 := hasDerivAt_quadForm _ _ (x' j) R⁻¹ hin.inv_symm hrd
    have hBis : B⁻¹ᵀ = B⁻¹ := by rw [Matrix.transpose_nonsing_inv, hBs]
    have q2 := hasDerivAt_quadForm _ _ (x' j) B⁻¹ hBis had
    have h3 := ((q1.const_sub 1).add q2).const_mul g.inner.sigma2
    have e2 : ∀ (m : Matrix (Fin (basis g.mean d)) (Fin 1) ℝ), (Matrix.of fun a (_ : Fin 1) => m a 0) = m := by
      intro m
      funext a k
      rw [Subsingleton.elim k 0]
      rfl
    have e3 : (fun t => g.inner.sigma2 * krigVar R F (rCol g (g.xnorm (Function.update x' j t)))
        (fCol g (g.xnorm (Function.update x' j t)))) = fun t => g.inner.sigma2 *
        ((fun s => 1 - ((Matrix.of fun i (_ : Fin 1) => g.corr (g.xnorm (Function.update x' j s)) i)ᵀ * R⁻¹ *
          Matrix.of fun i (_ : Fin 1) => g.corr (g.xnorm (Function.update x' j s)) i) 0 0) t +
        (fun s => ((Matrix.of fun a (_ : Fin 1) => (fCol g (g.xnorm (Function.update x' j s)) -
            Fᵀ * R⁻¹ * rCol g (g.xnorm (Function.update x' j s))) a 0)ᵀ * B⁻¹ *
          (Matrix.of fun a (_ : Fin 1) => (fCol g (g.xnorm (Function.update x' j s)) -
            Fᵀ * R⁻¹ * rCol g (g.xnorm (Function.update x' j s))) a 0)) 0 0) t) := by
      funext t
      simp only [e2, krigVar, ← hB2]
      rfl
    rw [e3]
    refine h3.congr_deriv ?_
    simp only [Function.update_eq_self, e2]
    have e4 : ∑ i, (R⁻¹ * Matrix.of fun i (_ : Fin 1) => g.corr (g.xnorm x') i) i 0 * (dr i j / g.xtStd j) =
        (invKrᵀ * dr) 0 j / g.xtStd j := by
      rw [hKr, Matrix.mul_apply, Finset.sum_div]
      refine Finset.sum_congr rfl fun i _ => ?_
      rw [Matrix.transpose_apply]
      show (R⁻¹ * r) i 0 * _ = _
      ring
    have e5 : ∑ i, (B⁻¹ * (fCol g (g.xnorm x') - Fᵀ * R⁻¹ * rCol g (g.xnorm x'))) i 0 * (dA j i / g.xtStd j) =
        (dMatᵀ * dAᵀ) 0 j / g.xtStd j := by
      rw [hD, hat, Matrix.mul_apply, Finset.sum_div]
      refine Finset.sum_congr rfl fun i _ => ?_
      rw [Matrix.transpose_apply, Matrix.transpose_apply]
      ring
    rw [e4, e5]
    ring

/-- The variance gradient is returned at every point and, where the variance is positive, it is the derivative of
the predicted variance along each component of the point. -/
theorem C76_variance_gradient (hg : fitWith la kernel mean nugget theta w x y = some g) (la' : LinAlg)
    (x' : Fin d → ℝ) :
    ∃ v, g.predictVarGradient la' x' = some v ∧
      ∀ j, (kernel = .absoluteExponential → ∀ i, x' j ≠ x i j) → (∃ s, g.predictVar la' x' = some s ∧ 0 < s) →
        HasDerivAt (fun t => (g.predictVar la' (Function.update x' j t)).getD 0) (v j) (x' j) := by
  obtain ⟨v, h1, h2⟩ := varGradient_mse hg la' x'
  refine ⟨v, h1, fun j hk ⟨s, hs, hpos⟩ => ?_⟩
  have ok := fitWith_ok hg
  have h3 := h2 j hk
  have hvar : ∀ z, (g.predictVar la' z).getD 0 = max 0 (g.inner.sigma2 *
      krigVar (corrMatrix g.kernel g.theta g.w nugget g.xtData) (meanMat g.mean g.xtData) (rCol g (g.xnorm z))
        (fCol g (g.xnorm z))) := by
    intro z
    rw [Model.predictVar, mse_eq ok, Option.map_some, Option.getD_some]
    split_ifs with hneg
    · exact (max_eq_left hneg.le).symm
    · exact (max_eq_right (not_lt.1 hneg)).symm
  have hpos' : 0 < g.inner.sigma2 * krigVar (corrMatrix g.kernel g.theta g.w nugget g.xtData)
      (meanMat g.mean g.xtData) (rCol g (g.xnorm x')) (fCol g (g.xnorm x')) := by
    have := hvar x'
    rw [hs, Option.getD_some] at this
    by_contra hle
    rw [max_eq_left (not_lt.1 hle)] at this
    linarith
  have hcont := h3.continuousAt
  have hev := hcont.eventually (lt_mem_nhds (a := 0) (by
    simp only [Function.update_eq_self]; exact hpos'))
  refine h3.congr_of_eventuallyEq ?_
  filter_upwards [hev] with t ht
  rw [hvar, max_eq_right ht.le]

/-! ## C78 -/

theorem entry_quad {k m : ℕ} (A : Matrix (Fin k) (Fin m) ℝ) (K : Matrix (Fin k) (Fin k) ℝ) (a b : Fin m) :
    (Aᵀ * K * A) a b = ((Matrix.of fun i (_ : Fin 1) => A i a)ᵀ * K * Matrix.of fun i (_ : Fin 1) => A i b) 0 0 := by
  simp only [Matrix.mul_apply, Matrix.transpose_apply, Matrix.of_apply]

/-- The covariance used for sampling is defined at any points, is the universal kriging covariance, is symmetric,
and the predicted variance of each point is its diagonal (clamped to be non negative). -/
theorem C78_covariance (hg : fitWith la kernel mean nugget theta w x y = some g) (la' : LinAlg) {m : ℕ}
    (xs : Fin m → Fin d → ℝ) :
    ∃ C, g.covariance la' xs = some C ∧ Cᵀ = C ∧
      (∀ a, g.predictVar la' (xs a) = some (max 0 (C a a))) ∧
      ∀ a b, C a b = g.inner.sigma2 * krigCov (corrMatrix kernel theta w nugget g.xtData) (meanMat mean g.xtData)
        (kernel.value theta w (g.xnorm (xs a) - g.xnorm (xs b)))
        (Matrix.of fun i _ => kernel.value theta w (g.xnorm (xs a) - g.xtData i))
        (Matrix.of fun i _ => kernel.value theta w (g.xnorm (xs b) - g.xtData i))
        (Matrix.of fun l _ => (mean.value (g.xnorm (xs a))).getD l 0)
        (Matrix.of fun l _ => (mean.value (g.xnorm (xs b))).getD l 0) := by
  have ok := fitWith_ok hg
  obtain ⟨rt, h1⟩ := la'.solve_total .lower g.inner.rChol
    (Matrix.of fun i (a : Fin m) => g.corr (g.xnorm (xs a)) i) fun i => (ok.inner.diag i).ne'
  obtain ⟨u, h2⟩ := la'.solve_total .lower g.inner.ftQrRᵀ
    (g.inner.ftᵀ * rt - (meanMat g.mean fun a => g.xnorm (xs a))ᵀ) fun i => ok.inner.rdiag i
  have h3 := (la'.solve_spec _ _ _ _ h1).2
  have h4 := (la'.solve_spec _ _ _ _ h2).2
  rw [tri_lower ok.inner.lower] at h3
  rw [tri_lower (l := g.inner.ftQrRᵀ) (fun i j hij => ok.inner.upper j i hij)] at h4
  obtain ⟨e1, e2⟩ := ok.inner.cov_eq h3 h4
  set K : Matrix (Fin m) (Fin m) ℝ := Matrix.of fun a b => g.kernel.value g.theta g.w
    fun j => g.xnorm (xs a) j - g.xnorm (xs b) j with hK
  have hC : g.covariance la' xs = some (g.inner.sigma2 • (K - rtᵀ * rt + uᵀ * u)) := by
    unfold Model.covariance
    show (la'.solve .lower g.inner.rChol (Matrix.of fun i (a : Fin m) => g.corr (g.xnorm (xs a)) i) >>= fun _ => _) = _
    rw [h1]
    show (la'.solve .lower g.inner.ftQrRᵀ (g.inner.ftᵀ * rt - (meanMat g.mean fun a => g.xnorm (xs a))ᵀ) >>=
      fun _ => _) = _
    rw [h2]
    rfl
  have hKs : Kᵀ = K := by
    funext a b
    rw [Matrix.transpose_apply, hK, Matrix.of_apply, Matrix.of_apply]
    refine C40_symmetric _ _ _ _ _ fun l => ?_
    right; ring
  have key : ∀ a b, (g.inner.sigma2 • (K - rtᵀ * rt + uᵀ * u)) a b = g.inner.sigma2 *
      krigCov (corrMatrix g.kernel g.theta g.w nugget g.xtData) (meanMat g.mean g.xtData) (K a b)
        (rCol g (g.xnorm (xs a))) (rCol g (g.xnorm (xs b))) (fCol g (g.xnorm (xs a))) (fCol g (g.xnorm (xs b))) := by
    intro a b
    rw [Matrix.smul_apply, Matrix.add_apply, Matrix.sub_apply, e1, e2, entry_quad, entry_quad, smul_eq_mul, krigCov]
    have hf : ∀ c : Fin m, (Matrix.of fun i (_ : Fin 1) => ((meanMat g.mean fun a => g.xnorm (xs a))ᵀ -
        (meanMat g.mean g.xtData)ᵀ * (corrMatrix g.kernel g.theta g.w nugget g.xtData)⁻¹ *
          Matrix.of fun i (a : Fin m) => g.corr (g.xnorm (xs a)) i) i c) =
        fCol g (g.xnorm (xs c)) - (meanMat g.mean g.xtData)ᵀ *
          (corrMatrix g.kernel g.theta g.w nugget g.xtData)⁻¹ * rCol g (g.xnorm (xs c)) := by
      intro c
      funext i k
      rw [Matrix.of_apply, Matrix.sub_apply, Matrix.sub_apply, Matrix.mul_apply, Matrix.mul_apply (N := rCol _ _)]
      rfl
    rw [hf, hf]
    rfl
  have hK1 : ∀ a, K a a = 1 := by
    intro a
    rw [hK, Matrix.of_apply]
    simp only [sub_self]
    exact C40_at_zero g.kernel g.theta g.w
  refine ⟨_, hC, ?_, ?_, ?_⟩
  · rw [Matrix.transpose_smul, Matrix.transpose_add, Matrix.transpose_sub, hKs, Matrix.transpose_mul,
      Matrix.transpose_mul, Matrix.transpose_transpose, Matrix.transpose_transpose]
  · intro a
    rw [key, hK1, Model.predictVar, mse_eq ok, Option.map_some]
    congr 1
    show (if _ < (0 : ℝ) then (0 : ℝ) else _) = max 0 (g.inner.sigma2 * krigVar _ _ _ _)
    split_ifs with hneg
    · exact (max_eq_left hneg.le).symm
    · exact (max_eq_right (not_lt.1 hneg)).symm
  · intro a b
    rw [key]
    obtain ⟨kernel', mean', theta', w', lk, inner, xd, xm, xs', yd, ym, ys⟩ := g
    obtain rfl : kernel' = kernel := ok.kernel
    obtain rfl : mean' = mean := ok.mean
    obtain rfl : theta' = theta := ok.theta
    obtain rfl : w' = w := ok.w
    rfl

/-- Trajectories drawn with the Cholesky method are the predictions plus a factor of the covariance applied to
independent standard normal draws, so that their covariance is the predicted covariance; this method succeeds when
the covariance is positive definite. -/
theorem C78_sample_cholesky (la : LinAlg) {m t : ℕ} (C : Matrix (Fin m) (Fin m) ℝ) (hC : Cᵀ = C) :
    (C.PosDef → ∃ c, factorChol la C = some c) ∧
      ∀ c, factorChol la C = some c → c * cᵀ = C ∧
        ∀ (μ : Fin m → ℝ) (z : Matrix (Fin m) (Fin t) ℝ) i j, sample μ c z i j = μ i + ∑ l, c i l * z l j := by
  refine ⟨fun h => la.chol_total C h, fun c hc => ⟨(la.chol_spec _ _ hC hc).1, fun μ z i j => ?_⟩⟩
  rw [sample, Matrix.add_apply, Matrix.mul_apply]
  rfl

/-- With the eigenvalues method the covariance of the trajectories is the predicted one up to `1e-9`, for any
positive semidefinite covariance. -/
theorem C78_sample_eigenvalues {m : ℕ} (C w : Matrix (Fin m) (Fin m) ℝ) (v : Fin m → ℝ) (hv : ∀ i, 0 ≤ v i)
    (hw : wᵀ * w = 1) (hC : w * Matrix.diagonal v * wᵀ = C) (z : Fin m → ℝ) :
    let D := C - factorEig v w * (factorEig v w)ᵀ
    0 ≤ z ⬝ᵥ D *ᵥ z ∧ z ⬝ᵥ D *ᵥ z ≤ 1e-9 * (z ⬝ᵥ z) := by
  intro D
  set s : Fin m → ℝ := fun i => if v i < 1e-9 then v i else 0 with hs
  have hsq : ∀ i, (if v i < 1e-9 then 0 else √(v i)) * (if v i < 1e-9 then 0 else √(v i)) = v i - s i := by
    intro i
    by_cases h : v i < 1e-9
    · simp [hs, h]
    · simp only [hs, if_neg h, sub_zero]
      exact Real.mul_self_sqrt (hv i)
  have hD : D = w * Matrix.diagonal s * wᵀ := by
    have e : Matrix.diagonal (fun i => (if v i < 1e-9 then 0 else √(v i))) *
        Matrix.diagonal (fun i => (if v i < 1e-9 then 0 else √(v i))) = Matrix.diagonal v - Matrix.diagonal s := by
      rw [Matrix.diagonal_mul_diagonal, Matrix.diagonal_sub]
      congr 1
      funext i
      exact hsq i
    simp only [D, factorEig, Matrix.transpose_mul, Matrix.diagonal_transpose]
    rw [Matrix.mul_assoc w, ← Matrix.mul_assoc (Matrix.diagonal _) (Matrix.diagonal _), e, ← hC]
    simp only [Matrix.sub_mul, Matrix.mul_sub, Matrix.mul_assoc]
    abel
  set q := wᵀ *ᵥ z with hq
  have h1 : z ⬝ᵥ D *ᵥ z = ∑ i, s i * q i ^ 2 := by
    rw [hD, ← Matrix.mulVec_mulVec, ← Matrix.mulVec_mulVec, Matrix.dotProduct_mulVec, ← hq]
    have : z ᵥ* w = q := by rw [hq, Matrix.mulVec_transpose]
    rw [this]
    simp only [dotProduct, Matrix.mulVec_diagonal]
    exact Finset.sum_congr rfl fun i _ => by ring
  have hw' : w * wᵀ = 1 := mul_eq_one_comm.1 hw
  have h2 : z ⬝ᵥ z = ∑ i, q i ^ 2 := by
    have e : q ⬝ᵥ q = z ⬝ᵥ z := by
      conv_lhs => rw [hq, Matrix.dotProduct_mulVec, Matrix.mulVec_transpose, Matrix.vecMul_vecMul, hw', Matrix.vecMul_one]
    rw [← e]
    simp only [dotProduct]
    exact Finset.sum_congr rfl fun i _ => by ring
  have hs0 : ∀ i, 0 ≤ s i := by
    intro i; simp only [hs]; split_ifs
    · exact hv i
    · exact le_rfl
  have hs1 : ∀ i, s i ≤ 1e-9 := by
    intro i; simp only [hs]; split_ifs with h
    · exact h.le
    · norm_num
  rw [h1, h2, Finset.mul_sum]
  exact ⟨Finset.sum_nonneg fun i _ => mul_nonneg (hs0 i) (sq_nonneg _),
    Finset.sum_le_sum fun i _ => mul_le_mul_of_nonneg_right (hs1 i) (sq_nonneg _)⟩

/-! ## C79 -/

/-- The likelihood of a fit is, up to a scale and a constant, the maximum over trends and variances of the Gaussian
log-likelihood, attained at the retained trend and variance. -/
theorem C79_concentrated_likelihood (hg : fitWith la kernel mean nugget theta w x y = some g)
    (hpos : 0 < g.inner.sigma2) :
    let R := corrMatrix kernel theta w nugget g.xtData
    let F := meanMat mean g.xtData
    let Y : Matrix (Fin n) (Fin 1) ℝ := Matrix.of fun i _ => (y i - g.ytMean) / g.ytStd
    let top := Real.log 10 / 2 * g.likelihood - n / 2 * (Real.log (2 * Real.pi) + 1)
    (∀ β v, 0 < v → gaussLogLik R F Y β v ≤ top) ∧
      gaussLogLik R F Y (krigBeta R F Y) (g.inner.sigma2 / g.ytStd ^ 2) = top := by
  intro R F Y top
  have ok := fitWith_ok hg
  obtain ⟨kernel', mean', theta', w', lk, inner, xd, xm, xs, yd, ym, ys⟩ := g
  obtain rfl : kernel' = kernel := ok.kernel
  obtain rfl : mean' = mean := ok.mean
  obtain rfl : theta' = theta := ok.theta
  obtain rfl : w' = w := ok.w
  have hY : (Matrix.of fun i (_ : Fin 1) => yd i) = Y := by
    funext i j
    exact ok.ydata i
  have hin := ok.inner
  simp only [hY] at hin
  change InnerOk R F Y ys inner at hin
  have hys : 0 < ys := ok.ystd
  obtain ⟨s, hs1, hs2⟩ := ok.lik
  simp only at hs1 hs2 hpos
  have hn : (0 : ℝ) < n := by
    have := ok.two
    exact_mod_cast (by omega : 0 < n)
  have hsig := hin.sigma_eq
  have hsk : s = krigSigma2 R F Y := by
    rw [hs1] at hsig
    exact mul_right_cancel₀ hys.ne' (mul_right_cancel₀ hys.ne' hsig)
  have hspos : 0 < s := by
    rw [hs1] at hpos
    by_contra hle
    have : s * ys * ys ≤ 0 := by nlinarith [mul_pos hys hys]
    linarith
  have hvs : inner.sigma2 / ys ^ 2 = s := by
    rw [hs1]; field_simp
  -- quadratic form
  set Q : Matrix (Fin (basis mean' d)) (Fin 1) ℝ → ℝ := fun β => ((Y - F * β)ᵀ * R⁻¹ * (Y - F * β)) 0 0 with hQ
  have hQs : Q (krigBeta R F Y) = n * s := by
    rw [hsk, krigSigma2]; field_simp; rfl
  have hQmin : ∀ β, n * s ≤ Q β := by
    intro β
    rw [← hQs]
    have hb := hin.beta_eq
    rw [← hb]
    have hnorm : Fᵀ * (R⁻¹ * (Y - F * inner.beta)) = 0 := by
      rw [← hin.gamma_eq]; exact hin.normal
    have hnorm' : (Y - F * inner.beta)ᵀ * R⁻¹ * F = 0 := by
      have := congrArg Matrix.transpose hnorm
      rw [Matrix.transpose_mul, Matrix.transpose_mul, hin.inv_symm, Matrix.transpose_transpose,
        Matrix.transpose_zero] at this
      exact this
    set e := F * (inner.beta - β) with he
    have hsplit : Y - F * β = (Y - F * inner.beta) + e := by
      rw [he, Matrix.mul_sub]; abel
    have h1 : Q β = Q inner.beta + (eᵀ * R⁻¹ * e) 0 0 := by
      simp only [hQ]
      rw [hsplit, Matrix.transpose_add, Matrix.add_mul, Matrix.add_mul, Matrix.mul_add, Matrix.mul_add]
      have z1 : (Y - F * inner.beta)ᵀ * R⁻¹ * e = 0 := by
        rw [he, ← Matrix.mul_assoc, hnorm', Matrix.zero_mul]
      have z2 : eᵀ * R⁻¹ * (Y - F * inner.beta) = 0 := by
        rw [he, Matrix.transpose_mul, Matrix.mul_assoc, Matrix.mul_assoc, hnorm, Matrix.mul_zero]
      rw [z1, z2, add_zero, zero_add, Matrix.add_apply]
    have h2 : 0 ≤ (eᵀ * R⁻¹ * e) 0 0 := by
      have : eᵀ * R⁻¹ * e = (inner.rChol⁻¹ * e)ᵀ * (inner.rChol⁻¹ * e) := by
        clear_value e
        rw [hin.inv_eq, Matrix.transpose_mul, Matrix.transpose_nonsing_inv]
        simp only [Matrix.mul_assoc]
      rw [this, ← dot_eq]
      exact Finset.sum_nonneg fun i _ => mul_self_nonneg _
    linarith
  -- determinant
  have hdet : Real.log R.det = 2 * ∑ i, Real.log (inner.rChol i i) := by
    rw [← hin.hR, Matrix.det_mul, Matrix.det_transpose, Matrix.det_of_isLowerTriangular]
    · rw [Real.log_mul, Real.log_prod]
      · ring
      · intro i _; exact (hin.diag i).ne'
      · exact Finset.prod_ne_zero_iff.2 fun i _ => (hin.diag i).ne'
      · exact Finset.prod_ne_zero_iff.2 fun i _ => (hin.diag i).ne'
    · intro i j hij
      exact hin.lower i j hij
  have hl10 : Real.log 10 ≠ 0 := (Real.log_pos (by norm_num)).ne'
  have htop : top = -(n * Real.log s + Real.log R.det + n * Real.log (2 * Real.pi) + n) / 2 := by
    simp only [top]
    rw [hs2, hdet]
    rw [← Finset.sum_div]
    field_simp
    ring
  have h2pi : (0 : ℝ) < 2 * Real.pi := by positivity
  constructor
  · intro β v hv
    rw [htop]
    have h1 := hQmin β
    have h2 : Real.log (s / v) ≤ s / v - 1 := Real.log_le_sub_one_of_pos (div_pos hspos hv)
    rw [Real.log_div hspos.ne' hv.ne'] at h2
    have h3 : n * s / v ≤ Q β / v := by gcongr
    have h4 : gaussLogLik R F Y β v = -(n * (Real.log (2 * Real.pi) + Real.log v) + Real.log R.det + Q β / v) / 2 := by
      rw [gaussLogLik, Real.log_mul h2pi.ne' hv.ne']
    rw [h4]
    have h5 : (n : ℝ) * (Real.log s - Real.log v) ≤ n * (s / v - 1) := mul_le_mul_of_nonneg_left h2 hn.le
    have h6 : (n : ℝ) * (s / v - 1) = n * s / v - n := by ring
    linarith
  · show gaussLogLik R F Y (krigBeta R F Y) (inner.sigma2 / ys ^ 2) = top
    rw [htop, hvs, gaussLogLik, Real.log_mul h2pi.ne' hspos.ne']
    have h1 : ((Y - F * krigBeta R F Y)ᵀ * R⁻¹ * (Y - F * krigBeta R F Y)) 0 0 = n * s := hQs
    rw [h1, mul_div_assoc, div_self hspos.ne']
    ring

/-! ## A fit which succeeds -/

theorem fit_succeeds (kernel : Kernel) (mean : Mean) (nugget : ℝ) (theta : Fin h → ℝ) (w : Fin d → Fin h → ℝ)
    (x : Fin n → Fin d → ℝ) (y : Fin n → ℝ) (hn : 2 ≤ n)
    (hR : (corrMatrix kernel theta w nugget fun i j =>
      (x i j - GpUtils.colMean fun i => x i j) / stdOf fun i => x i j).PosDef)
    (hF : Function.Injective (meanMat mean fun i j =>
      (x i j - GpUtils.colMean fun i => x i j) / stdOf fun i => x i j).mulVec) :
    ∃ g, fitWith exact kernel mean nugget theta w x y = some g := by
  obtain ⟨N, c, hc, _⟩ := C44_table (fun i j => (x i j - GpUtils.colMean fun i => x i j) / stdOf fun i => x i j)
    (by omega)
  simp only [fitWith, if_neg (not_lt.2 hn), hc]
  rw [rMx_eq _ _ _ _ _ _ _ hc]
  set R := corrMatrix kernel theta w nugget fun i j =>
      (x i j - GpUtils.colMean fun i => x i j) / stdOf fun i => x i j
  set F := meanMat mean fun i j =>
      (x i j - GpUtils.colMean fun i => x i j) / stdOf fun i => x i j
  obtain ⟨l, hl⟩ := exact.chol_total R hR
  obtain ⟨h1, h2, h3⟩ := exact.chol_spec _ _ (corrMatrix_symm _ _ _ _ _) hl
  have hu : IsUnit l.det := isUnit_det_lower h2 fun i => (h3 i).ne'
  obtain ⟨ft, hft⟩ := exact.solve_total .lower l F fun i => (h3 i).ne'
  have h4 := (exact.solve_spec _ _ _ _ hft).2
  rw [tri_lower h2] at h4
  have hftinj : Function.Injective ft.mulVec := by
    intro a b hab
    refine hF ?_
    rw [← h4, ← Matrix.mulVec_mulVec, ← Matrix.mulVec_mulVec]
    exact congrArg _ hab
  obtain ⟨q, r, hqr, hrd⟩ := exact_qr ft hftinj
  obtain ⟨yt, hyt⟩ := exact.solve_total .lower l (fun i (_ : Fin 1) => (y i - GpUtils.colMean y) / stdOf y)
    fun i => (h3 i).ne'
  obtain ⟨beta, hbeta⟩ := exact.solve_total .upper r (qᵀ * yt) hrd
  obtain ⟨gamma, hgamma⟩ := exact.solve_total .upper lᵀ (yt - ft * beta) fun i => (h3 i).ne'
  have : ∃ lp, reducedLikelihood exact F R (fun i (_ : Fin 1) => (y i - GpUtils.colMean y) / stdOf y) (stdOf y) =
      some lp := by
    unfold reducedLikelihood
    rw [hl]
    show ∃ lp, (exact.solve .lower l F >>= fun _ => _) = some lp
    rw [hft]
    show ∃ lp, (exact.qr ft >>= fun _ => _) = some lp
    rw [hqr]
    simp only [Option.bind_eq_bind, Option.bind_some]
    rw [if_neg (by simp [exact])]
    show ∃ lp, (exact.solve .lower l _ >>= fun _ => _) = some lp
    rw [hyt]
    show ∃ lp, (exact.solve .upper r (qᵀ * yt) >>= fun _ => _) = some lp
    rw [hbeta]
    show ∃ lp, (exact.solve .upper lᵀ (yt - ft * beta) >>= fun _ => _) = some lp
    rw [hgamma]
    exact ⟨_, rfl⟩
  obtain ⟨lp, hlp⟩ := this
  exact ⟨⟨kernel, mean, theta, w, lp.1, lp.2, _, _, _, _, _, _⟩, by rw [hlp]; rfl⟩

theorem posDef_two (k : ℝ) (hk : |k| < 1) (R : Matrix (Fin 2) (Fin 2) ℝ) (h00 : R 0 0 = 1) (h11 : R 1 1 = 1)
    (h01 : R 0 1 = k) (h10 : R 1 0 = k) : R.PosDef := by
  refine Matrix.PosDef.of_dotProduct_mulVec_pos ?_ ?_
  · ext i j
    fin_cases i <;> fin_cases j <;> simp [Matrix.conjTranspose_apply, h01, h10]
  · intro v hv
    have hv' : v 0 ≠ 0 ∨ v 1 ≠ 0 := by
      by_contra hc
      push Not at hc
      apply hv
      funext i
      fin_cases i
      · exact hc.1
      · exact hc.2
    simp only [dotProduct, Matrix.mulVec, Fin.sum_univ_two, h00, h11, h01, h10, Pi.star_apply, star_trivial]
    have h1 := abs_lt.1 hk
    have h2 : 0 < v 0 ^ 2 + v 1 ^ 2 := by
      rcases hv' with h0 | h0
      · have := sq_pos_of_ne_zero h0 |>.trans_le (le_add_of_nonneg_right (sq_nonneg (v 1)))
        exact this
      · have := sq_pos_of_ne_zero h0 |>.trans_le (le_add_of_nonneg_left (sq_nonneg (v 0)))
        exact this
    have h3 := mul_nonneg (by linarith : 0 ≤ 1 + k) (sq_nonneg (v 0 + v 1))
    have h4 := mul_nonneg (by linarith : 0 ≤ 1 - k) (sq_nonneg (v 0 - v 1))
    have h5 : 0 < (1 + k) * (v 0 + v 1) ^ 2 + (1 - k) * (v 0 - v 1) ^ 2 := by
      rcases h3.lt_or_eq with h | h
      · linarith
      · rcases h4.lt_or_eq with h' | h'
        · linarith
        · exfalso
          have e1 : (v 0 + v 1) ^ 2 = 0 := by
            rcases mul_eq_zero.1 h.symm with h | h
            · linarith
            · exact h
          have e2 : (v 0 - v 1) ^ 2 = 0 := by
            rcases mul_eq_zero.1 h'.symm with h | h
            · linarith
            · exact h
          nlinarith
    nlinarith

/-- Two points in dimension one, squared exponential kernel, constant mean: the fit succeeds whatever the outputs
and the (positive) hyperparameter. -/
theorem fit_two_points (θ : ℝ) (hθ : 0 < θ) (y : Fin 2 → ℝ) :
    ∃ g, fitWith exact .squaredExponential .constant 0 (fun _ : Fin 1 => θ) (fun (_ : Fin 1) (_ : Fin 1) => 1)
      (fun (i : Fin 2) (_ : Fin 1) => (i : ℝ)) y = some g := by
  refine fit_succeeds _ _ _ _ _ _ _ le_rfl ?_ ?_
  · set xd : Fin 2 → Fin 1 → ℝ := fun i j => (((i : ℕ) : ℝ) - GpUtils.colMean fun i : Fin 2 => ((i : ℕ) : ℝ)) /
      stdOf fun i : Fin 2 => ((i : ℕ) : ℝ)
    have hs : stdOf (fun i : Fin 2 => ((i : ℕ) : ℝ)) ≠ 0 := (stdOf_pos _).ne'
    have hlt : ∀ v : Fin 1 → ℝ, v 0 ≠ 0 → |Kernel.squaredExponential.value (fun _ : Fin 1 => θ)
        (fun (_ : Fin 1) (_ : Fin 1) => 1) v| < 1 := by
      intro v hv
      simp only [Kernel.value, seValue, Finset.univ_unique, Finset.sum_singleton, mul_one]
      rw [abs_of_pos (Real.exp_pos _), Real.exp_lt_one_iff]
      have h1 : 0 < v default ^ 2 := by
        have : v default ≠ 0 := hv
        positivity
      have h2 : 0 < v default ^ 2 * θ ^ 2 := by positivity
      linarith
    have hd : (xd 0 - xd 1) 0 ≠ 0 := by
      simp only [xd, Pi.sub_apply]
      rw [← sub_div]
      refine div_ne_zero ?_ hs
      simp only [Fin.val_zero, Fin.val_one, Nat.cast_zero, Nat.cast_one]
      intro hc
      linarith
    refine posDef_two (Kernel.squaredExponential.value (fun _ : Fin 1 => θ)
        (fun (_ : Fin 1) (_ : Fin 1) => 1) (xd 0 - xd 1)) (hlt _ hd) _ ?_ ?_ ?_ ?_
    · simp [corrMatrix]
    · simp [corrMatrix]
    · rw [corrMatrix, Matrix.of_apply, if_neg (by decide)]
    · rw [corrMatrix, Matrix.of_apply, if_neg (by decide)]
      refine C40_symmetric _ _ _ _ _ fun l => ?_
      right; simp [xd]
  · intro a b hab
    have h0 := congrFun hab 0
    funext i
    have hi : i = (0 : Fin 1) := Subsingleton.elim (α := Fin 1) _ _
    subst hi
    simp only [Matrix.mulVec, dotProduct, meanMat, Mean.value, constValue] at h0
    have e : ∀ c : Fin (basis Mean.constant 1) → ℝ, ∑ i, c i = c (0 : Fin 1) := fun c => Fin.sum_univ_one c
    simp only [e] at h0
    simpa using h0

/-- The per-component derivative is not the derivative of the prediction: two points in dimension one, outputs which
differ, hyperparameter different from 2, at the middle of the two points. -/
theorem C47_refuted_kth (θ : ℝ) (hθ : 0 < θ) (hθ2 : θ ≠ 2) (y : Fin 2 → ℝ) (hy : y 0 ≠ y 1) :
    ∃ (g : Model 2 1 1) (c : ℝ),
      fitWith exact .squaredExponential .constant 0 (fun _ : Fin 1 => θ) (fun i j => if i = j then 1 else 0)
        (fun (i : Fin 2) (_ : Fin 1) => (i : ℝ)) y = some g ∧
      g.predictKth (fun _ => 1 / 2) 0 = some c ∧
      ¬ HasDerivAt (fun t => g.predict (Function.update (fun _ => 1 / 2) 0 t)) c (1 / 2) := by
  obtain ⟨g, hg⟩ := fit_two_points θ hθ y
  have hw : (fun (i j : Fin 1) => if i = j then (1 : ℝ) else 0) = fun _ _ => 1 := by
    funext i j
    rw [if_pos (Subsingleton.elim _ _)]
  rw [← hw] at hg
  obtain ⟨v, c, h1, h2, h3⟩ := C47_kth_iff hg (fun _ => 1 / 2) 0
  obtain ⟨v', h4, h5⟩ := C47_gradient_partial hg (fun _ => 1 / 2)
  rw [h1] at h4
  simp only [Option.some.injEq] at h4
  subst h4
  refine ⟨g, c, hg, h2, fun hd => ?_⟩
  have h6 := h5 0 (by intro h; cases h)
  have h7 : c = v 0 := hd.unique h6
  have ok := fitWith_ok hg
  rcases h3.1 h7 with h | h | h
  · exact hθ.ne' h
  · exact hθ2 h
  · -- the weights are opposite
    rw [Fin.sum_univ_two] at h
    have hs := ok.xstd 0
    have hm : g.xtMean 0 = 1 / 2 := by
      rw [ok.xmean]
      simp [GpUtils.colMean, Fin.sum_univ_two]
    have hx0 : g.xtData 0 0 = -(1 / 2) / g.xtStd 0 := by
      rw [ok.xdata, hm]; norm_num
    have hx1 : g.xtData 1 0 = (1 / 2) / g.xtStd 0 := by
      rw [ok.xdata, hm]; norm_num
    have hxn : g.xnorm (fun _ => 1 / 2) 0 = 0 := by
      simp only [Model.xnorm]
      rw [hm]; norm_num
    have hc : g.corr (g.xnorm fun _ => 1 / 2) 0 = g.corr (g.xnorm fun _ => 1 / 2) 1 := by
      unfold Model.corr
      refine C40_symmetric _ _ _ _ _ fun l => ?_
      have hl : l = 0 := Subsingleton.elim (α := Fin 1) _ _
      subst hl
      right
      rw [hxn, hx0, hx1]; ring
    have hcp : 0 < g.corr (g.xnorm fun _ => 1 / 2) 1 := by
      unfold Model.corr
      rw [ok.kernel]
      exact Real.exp_pos _
    rw [hxn, hx0, hx1, hc] at h
    have h8 : g.inner.gamma 0 0 = g.inner.gamma 1 0 := by
      have : (1 / 2) / g.xtStd 0 * g.corr (g.xnorm fun _ => 1 / 2) 1 * (g.inner.gamma 0 0 - g.inner.gamma 1 0) = 0 := by
        rw [← h]; ring
      have hne : (1 / 2) / g.xtStd 0 * g.corr (g.xnorm fun _ => 1 / 2) 1 ≠ 0 := by positivity
      have := (mul_eq_zero.1 this).resolve_left hne
      linarith
    have hmean := ok.mean
    obtain ⟨kernel', mean', theta', w', lk, inner, xd, xm, xs, yd, ym, ys⟩ := g
    simp only at hmean h8
    subst hmean
    have h9 : ∀ a : Fin (basis .constant 1), ((meanMat Mean.constant xd)ᵀ * inner.gamma) a 0 = 0 :=
      fun a => congrFun (congrFun ok.inner.normal a) 0
    have h10 : inner.gamma 0 0 + inner.gamma 1 0 = 0 := by
      have e : ∀ a : Fin (basis .constant 1), ((meanMat Mean.constant xd)ᵀ * inner.gamma) a 0 =
          inner.gamma 0 0 + inner.gamma 1 0 := by
        intro a
        have ha : a.val = 0 := Nat.lt_one_iff.1 a.2
        rw [Matrix.mul_apply, Fin.sum_univ_two]
        simp [Matrix.transpose_apply, meanMat, Mean.value, constValue, ha]
      rw [← e (0 : Fin 1)]
      exact h9 _
    have h11 : inner.gamma 0 0 = 0 := by linarith
    have h12 : inner.gamma 1 0 = 0 := by linarith
    have p0 := C45_interpolation hg 0
    have p1 := C45_interpolation hg 1
    simp only [Model.predict, Fin.sum_univ_two, h11, h12, mul_zero, add_zero] at p0 p1
    apply hy
    rw [← p0, ← p1]
    rfl

example : ∃ g, fitWith exact .squaredExponential .constant 0 (fun _ : Fin 1 => 1) (fun (_ : Fin 1) (_ : Fin 1) => 1)
    (fun (i : Fin 2) (_ : Fin 1) => (i : ℝ)) ![3, 5] = some g ∧ g.predict (fun _ => 1) = 5 := by
  obtain ⟨g, hg⟩ := fit_two_points 1 one_pos ![3, 5]
  refine ⟨g, hg, ?_⟩
  have := C45_interpolation hg 1
  simpa using this

/-- The retained variance is positive unless the trend goes through all the data. -/
theorem sigma2_pos (hg : fitWith la kernel mean nugget theta w x y = some g)
    (hne : (Matrix.of fun i (_ : Fin 1) => g.ytData i) ≠ meanMat g.mean g.xtData * g.inner.beta) :
    0 < g.inner.sigma2 := by
  have ok := fitWith_ok hg
  have hin := ok.inner
  have hn : (0 : ℝ) < n := by
    have := ok.two
    exact_mod_cast (by omega : 0 < n)
  have h1 : ((Matrix.of fun i (_ : Fin 1) => g.ytData i) - meanMat g.mean g.xtData * g.inner.beta)ᵀ * g.inner.gamma =
      (g.inner.rCholᵀ * g.inner.gamma)ᵀ * (g.inner.rCholᵀ * g.inner.gamma) := by
    rw [← hin.hgamma, ← hin.hR, Matrix.transpose_mul, Matrix.transpose_mul, Matrix.transpose_mul,
      Matrix.transpose_transpose]
    simp only [Matrix.mul_assoc]
  have h2 := hin.hsigma
  rw [h1, ← dot_eq] at h2
  rw [h2]
  have hys := ok.ystd
  have h3 : 0 < ∑ i, (g.inner.rCholᵀ * g.inner.gamma) i 0 * (g.inner.rCholᵀ * g.inner.gamma) i 0 := by
    refine lt_of_le_of_ne (Finset.sum_nonneg fun i _ => mul_self_nonneg _) fun h0 => hne ?_
    have h4 := (Finset.sum_eq_zero_iff_of_nonneg fun i _ => mul_self_nonneg _).1 h0.symm
    have h5 : g.inner.rCholᵀ * g.inner.gamma = 0 := by
      funext i j
      rw [Subsingleton.elim j 0]
      exact mul_self_eq_zero.1 (h4 i (Finset.mem_univ _))
    have h6 := hin.hgamma
    rw [← hin.hR, Matrix.mul_assoc, h5, Matrix.mul_zero] at h6
    exact (sub_eq_zero.1 h6.symm)
  positivity

example : ∃ g, fitWith exact .squaredExponential .constant 0 (fun _ : Fin 1 => 1) (fun (_ : Fin 1) (_ : Fin 1) => 1)
    (fun (i : Fin 2) (_ : Fin 1) => (i : ℝ)) ![3, 5] = some g ∧ 0 < g.inner.sigma2 := by
  obtain ⟨g, hg⟩ := fit_two_points 1 one_pos ![3, 5]
  refine ⟨g, hg, sigma2_pos hg fun h => ?_⟩
  have ok := fitWith_ok hg
  have hmean := ok.mean
  have hys := ok.ystd
  have h0 := congrFun (congrFun h 0) 0
  have h1 := congrFun (congrFun h 1) 0
  have e : (meanMat g.mean g.xtData * g.inner.beta) 0 0 = (meanMat g.mean g.xtData * g.inner.beta) 1 0 := by
    rw [Matrix.mul_apply, Matrix.mul_apply]
    refine Finset.sum_congr rfl fun a _ => ?_
    congr 1
    simp only [meanMat, hmean, Mean.value, constValue]
  rw [← e, ← h0] at h1
  simp only [Matrix.of_apply] at h1
  rw [ok.ydata, ok.ydata, div_left_inj' hys.ne'] at h1
  norm_num at h1

end Verif.Props
