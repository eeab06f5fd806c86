import Verif.Model.GpBlas
import Verif.Props.Gp

/-!
# C77: predictions of the `blas` build
-/

set_option autoImplicit false

namespace Verif.Props

open Verif.Gp Verif.Kernels Verif.Means Verif.Spec Matrix

variable {n d h : ℕ} {la : LinAlg} {kernel : Kernel} {mean : Mean} {nugget : ℝ} {theta : Fin h → ℝ}
  {w : Fin d → Fin h → ℝ} {x : Fin n → Fin d → ℝ} {y : Fin n → ℝ} {g : Model n d h}

/-- The diagonal is what a solver reading the wrong triangle of a triangular matrix sees. -/
theorem tri_upper_transpose {p : ℕ} {u : Matrix (Fin p) (Fin p) ℝ} (hu : ∀ i j, j < i → u i j = 0) :
    tri .upper uᵀ = Matrix.diagonal fun i => u i i := by
  funext i j
  simp only [tri, Matrix.diagonal_apply, Matrix.transpose_apply]
  rcases lt_trichotomy i j with hij | hij | hij
  · rw [if_pos hij.le, if_neg hij.ne, hu j i hij]
  · subst hij; simp
  · rw [if_neg (not_le.2 hij), if_neg hij.ne']

/-- What the `blas` build computes instead of the two triangular solves. -/
theorem rtUBlas_total (ok : FitOk kernel mean nugget theta w x y g) (la : LinAlg) (xn : Fin d → ℝ) :
    ∃ rt u, g.rtUBlas la xn = some (rt, u) ∧ g.inner.rChol * rt = rCol g xn ∧
      ∀ a, g.inner.ftQrR a a * u a 0 = (g.inner.ftᵀ * rt - fCol g xn) a 0 := by
  obtain ⟨rt, h1⟩ := la.solve_total .lower g.inner.rChol (rCol g xn) fun i => (ok.inner.diag i).ne'
  obtain ⟨u, h2⟩ := la.solve_total .upper g.inner.ftQrRᵀ (g.inner.ftᵀ * rt - fCol g xn) fun i => ok.inner.rdiag i
  have h3 := (la.solve_spec _ _ _ _ h1).2
  have h4 := (la.solve_spec _ _ _ _ h2).2
  rw [tri_lower ok.inner.lower] at h3
  rw [tri_upper_transpose ok.inner.upper] at h4
  refine ⟨rt, u, ?_, h3, fun a => ?_⟩
  · unfold Model.rtUBlas
    have e1 : la.solve .lower g.inner.rChol (fun i (_ : Fin 1) => g.corr xn i) = some rt := h1
    rw [e1]
    show (do
      let u ← la.solve .upper g.inner.ftQrRᵀ (g.inner.ftᵀ * rt - fCol g xn)
      some (rt, u)) = _
    rw [h2]
    rfl
  · rw [← h4, Matrix.diagonal_mul]

theorem ft_rt (ok : FitOk kernel mean nugget theta w x y g) {m : ℕ} {rt r : Matrix (Fin n) (Fin m) ℝ}
    (h : g.inner.rChol * rt = r) :
    g.inner.ftᵀ * rt = (meanMat g.mean g.xtData)ᵀ * (corrMatrix g.kernel g.theta g.w nugget g.xtData)⁻¹ * r := by
  have hrt : rt = g.inner.rChol⁻¹ * r := by
    rw [← h, ← Matrix.mul_assoc, Matrix.nonsing_inv_mul _ ok.inner.unitL, Matrix.one_mul]
  rw [hrt, ok.inner.ft_eq, ok.inner.inv_eq, Matrix.transpose_mul, Matrix.transpose_nonsing_inv]
  simp only [Matrix.mul_assoc]

theorem rt_rt (ok : FitOk kernel mean nugget theta w x y g) {m : ℕ} {rt r : Matrix (Fin n) (Fin m) ℝ}
    (h : g.inner.rChol * rt = r) :
    rtᵀ * rt = rᵀ * (corrMatrix g.kernel g.theta g.w nugget g.xtData)⁻¹ * r := by
  have hrt : rt = g.inner.rChol⁻¹ * r := by
    rw [← h, ← Matrix.mul_assoc, Matrix.nonsing_inv_mul _ ok.inner.unitL, Matrix.one_mul]
  rw [hrt, ok.inner.inv_eq, Matrix.transpose_mul, Matrix.transpose_nonsing_inv]
  simp only [Matrix.mul_assoc]

/-- With the `blas` feature the term of the variance which comes from the trend only uses the diagonal of the
triangular factor. -/
theorem C77_variance_terms (hg : fitWith la kernel mean nugget theta w x y = some g) (la' : LinAlg)
    (x' : Fin d → ℝ) :
    let R := corrMatrix g.kernel g.theta g.w nugget g.xtData
    let F := meanMat g.mean g.xtData
    let r := rCol g (g.xnorm x')
    let v := fCol g (g.xnorm x') - Fᵀ * R⁻¹ * r
    g.predictVarBlas la' x' = some (max 0 (g.inner.sigma2 *
      (1 - (rᵀ * R⁻¹ * r) 0 0 + ∑ a, (v a 0 / g.inner.ftQrR a a) ^ 2))) ∧
    (∃ u : Matrix _ (Fin 1) ℝ, g.inner.ftQrRᵀ * u = v ∧ g.predictVar la' x' = some (max 0 (g.inner.sigma2 *
      (1 - (rᵀ * R⁻¹ * r) 0 0 + ∑ a, u a 0 ^ 2)))) := by
  intro R F r v
  have ok := fitWith_ok hg
  have clamp : ∀ z : ℝ, (if z < 0 then 0 else z) = max 0 z := by
    intro z
    split_ifs with hneg
    · exact (max_eq_left hneg.le).symm
    · exact (max_eq_right (not_lt.1 hneg)).symm
  constructor
  · obtain ⟨rt, u, h1, h2, h3⟩ := rtUBlas_total ok la' (g.xnorm x')
    rw [Model.predictVarBlas, h1, Option.map_some]
    simp only [clamp]
    rw [dot_eq, rt_rt ok h2]
    refine congrArg (fun s => some (max 0 (g.inner.sigma2 * (1 - _ + s)))) ?_
    refine Finset.sum_congr rfl fun a _ => ?_
    have h4 := h3 a
    rw [ft_rt ok h2] at h4
    have h5 : u a 0 = -(v a 0 / g.inner.ftQrR a a) := by
      have h6 : v a 0 = -(g.inner.ftQrR a a * u a 0) := by
        rw [h4]; simp only [v, Matrix.sub_apply]; ring
      rw [h6, neg_div, neg_neg, mul_div_cancel_left₀ _ (ok.inner.rdiag a)]
    rw [h5]; ring
  · obtain ⟨rt, u, h1, h2, h3⟩ := rtU_total ok la' (g.xnorm x')
    refine ⟨-u, ?_, ?_⟩
    · rw [Matrix.mul_neg, h3, ft_rt ok h2, neg_sub]
    · rw [Model.predictVar, Model.mse, h1, Option.map_some, Option.map_some, clamp, dot_eq, rt_rt ok h2]
      refine congrArg (fun s => some (max 0 (g.inner.sigma2 * (1 - _ + s)))) ?_
      refine Finset.sum_congr rfl fun a _ => ?_
      rw [Matrix.neg_apply]; ring

/-! ## Gradients -/

/-- What the two gradients are made of. -/
theorem gradients_total (hg : fitWith la kernel mean nugget theta w x y = some g) (la' : LinAlg) (x' : Fin d → ℝ) :
    let R := corrMatrix g.kernel g.theta g.w nugget g.xtData
    let F := meanMat g.mean g.xtData
    let r := rCol g (g.xnorm x')
    let dr : Matrix (Fin n) (Fin d) ℝ := g.kernel.jacobian (g.xnorm x') g.xtData g.theta g.w
    ∃ (J : Jac d) (rho3 : Matrix (Fin (basis g.mean d)) (Fin (basis g.mean d)) ℝ),
      g.mean.jacobian (g.xnorm x') = .ok J ∧
      rho3 * rho3ᵀ = Fᵀ * R⁻¹ * F ∧ (∀ i j, i < j → rho3 i j = 0) ∧ (∀ i, 0 < rho3 i i) ∧
      (∃ D : Matrix _ (Fin 1) ℝ, rho3 * (rho3ᵀ * D) = fCol g (g.xnorm x') - Fᵀ * R⁻¹ * r ∧
        g.predictVarGradient la' x' = some fun j => 2 * ((Dᵀ * ((Matrix.of fun (a : Fin (basis g.mean d)) (j : Fin d) => J.at_ a j)ᵀ -
          drᵀ * (R⁻¹ * F))ᵀ) 0 j - ((R⁻¹ * r)ᵀ * dr) 0 j) / g.xtStd j * g.inner.sigma2) ∧
      ∀ uplo, ∃ D : Matrix _ (Fin 1) ℝ, tri uplo rho3 * (rho3ᵀ * D) = fCol g x' - Fᵀ * R⁻¹ * r ∧
        g.predictVarGradientBlasWith uplo la' x' = some fun j => 2 * ((Dᵀ * ((Matrix.of fun (a : Fin (basis g.mean d)) (j : Fin d) => J.at_ a j)ᵀ -
          drᵀ * (R⁻¹ * F))ᵀ) 0 j - ((R⁻¹ * r)ᵀ * dr) 0 j) / g.xtStd j * g.inner.sigma2 := by
  intro R F r dr
  have ok := fitWith_ok hg
  obtain ⟨J, hJ, _, _⟩ := C42_jacobian g.mean (g.xnorm x')
  have hin := ok.inner
  have hld : ∀ i, g.inner.rChol i i ≠ 0 := fun i => (hin.diag i).ne'
  have hltd : ∀ i, g.inner.rCholᵀ i i ≠ 0 := hld
  obtain ⟨rho1, s1⟩ := la'.solve_total .lower g.inner.rChol r hld
  obtain ⟨invKr, s2⟩ := la'.solve_total .upper g.inner.rCholᵀ rho1 hltd
  obtain ⟨rho2, s3⟩ := la'.solve_total .lower g.inner.rChol F hld
  obtain ⟨invKf, s4⟩ := la'.solve_total .upper g.inner.rCholᵀ rho2 hltd
  have t1 := (la'.solve_spec _ _ _ _ s1).2
  have t2 := (la'.solve_spec _ _ _ _ s2).2
  have t3 := (la'.solve_spec _ _ _ _ s3).2
  have t4 := (la'.solve_spec _ _ _ _ s4).2
  rw [tri_lower hin.lower] at t1 t3
  rw [tri_upper (u := g.inner.rCholᵀ) (fun i j hij => hin.lower j i hij)] at t2 t4
  have hinv : ∀ {k : ℕ} (a b : Matrix (Fin n) (Fin k) ℝ), g.inner.rChol * (g.inner.rCholᵀ * a) = b → a = R⁻¹ * b := by
    intro k a b hab
    rw [← Matrix.mul_assoc, hin.hR] at hab
    rw [← hab, ← Matrix.mul_assoc, Matrix.nonsing_inv_mul _ hin.unitR, Matrix.one_mul]
  have hKr : invKr = R⁻¹ * r := hinv _ _ (by rw [t2, t1])
  have hKf : invKf = R⁻¹ * F := hinv _ _ (by rw [t4, t3])
  have hB2 : Fᵀ * invKf = Fᵀ * R⁻¹ * F := by rw [hKf, Matrix.mul_assoc]
  have hBs : (Fᵀ * invKf)ᵀ = Fᵀ * invKf := by
    rw [hB2, hin.gram_eq, Matrix.transpose_mul, Matrix.transpose_transpose]
  have hBpd : (Fᵀ * invKf).PosDef := by
    rw [hB2, hin.gram_eq, ← Matrix.conjTranspose_eq_transpose_of_trivial]
    exact Matrix.PosDef.conjTranspose_mul_self _
      (Matrix.mulVec_injective_of_isUnit ((Matrix.isUnit_iff_isUnit_det _).2 hin.unitQ))
  obtain ⟨rho3, s5⟩ := la'.chol_total _ hBpd
  obtain ⟨c1, c2, c3⟩ := la'.chol_spec _ _ hBs s5
  have hat : ∀ f : Matrix (Fin (basis g.mean d)) (Fin 1) ℝ, (fᵀ - rᵀ * invKf)ᵀ = f - Fᵀ * R⁻¹ * r := by
    intro f
    rw [Matrix.transpose_sub, Matrix.transpose_transpose, Matrix.transpose_mul, Matrix.transpose_transpose, hKf,
      Matrix.transpose_mul, hin.inv_symm]
  refine ⟨J, rho3, hJ, by rw [c1, hB2], c2, c3, ?_, fun uplo => ?_⟩
  · obtain ⟨invBat, s6⟩ := la'.solve_total .lower rho3 ((fCol g (g.xnorm x'))ᵀ - rᵀ * invKf)ᵀ fun i => (c3 i).ne'
    obtain ⟨dMat, s7⟩ := la'.solve_total .upper rho3ᵀ invBat fun i => (c3 i).ne'
    have t6 := (la'.solve_spec _ _ _ _ s6).2
    have t7 := (la'.solve_spec _ _ _ _ s7).2
    rw [tri_lower c2] at t6
    rw [tri_upper (u := rho3ᵀ) (fun i j hij => c2 j i hij)] at t7
    refine ⟨dMat, by rw [t7, t6, hat], ?_⟩
    unfold Model.predictVarGradient
    simp only [C41_valjac]
    show (la'.solve .lower g.inner.rChol r >>= fun rho1 => _) = _
    rw [s1]
    show (la'.solve .upper g.inner.rCholᵀ rho1 >>= fun _ => _) = _
    rw [s2]
    show (la'.solve .lower g.inner.rChol F >>= fun _ => _) = _
    rw [s3]
    show (la'.solve .upper g.inner.rCholᵀ rho2 >>= fun _ => _) = _
    rw [s4]
    show (la'.chol (Fᵀ * invKf) >>= fun _ => _) = _
    rw [s5]
    show (la'.solve .lower rho3 ((fCol g (g.xnorm x'))ᵀ - rᵀ * invKf)ᵀ >>= fun _ => _) = _
    rw [s6]
    show (la'.solve .upper rho3ᵀ invBat >>= fun _ => _) = _
    rw [s7]
    show (match g.mean.jacobian (g.xnorm x') with
      | .error _ => none
      | .ok df => _) = _
    rw [hJ, ← hKf, ← hKr]
    rfl
  · obtain ⟨invBat, s6⟩ := la'.solve_total uplo rho3 ((fCol g x')ᵀ - rᵀ * invKf)ᵀ fun i => (c3 i).ne'
    obtain ⟨dMat, s7⟩ := la'.solve_total .upper rho3ᵀ invBat fun i => (c3 i).ne'
    have t6 := (la'.solve_spec _ _ _ _ s6).2
    have t7 := (la'.solve_spec _ _ _ _ s7).2
    rw [tri_upper (u := rho3ᵀ) (fun i j hij => c2 j i hij)] at t7
    refine ⟨dMat, by rw [t7, t6, hat], ?_⟩
    have s8 : Model.dMatBlas la' uplo (Fᵀ * invKf) ((fCol g x')ᵀ - rᵀ * invKf)ᵀ = some dMat := by
      unfold Model.dMatBlas
      rw [s5]
      show (la'.solve uplo rho3 ((fCol g x')ᵀ - rᵀ * invKf)ᵀ >>= fun _ => _) = _
      rw [s6]
      exact s7
    unfold Model.predictVarGradientBlasWith
    show (la'.solve .lower g.inner.rChol r >>= fun rho1 => _) = _
    rw [s1]
    show (la'.solve .upper g.inner.rCholᵀ rho1 >>= fun _ => _) = _
    rw [s2]
    show (la'.solve .lower g.inner.rChol F >>= fun _ => _) = _
    rw [s3]
    show (la'.solve .upper g.inner.rCholᵀ rho2 >>= fun _ => _) = _
    rw [s4]
    show (Model.dMatBlas la' uplo (Fᵀ * invKf) ((fCol g x')ᵀ - rᵀ * invKf)ᵀ >>= fun _ => _) = _
    rw [s8]
    show (match g.mean.jacobian (g.xnorm x') with
      | .error _ => none
      | .ok df => _) = _
    rw [hJ, ← hKf, ← hKr]
    rfl

theorem cancel_unit {p k : ℕ} {B : Matrix (Fin p) (Fin p) ℝ} (hB : IsUnit B.det) {D D' : Matrix (Fin p) (Fin k) ℝ}
    (h : B * D = B * D') : D = D' := by
  have h4 := congrArg (fun m => B⁻¹ * m) h
  simpa only [← Matrix.mul_assoc, Matrix.nonsing_inv_mul _ hB, Matrix.one_mul] using h4

theorem tri_one {p : ℕ} (hp : p = 1) (u : Uplo) (a : Matrix (Fin p) (Fin p) ℝ) : tri u a = a := by
  subst hp
  funext i j
  rw [Subsingleton.elim i 0, Subsingleton.elim j 0]
  cases u <;> simp [tri]

/-- With a constant mean the two builds return the same variances, covariances and variance gradients. The full claim is
for every mean; it is false for a linear mean, see `C77_refuted_variance` and `C77_refuted_gradient`. -/
theorem C77_constant_mean_partial (hg : fitWith la kernel .constant nugget theta w x y = some g) (la' la'' : LinAlg) :
    (∀ x', g.predictVarBlas la' x' = g.predictVar la'' x') ∧
    (∀ x', g.predictVarGradientBlas la' x' = g.predictVarGradient la'' x') ∧
    ∀ (m : ℕ) (xs : Fin m → Fin d → ℝ), g.covarianceBlas la' xs = g.covariance la'' xs := by
  have ok := fitWith_ok hg
  have hp : basis g.mean d = 1 := by rw [ok.mean]; rfl
  have hf : ∀ z z', fCol g z = fCol g z' := by
    intro z z'
    funext a b
    have hm := ok.mean
    simp only [fCol, Matrix.of_apply, Model.f, hm, Mean.value, constValue]
  refine ⟨fun x' => ?_, fun x' => ?_, fun m xs => ?_⟩
  · obtain ⟨h1, _⟩ := C77_variance_terms hg la' x'
    obtain ⟨_, u, h2, h3⟩ := C77_variance_terms hg la'' x'
    rw [h1, h3]
    refine congrArg (fun s => some (max 0 (g.inner.sigma2 * (1 - _ + s)))) ?_
    refine Finset.sum_congr rfl fun a _ => ?_
    rw [← h2, Matrix.mul_apply]
    have hall : ∀ b, b = a := fun b => Fin.ext (by have := a.2; have := b.2; omega)
    rw [Finset.sum_eq_single a (fun b _ hb => absurd (hall b) hb) (fun h => absurd (Finset.mem_univ _) h),
      Matrix.transpose_apply, mul_div_cancel_left₀ _ (ok.inner.rdiag a)]
  · obtain ⟨J, rho3, hJ, c1, c2, c3, _, h1⟩ := gradients_total hg la' x'
    obtain ⟨J', rho3', hJ', c1', c2', c3', ⟨D', e', h2⟩, _⟩ := gradients_total hg la'' x'
    obtain ⟨D, e, h1⟩ := h1 .upper
    rw [hJ] at hJ'
    simp only [Except.ok.injEq] at hJ'
    subst hJ'
    rw [Model.predictVarGradientBlas, h1, h2]
    have hD : D = D' := by
      rw [tri_one hp, ← Matrix.mul_assoc, c1, hf x' (g.xnorm x')] at e
      rw [← Matrix.mul_assoc, c1'] at e'
      exact cancel_unit ok.inner.unitB (e.trans e'.symm)
    rw [hD]
  · obtain ⟨rt, h1⟩ := la'.solve_total .lower g.inner.rChol
      (Matrix.of fun i (a : Fin m) => g.corr (g.xnorm (xs a)) i) fun i => (ok.inner.diag i).ne'
    obtain ⟨u, h2⟩ := la'.solve_total .upper g.inner.ftQrRᵀ
      (g.inner.ftᵀ * rt - (meanMat g.mean fun a => g.xnorm (xs a))ᵀ) fun i => ok.inner.rdiag i
    obtain ⟨rt', h1'⟩ := la''.solve_total .lower g.inner.rChol
      (Matrix.of fun i (a : Fin m) => g.corr (g.xnorm (xs a)) i) fun i => (ok.inner.diag i).ne'
    obtain ⟨u', h2'⟩ := la''.solve_total .lower g.inner.ftQrRᵀ
      (g.inner.ftᵀ * rt' - (meanMat g.mean fun a => g.xnorm (xs a))ᵀ) fun i => ok.inner.rdiag i
    have h3 := (la'.solve_spec _ _ _ _ h1).2
    have h4 := (la'.solve_spec _ _ _ _ h2).2
    have h3' := (la''.solve_spec _ _ _ _ h1').2
    have h4' := (la''.solve_spec _ _ _ _ h2').2
    rw [tri_one hp] at h4 h4'
    rw [tri_lower ok.inner.lower] at h3 h3'
    have hrt : rt = rt' := by
      have h5 := congrArg (fun m => g.inner.rChol⁻¹ * m) (h3.trans h3'.symm)
      simpa only [← Matrix.mul_assoc, Matrix.nonsing_inv_mul _ ok.inner.unitL, Matrix.one_mul] using h5
    subst hrt
    have hu : u = u' := by
      have h5 := congrArg (fun m => g.inner.ftQrRᵀ⁻¹ * m) (h4.trans h4'.symm)
      simpa only [← Matrix.mul_assoc, Matrix.nonsing_inv_mul _ ok.inner.unitQt, Matrix.one_mul] using h5
    subst hu
    unfold Model.covarianceBlas Model.covariance
    show (la'.solve .lower g.inner.rChol (Matrix.of fun i (a : Fin m) => g.corr (g.xnorm (xs a)) i) >>= fun _ => _) =
      (la''.solve .lower g.inner.rChol (Matrix.of fun i (a : Fin m) => g.corr (g.xnorm (xs a)) i) >>= fun _ => _)
    rw [h1, h1']
    show (la'.solve .upper g.inner.ftQrRᵀ (g.inner.ftᵀ * rt - (meanMat g.mean fun a => g.xnorm (xs a))ᵀ) >>=
      fun _ => _) = (la''.solve .lower g.inner.ftQrRᵀ (g.inner.ftᵀ * rt -
        (meanMat g.mean fun a => g.xnorm (xs a))ᵀ) >>= fun _ => _)
    rw [h2, h2']

example : ∃ g, fitWith exact .squaredExponential .constant 0 (fun _ : Fin 1 => 1) (fun (_ : Fin 1) (_ : Fin 1) => 1)
    (fun (i : Fin 2) (_ : Fin 1) => (i : ℝ)) ![3, 5] = some g ∧
      g.predictVarBlas exact (fun _ => 1/3) = g.predictVar exact (fun _ => 1/3) := by
  obtain ⟨g, hg⟩ := fit_two_points 1 one_pos ![3, 5]
  exact ⟨g, hg, (C77_constant_mean_partial hg exact exact).1 _⟩

/-! ## Fits with a flat correlation

With a null hyperparameter all the correlations are 1, and the nugget makes the correlation matrix invertible. -/

theorem flat_value (w : Fin d → Fin h → ℝ) (v : Fin d → ℝ) :
    Kernel.squaredExponential.value (fun _ : Fin h => 0) w v = 1 := by
  simp [Kernel.value, seValue]

theorem flat_jac (w : Fin d → Fin h → ℝ) (v : Fin d → ℝ) (xd : Fin n → Fin d → ℝ) :
    Kernel.squaredExponential.jacobian v xd (fun _ : Fin h => 0) w = 0 := by
  funext i j
  simp [Kernel.jacobian, Kernel.jacRow, seJac]

theorem flat_corr (w : Fin d → Fin h → ℝ) (ν : ℝ) (xd : Fin n → Fin d → ℝ) (i j : Fin n) :
    corrMatrix .squaredExponential (fun _ : Fin h => 0) w ν xd i j = 1 + if i = j then ν else 0 := by
  rw [corrMatrix, Matrix.of_apply, flat_value]
  split_ifs <;> simp

theorem flat_mul (w : Fin d → Fin h → ℝ) (ν : ℝ) (xd : Fin n → Fin d → ℝ) {k : ℕ} (m : Matrix (Fin n) (Fin k) ℝ)
    (i : Fin n) (a : Fin k) :
    (corrMatrix .squaredExponential (fun _ : Fin h => 0) w ν xd * m) i a = ∑ l, m l a + ν * m i a := by
  rw [Matrix.mul_apply]
  simp only [flat_corr, add_mul, one_mul, Finset.sum_add_distrib, ite_mul, zero_mul, Finset.sum_ite_eq,
    Finset.mem_univ, if_true]

theorem flat_posDef (w : Fin d → Fin h → ℝ) (ν : ℝ) (hν : 0 < ν) (xd : Fin n → Fin d → ℝ) :
    (corrMatrix .squaredExponential (fun _ : Fin h => 0) w ν xd).PosDef := by
  refine Matrix.PosDef.of_dotProduct_mulVec_pos ?_ fun v hv => ?_
  · rw [Matrix.IsHermitian, Matrix.conjTranspose_eq_transpose_of_trivial, corrMatrix_symm]
  · have e : star v ⬝ᵥ corrMatrix .squaredExponential (fun _ : Fin h => 0) w ν xd *ᵥ v =
        (∑ i, v i) ^ 2 + ν * ∑ i, v i ^ 2 := by
      simp only [dotProduct, Matrix.mulVec, Pi.star_apply, star_trivial, flat_corr, add_mul, one_mul, ite_mul, zero_mul,
        Finset.sum_add_distrib, Finset.sum_ite_eq, Finset.mem_univ, if_true, mul_add]
      rw [← Finset.sum_mul, sq, Finset.mul_sum (a := ν)]
      congr 1
      exact Finset.sum_congr rfl fun i _ => by ring
    rw [e]
    have hpos : 0 < ∑ i, v i ^ 2 := by
      obtain ⟨i, hi⟩ := Function.ne_iff.1 hv
      exact Finset.sum_pos' (fun i _ => sq_nonneg _) ⟨i, Finset.mem_univ _, by
        have : v i ≠ 0 := hi
        positivity⟩
    positivity

/-- Number of observations and nugget on the constant, nugget on the other functions. -/
noncomputable def flatD (n : ℕ) (ν : ℝ) {p : ℕ} (a : Fin p) : ℝ := if a.val = 0 then n + ν else ν

theorem linear_col (xd : Fin n → Fin d → ℝ) (i : Fin n) (a : Fin (basis .linear d)) :
    meanMat .linear xd i a = if h : 0 < a.val then xd i ⟨a.val - 1, by have := a.2; simp only [basis] at this; omega⟩
      else 1 := by
  obtain ⟨a, ha⟩ := a
  simp only [basis] at ha
  cases a with
  | zero => simp [meanMat, Mean.value, linValue]
  | succ a => simp [meanMat, Mean.value, linValue, show a < d by omega]

theorem linear_sum (xd : Fin n → Fin d → ℝ) (hx : ∀ j, ∑ i, xd i j = 0) (a : Fin (basis .linear d)) :
    ∑ i, meanMat .linear xd i a = if a.val = 0 then (n : ℝ) else 0 := by
  simp only [linear_col]
  split_ifs with h1 h2 h3
  · omega
  · exact hx _
  · simp
  · omega

section
variable (w : Fin d → Fin h → ℝ) (ν : ℝ) (hν : 0 < ν) (xd : Fin n → Fin d → ℝ) (hx : ∀ j, ∑ i, xd i j = 0)
include hν hx

theorem flat_inv_mean :
    (corrMatrix .squaredExponential (fun _ : Fin h => 0) w ν xd)⁻¹ * meanMat .linear xd =
      Matrix.of fun i a => meanMat .linear xd i a / flatD n ν a := by
  set R := corrMatrix .squaredExponential (fun _ : Fin h => 0) w ν xd with hR
  have hu : IsUnit R.det := (Matrix.isUnit_iff_isUnit_det _).1 (flat_posDef w ν hν xd).isUnit
  have h1 : R * (Matrix.of fun i a => meanMat .linear xd i a / flatD n ν a) = meanMat .linear xd := by
    funext i a
    rw [hR, flat_mul]
    simp only [Matrix.of_apply]
    rw [← Finset.sum_div, linear_sum xd hx]
    have hnν : (0 : ℝ) < n + ν := by positivity
    by_cases ha : a.val = 0
    · have : meanMat .linear xd i a = 1 := by rw [linear_col, dif_neg (by omega)]
      rw [if_pos ha, this, flatD, if_pos ha]
      field_simp
    · rw [if_neg ha, flatD, if_neg ha]
      field_simp
      ring
  calc R⁻¹ * meanMat .linear xd = R⁻¹ * (R * (Matrix.of fun i a => meanMat .linear xd i a / flatD n ν a)) := by rw [h1]
    _ = _ := by rw [← Matrix.mul_assoc, Matrix.nonsing_inv_mul _ hu, Matrix.one_mul]

theorem flat_gram (a b : Fin (basis .linear d)) :
    ((meanMat .linear xd)ᵀ * (corrMatrix .squaredExponential (fun _ : Fin h => 0) w ν xd)⁻¹ * meanMat .linear xd) a b =
      (∑ i, meanMat .linear xd i a * meanMat .linear xd i b) / flatD n ν b := by
  rw [Matrix.mul_assoc, flat_inv_mean w ν hν xd hx, Matrix.mul_apply, Finset.sum_div]
  refine Finset.sum_congr rfl fun i _ => ?_
  simp only [Matrix.transpose_apply, Matrix.of_apply]
  ring

theorem flat_cross (r : Matrix (Fin n) (Fin 1) ℝ) (hr : ∀ i, r i 0 = 1) (a : Fin (basis .linear d)) :
    ((meanMat .linear xd)ᵀ * (corrMatrix .squaredExponential (fun _ : Fin h => 0) w ν xd)⁻¹ * r) a 0 =
      if a.val = 0 then n / (n + ν) else 0 := by
  set R := corrMatrix .squaredExponential (fun _ : Fin h => 0) w ν xd with hR
  have h1 : (meanMat .linear xd)ᵀ * R⁻¹ = (R⁻¹ * meanMat .linear xd)ᵀ := by
    rw [Matrix.transpose_mul, Matrix.transpose_nonsing_inv, hR, corrMatrix_symm]
  rw [h1, hR, flat_inv_mean w ν hν xd hx, Matrix.mul_apply]
  simp only [Matrix.transpose_apply, Matrix.of_apply, hr, mul_one]
  rw [← Finset.sum_div, linear_sum xd hx, flatD]
  split_ifs <;> simp

end

/-- The residuals of the trend are orthogonal to it, so data with a component orthogonal to the columns of the trend have
a positive process variance. -/
theorem sigma2_pos_of_contrast (hg : fitWith la kernel mean nugget theta w x y = some g) (c : Fin n → ℝ)
    (hc : ∀ a, ∑ i, c i * meanMat g.mean g.xtData i a = 0) (hc1 : ∑ i, c i = 0) (hy : ∑ i, c i * y i ≠ 0) :
    0 < g.inner.sigma2 := by
  refine sigma2_pos hg fun h => hy ?_
  have ok := fitWith_ok hg
  have h1 : ∑ i, c i * g.ytData i = 0 := by
    have h2 : ∀ i, g.ytData i = ∑ a, meanMat g.mean g.xtData i a * g.inner.beta a 0 := by
      intro i
      have := congrFun (congrFun h i) 0
      rwa [Matrix.mul_apply] at this
    simp only [h2, Finset.mul_sum]
    rw [Finset.sum_comm]
    refine Finset.sum_eq_zero fun a _ => ?_
    have h3 : ∀ i, c i * (meanMat g.mean g.xtData i a * g.inner.beta a 0) =
        c i * meanMat g.mean g.xtData i a * g.inner.beta a 0 := fun i => by ring
    simp only [h3]
    rw [← Finset.sum_mul, hc, zero_mul]
  have hs := ok.ystd
  have h4 : ∀ i, y i = g.ytData i * g.ytStd + g.ytMean := by
    intro i
    rw [ok.ydata]; field_simp; ring
  have h5 : ∑ i, c i * y i = (∑ i, c i * g.ytData i) * g.ytStd + (∑ i, c i) * g.ytMean := by
    rw [Finset.sum_mul, Finset.sum_mul, ← Finset.sum_add_distrib]
    exact Finset.sum_congr rfl fun i _ => by rw [h4 i]; ring
  rw [h5, h1, hc1]; ring

/-- Entry of the solution when the matrix is diagonal. -/
theorem diag_solve (u : Uplo) (ρ : Matrix (Fin 2) (Fin 2) ℝ) (D v : Matrix (Fin 2) (Fin 1) ℝ)
    (hl : ∀ i j, i < j → ρ i j = 0) (hd : ∀ i, 0 < ρ i i) (h0 : (ρ * ρᵀ) 1 0 = 0) (h : tri u ρ * (ρᵀ * D) = v) :
    (ρ * ρᵀ) 1 1 * D 1 0 = v 1 0 := by
  have e1 : ρ 0 1 = 0 := hl 0 1 (by decide)
  have e2 : ρ 1 0 = 0 := by
    rw [Matrix.mul_apply, Fin.sum_univ_two, Matrix.transpose_apply, Matrix.transpose_apply, e1] at h0
    have := (hd 0).ne'
    simp only [mul_zero, add_zero, mul_eq_zero, this, or_false] at h0
    exact h0
  have t1 : tri u ρ 1 0 = 0 := by cases u <;> simp [tri, e2]
  have t2 : tri u ρ 1 1 = ρ 1 1 := by cases u <;> simp [tri]
  rw [← h]
  simp only [Matrix.mul_apply, Fin.sum_univ_two, t1, t2, e1, e2, Matrix.transpose_apply]
  ring

/-- Inputs of the first counterexample. -/
def blasX1 : Fin 3 → Fin 1 → ℝ := fun i _ => (i : ℝ) + 1

theorem blasX1_mean (j : Fin 1) : (GpUtils.colMean fun i => blasX1 i j) = 2 := by
  simp [GpUtils.colMean, blasX1, Fin.sum_univ_three]
  norm_num

theorem blasX1_std (j : Fin 1) : (stdOf fun i => blasX1 i j) = 1 := by
  have h : (∑ i : Fin 3, (blasX1 i j - GpUtils.colMean fun i => blasX1 i j) ^ 2) / (((3 : ℕ) : ℝ) - 1) = 1 := by
    rw [blasX1_mean]
    simp [blasX1, Fin.sum_univ_three]
    norm_num
  simp only [stdOf]
  rw [h]
  simp

/-- The normalized inputs. -/
def blasX1n : Fin 3 → Fin 1 → ℝ := fun i _ => (i : ℝ) - 1

theorem blasX1n_sum (j : Fin 1) : ∑ i, blasX1n i j = 0 := by
  simp [Fin.sum_univ_three, blasX1n]
  norm_num

/-- The trend of the normalized inputs. -/
noncomputable def blasF1 : Matrix (Fin 3) (Fin 2) ℝ := meanMat .linear blasX1n

/-- Their correlations. -/
noncomputable def blasR1 (ν : ℝ) : Matrix (Fin 3) (Fin 3) ℝ :=
  corrMatrix .squaredExponential (fun _ : Fin 1 => 0) (fun _ _ => 1) ν blasX1n

theorem blasF1_zero (i : Fin 3) : blasF1 i 0 = 1 := by
  show (linValue (blasX1n i)).getD 0 0 = _
  simp [linValue]

theorem blasF1_one (i : Fin 3) : blasF1 i 1 = (i : ℝ) - 1 := by
  show (linValue (blasX1n i)).getD 1 0 = _
  simp [linValue, blasX1n]

theorem blasB1 (ν : ℝ) (hν : 0 < ν) (a b : Fin 2) :
    (blasF1ᵀ * (blasR1 ν)⁻¹ * blasF1) a b = (∑ i, blasF1 i a * blasF1 i b) / if b.val = 0 then 3 + ν else ν := by
  have := flat_gram (fun (_ _ : Fin 1) => (1 : ℝ)) ν hν _ blasX1n_sum (a : Fin 2) (b : Fin 2)
  simp only [flatD, Nat.cast_ofNat] at this
  exact this

theorem flat_entry (ν : ℝ) (hν : 0 < ν) (ρ : Matrix (Fin 2) (Fin 2) ℝ)
    (hl : ∀ i j, i < j → ρ i j = 0) (hd : ∀ i, 0 < ρ i i) (hρ : ρ * ρᵀ = blasF1ᵀ * (blasR1 ν)⁻¹ * blasF1) (u : Uplo)
    (D f : Matrix (Fin 2) (Fin 1) ℝ) (r : Matrix (Fin 3) (Fin 1) ℝ)
    (h : tri u ρ * (ρᵀ * D) = f - blasF1ᵀ * (blasR1 ν)⁻¹ * r) (hr : ∀ i, r i 0 = 1) : D 1 0 = ν / 2 * f 1 0 := by
  have hB10 : (ρ * ρᵀ) 1 0 = 0 := by
    rw [hρ, blasB1 ν hν]
    simp [Fin.sum_univ_three, blasF1_zero, blasF1_one]
    norm_num
  have hB11 : (ρ * ρᵀ) 1 1 = 2 / ν := by
    rw [hρ, blasB1 ν hν]
    simp [Fin.sum_univ_three, blasF1_one]
    norm_num
  have h1 := diag_solve u ρ D _ hl hd hB10 h
  have h2 : (blasF1ᵀ * (blasR1 ν)⁻¹ * r) 1 0 = 0 :=
    (flat_cross (fun (_ _ : Fin 1) => (1 : ℝ)) ν hν _ blasX1n_sum r hr (1 : Fin 2)).trans (by simp)
  rw [hB11, Matrix.sub_apply, h2, sub_zero] at h1
  rw [← h1]
  field_simp

theorem flat_pick (D : Matrix (Fin 2) (Fin 1) ℝ) (z : Fin 1 → ℝ) (X : Matrix (Fin 3) (Fin 2) ℝ)
    (Y dr : Matrix (Fin 3) (Fin 1) ℝ) (hdr : dr = 0) (s : ℝ) :
    2 * ((Dᵀ * ((Matrix.of fun (a : Fin 2) (j : Fin 1) => (linJac z).at_ a j)ᵀ - drᵀ * X)ᵀ) 0 0 - (Yᵀ * dr) 0 0) /
      1 * s = 2 * D 1 0 * s := by
  subst hdr
  rw [Matrix.mul_apply, Fin.sum_univ_two]
  simp [linJac, eye]

/-- With a linear mean the variance gradient of the `blas` build is not the one of the default build, whichever
triangle its solver reads: three points in dimension one, at their mean, where the gradient is null. -/
theorem C77_refuted_gradient (ν : ℝ) (hν : 0 < ν) (y : Fin 3 → ℝ) (hy : y 0 - 2 * y 1 + y 2 ≠ 0) :
    ∃ g, fitWith exact .squaredExponential .linear ν (fun _ : Fin 1 => 0) (fun _ _ => 1) blasX1 y = some g ∧
      ∀ la' uplo, ∃ v vb, g.predictVarGradient la' (fun _ => 2) = some v ∧ v 0 = 0 ∧
        g.predictVarGradientBlasWith uplo la' (fun _ => 2) = some vb ∧ 0 < vb 0 := by
  have hxd : (fun i j => (blasX1 i j - GpUtils.colMean fun i => blasX1 i j) / stdOf fun i => blasX1 i j) =
      blasX1n := by
    funext i j
    rw [blasX1_mean, blasX1_std, blasX1, blasX1n]; ring
  obtain ⟨g, hg⟩ := fit_succeeds .squaredExponential .linear ν (fun _ : Fin 1 => 0) (fun _ _ => 1) blasX1 y (by norm_num)
    (flat_posDef _ _ hν _) (by
      rw [hxd]
      intro a b hab
      have h0 := congrFun hab 0
      have h1 := congrFun hab 1
      simp only [Matrix.mulVec, dotProduct, linear_col, blasX1n] at h0 h1
      have e : ∀ c : Fin (basis Mean.linear 1) → ℝ, ∑ i, c i = c (0 : Fin 2) + c (1 : Fin 2) :=
        fun c => Fin.sum_univ_two c
      simp only [e] at h0 h1
      norm_num at h0 h1
      funext i
      have hi : i = (0 : Fin 2) ∨ i = (1 : Fin 2) := by
        have := i.2
        simp only [basis] at this
        have h2 : i.val = 0 ∨ i.val = 1 := by omega
        exact h2.imp (fun h => Fin.ext h) fun h => Fin.ext h
      rcases hi with rfl | rfl
      · exact h1
      · rw [h1] at h0
        linarith)
  refine ⟨g, hg, fun la' uplo => ?_⟩
  have hxs : 0 < g.inner.sigma2 := by
    have ok := fitWith_ok hg
    have hm := ok.mean
    obtain ⟨kernel', mean', theta', w', lk, inner, xd, xm, xs, yd, ym, ys⟩ := g
    simp only at hm
    subst hm
    have hx0 : xd = blasX1n := by
      rw [← hxd]
      funext i j
      rw [← ok.xmean, ← ok.xstdOf]
      exact ok.xdata i j
    refine sigma2_pos_of_contrast hg (fun i => if i = 1 then -2 else 1) ?_ ?_ ?_
    · intro a
      simp only [hx0, linear_col, Fin.sum_univ_three, blasX1n]
      split_ifs <;> simp_all <;> norm_num
    · simp [Fin.sum_univ_three]; norm_num
    · intro hc
      apply hy
      rw [← hc]
      simp [Fin.sum_univ_three]
      ring
  have ok := fitWith_ok hg
  obtain ⟨J, rho3, hJ, c1, c2, c3, ⟨D, e, h1⟩, h2⟩ := gradients_total hg la' fun _ => 2
  obtain ⟨Db, eb, h3⟩ := h2 uplo
  have e' := e
  rw [show rho3 * (rho3ᵀ * D) = tri .lower rho3 * (rho3ᵀ * D) by rw [tri_lower c2]] at e'
  refine ⟨_, _, h1, ?_, h3, ?_⟩
  all_goals
    clear h1 h2 h3
    obtain ⟨kernel', mean', theta', w', lk, inner, xd, xm, xs, yd, ym, ys⟩ := g
    obtain rfl : kernel' = .squaredExponential := ok.kernel
    obtain rfl : mean' = .linear := ok.mean
    obtain rfl : theta' = fun _ => 0 := ok.theta
    obtain rfl : w' = fun _ _ => 1 := ok.w
    have hx0 : xd = blasX1n := by
      rw [← hxd]
      funext i j
      rw [← ok.xmean, ← ok.xstdOf]
      exact ok.xdata i j
    have hxm : xm = fun _ => 2 := funext fun j => (ok.xmean j).trans (blasX1_mean j)
    have hxs1 : xs = fun _ => 1 := funext fun j => (ok.xstdOf j).trans (blasX1_std j)
    subst hx0 hxm hxs1
    simp only [Mean.jacobian, Except.ok.injEq] at hJ
    subst hJ
    have key := flat_entry ν hν rho3 c2 c3 c1
  · have h5 := key .lower D _ (rCol _ _) e' fun i => flat_value _ _
    have h6 : D (1 : Fin 2) 0 = 0 := by
      refine h5.trans ?_
      show ν / 2 * (linValue fun j : Fin 1 => ((2 : ℝ) - 2) / 1).getD 1 0 = 0
      simp [linValue]
    refine (flat_pick D _ _ _ _ (flat_jac _ _ _) _).trans ?_
    rw [h6]; ring
  · have h5 := key uplo Db _ (rCol _ _) eb fun i => flat_value _ _
    have h6 : Db (1 : Fin 2) 0 = ν := by
      refine h5.trans ?_
      show ν / 2 * (linValue fun j : Fin 1 => (2 : ℝ)).getD 1 0 = ν
      simp [linValue]
    refine lt_of_lt_of_eq ?_ (flat_pick Db _ _ _ _ (flat_jac _ _ _) _).symm
    rw [h6]
    exact mul_pos (by positivity) hxs

/-- Inputs of the second counterexample. -/
def blasX2 : Fin 4 → Fin 2 → ℝ := ![![2, 12], ![0, 6], ![0, 4], ![0, 0]]

/-- The normalized inputs. -/
noncomputable def blasX2n : Fin 4 → Fin 2 → ℝ := ![![3/2, 13/10], ![-1/2, 1/10], ![-1/2, -3/10], ![-1/2, -11/10]]

theorem blasX2_mean (j : Fin 2) : (GpUtils.colMean fun i => blasX2 i j) = ![1/2, 11/2] j := by
  fin_cases j <;> simp [GpUtils.colMean, blasX2, Fin.sum_univ_four] <;> norm_num

theorem blasX2_std (j : Fin 2) : (stdOf fun i => blasX2 i j) = ![1, 5] j := by
  have h : (∑ i : Fin 4, (blasX2 i j - GpUtils.colMean fun i => blasX2 i j) ^ 2) / (((4 : ℕ) : ℝ) - 1) =
      (![1, 5] j) ^ 2 := by
    rw [blasX2_mean]
    fin_cases j <;> simp [blasX2, Fin.sum_univ_four] <;> norm_num
  have hp : 0 < (![1, 5] : Fin 2 → ℝ) j := by fin_cases j <;> simp
  simp only [stdOf]
  rw [h, Real.sqrt_sq hp.le, if_neg hp.ne']

theorem blasX2n_eq :
    (fun i j => (blasX2 i j - GpUtils.colMean fun i => blasX2 i j) / stdOf fun i => blasX2 i j) = blasX2n := by
  funext i j
  rw [blasX2_mean, blasX2_std]
  fin_cases i <;> fin_cases j <;> simp [blasX2, blasX2n] <;> norm_num

theorem blasX2n_sum (j : Fin 2) : ∑ i, blasX2n i j = 0 := by
  fin_cases j <;> simp [Fin.sum_univ_four, blasX2n] <;> norm_num

/-- The trend of the normalized inputs. -/
noncomputable def blasF2 : Matrix (Fin 4) (Fin 3) ℝ := meanMat .linear blasX2n

theorem blasF2_zero (i : Fin 4) : blasF2 i 0 = 1 := by
  show (linValue (blasX2n i)).getD 0 0 = _
  simp [linValue]

theorem blasF2_one (i : Fin 4) : blasF2 i 1 = blasX2n i 0 := by
  show (linValue (blasX2n i)).getD 1 0 = _
  simp [linValue]

theorem blasF2_two (i : Fin 4) : blasF2 i 2 = blasX2n i 1 := by
  show (linValue (blasX2n i)).getD 2 0 = _
  simp [linValue]

theorem clamp_lt (s c a b : ℝ) (hs : 0 < s) (hc : c < 1) (ha : 0 ≤ a) (hab : a < b) :
    max 0 (s * (1 - c + a)) < max 0 (s * (1 - c + b)) := by
  have h1 : 0 < s * (1 - c + b) := mul_pos hs (by linarith)
  rw [max_eq_right h1.le]
  exact max_lt h1 (mul_lt_mul_of_pos_left (by linarith) hs)

theorem flat_self (w : Fin d → Fin h → ℝ) (ν : ℝ) (hν : 0 < ν) (xd : Fin n → Fin d → ℝ) (r : Matrix (Fin n) (Fin 1) ℝ)
    (hr : ∀ i, r i 0 = 1) :
    (rᵀ * (corrMatrix .squaredExponential (fun _ : Fin h => 0) w ν xd)⁻¹ * r) 0 0 = n / (n + ν) := by
  set R := corrMatrix .squaredExponential (fun _ : Fin h => 0) w ν xd with hR
  have hu : IsUnit R.det := (Matrix.isUnit_iff_isUnit_det _).1 (flat_posDef w ν hν xd).isUnit
  have hnν : (0 : ℝ) < n + ν := by positivity
  have h1 : R * (Matrix.of fun i (_ : Fin 1) => 1 / (n + ν)) = r := by
    funext i a
    rw [hR, flat_mul, Subsingleton.elim a 0, hr]
    simp only [Matrix.of_apply, Finset.sum_const, Finset.card_univ, Fintype.card_fin, nsmul_eq_mul]
    field_simp
  have h2 : R⁻¹ * r = Matrix.of fun i (_ : Fin 1) => 1 / (n + ν) := by
    rw [← h1, ← Matrix.mul_assoc, Matrix.nonsing_inv_mul _ hu, Matrix.one_mul]
  rw [Matrix.mul_assoc, h2, Matrix.mul_apply]
  simp only [Matrix.transpose_apply, hr, Matrix.of_apply, Finset.sum_const, Finset.card_univ, Fintype.card_fin,
    nsmul_eq_mul]
  ring

/-- What the off-diagonal terms of the factor add. -/
theorem cross_terms (Q : Matrix (Fin 3) (Fin 3) ℝ) (hu : ∀ i j, j < i → Q i j = 0) (hd : ∀ i, Q i i ≠ 0)
    (h01 : (Qᵀ * Q) 0 1 = 0) (h02 : (Qᵀ * Q) 0 2 = 0) (h12 : (Qᵀ * Q) 1 2 ≠ 0) (u v : Matrix (Fin 3) (Fin 1) ℝ)
    (h : Qᵀ * u = v) (hv1 : v 1 0 ≠ 0) (hv2 : v 2 0 = 0) :
    ∑ a, (v a 0 / Q a a) ^ 2 < ∑ a, u a 0 ^ 2 := by
  have z1 : Q 1 0 = 0 := hu 1 0 (by decide)
  have z2 : Q 2 0 = 0 := hu 2 0 (by decide)
  have z3 : Q 2 1 = 0 := hu 2 1 (by decide)
  simp only [Matrix.mul_apply, Fin.sum_univ_three, Matrix.transpose_apply, z1, z2, z3, zero_mul, add_zero] at h01 h02 h12
  have q1 : Q 0 1 = 0 := (mul_eq_zero.1 h01).resolve_left (hd 0)
  have q2 : Q 0 2 = 0 := (mul_eq_zero.1 h02).resolve_left (hd 0)
  rw [q1, zero_mul, zero_add] at h12
  have q3 : Q 1 2 ≠ 0 := right_ne_zero_of_mul h12
  have e0 := congrFun (congrFun h 0) 0
  have e1 := congrFun (congrFun h 1) 0
  have e2 := congrFun (congrFun h 2) 0
  simp only [Matrix.mul_apply, Fin.sum_univ_three, Matrix.transpose_apply, z1, z2, z3, q1, q2, zero_mul, add_zero,
    zero_add] at e0 e1 e2
  rw [hv2] at e2
  have hu1 : u 1 0 ≠ 0 := by
    intro h0
    rw [h0, mul_zero] at e1
    exact hv1 e1.symm
  have hu2 : u 2 0 ≠ 0 := by
    intro h0
    rw [h0, mul_zero, add_zero] at e2
    exact (mul_ne_zero q3 hu1) e2
  rw [Fin.sum_univ_three, Fin.sum_univ_three, ← e0, ← e1, hv2, mul_div_cancel_left₀ _ (hd 0),
    mul_div_cancel_left₀ _ (hd 1), zero_div]
  have : 0 < u 2 0 ^ 2 := by positivity
  nlinarith

/-- The correlations of the normalized inputs. -/
noncomputable def blasR2 (ν : ℝ) : Matrix (Fin 4) (Fin 4) ℝ :=
  corrMatrix .squaredExponential (fun _ : Fin 1 => 0) (fun _ _ => 1) ν blasX2n

theorem variance_drop (ν : ℝ) (hν : 0 < ν) (Q : Matrix (Fin 3) (Fin 3) ℝ) (hup : ∀ i j, j < i → Q i j = 0)
    (hd : ∀ i, Q i i ≠ 0) (hQ : Qᵀ * Q = blasF2ᵀ * (blasR2 ν)⁻¹ * blasF2) (f u : Matrix (Fin 3) (Fin 1) ℝ)
    (r : Matrix (Fin 4) (Fin 1) ℝ) (hu : Qᵀ * u = f - blasF2ᵀ * (blasR2 ν)⁻¹ * r) (hr : ∀ i, r i 0 = 1)
    (hf1 : f 1 0 ≠ 0) (hf2 : f 2 0 = 0) (s : ℝ) (hs : 0 < s) :
    max 0 (s * (1 - (rᵀ * (blasR2 ν)⁻¹ * r) 0 0 + ∑ a, ((f - blasF2ᵀ * (blasR2 ν)⁻¹ * r) a 0 / Q a a) ^ 2)) <
      max 0 (s * (1 - (rᵀ * (blasR2 ν)⁻¹ * r) 0 0 + ∑ a, u a 0 ^ 2)) := by
  have ent : ∀ a b : Fin 3, (Qᵀ * Q) a b = (∑ i, blasF2 i a * blasF2 i b) / if b.val = 0 then 4 + ν else ν := by
    intro a b
    rw [hQ]
    have := flat_gram (fun (_ : Fin 2) (_ : Fin 1) => (1 : ℝ)) ν hν _ blasX2n_sum (a : Fin 3) (b : Fin 3)
    simp only [flatD, Nat.cast_ofNat] at this
    exact this
  have hv : ∀ a : Fin 3, (f - blasF2ᵀ * (blasR2 ν)⁻¹ * r) a 0 = f a 0 - if a.val = 0 then 4 / (4 + ν) else 0 := by
    intro a
    rw [Matrix.sub_apply]
    have := flat_cross (fun (_ : Fin 2) (_ : Fin 1) => (1 : ℝ)) ν hν _ blasX2n_sum r hr (a : Fin 3)
    simp only [Nat.cast_ofNat] at this
    exact congrArg _ this
  have hlt := cross_terms Q hup hd
    (by rw [ent]; simp [Fin.sum_univ_four, blasF2_zero, blasF2_one, blasX2n]; norm_num)
    (by rw [ent]; simp [Fin.sum_univ_four, blasF2_zero, blasF2_two, blasX2n]; norm_num)
    (by
      rw [ent]
      simp [Fin.sum_univ_four, blasF2_one, blasF2_two, blasX2n]
      exact ⟨by norm_num, hν.ne'⟩) u _ hu (by rw [hv]; simpa using hf1) (by rw [hv]; simpa using hf2)
  refine clamp_lt _ _ _ _ hs ?_ (Finset.sum_nonneg fun _ _ => sq_nonneg _) hlt
  rw [blasR2, flat_self _ ν hν _ r hr, div_lt_one (by positivity)]
  linarith

/-- With a linear mean the `blas` build returns a smaller variance than the default build: four points in dimension
two, at a point other than the training points. -/
theorem C77_refuted_variance (ν : ℝ) (hν : 0 < ν) (y : Fin 4 → ℝ) (hy : 2 * y 1 - 3 * y 2 + y 3 ≠ 0) :
    ∃ g, fitWith exact .squaredExponential .linear ν (fun _ : Fin 1 => 0) (fun _ _ => 1) blasX2 y = some g ∧
      ∀ la', ∃ v vb, g.predictVar la' ![3/2, 11/2] = some v ∧ g.predictVarBlas la' ![3/2, 11/2] = some vb ∧
        vb < v := by
  obtain ⟨g, hg⟩ := fit_succeeds .squaredExponential .linear ν (fun _ : Fin 1 => 0) (fun _ _ => 1) blasX2 y (by norm_num)
    (flat_posDef _ _ hν _) (by
      rw [blasX2n_eq]
      show Function.Injective blasF2.mulVec
      intro a b hab
      have h0 := congrFun hab 0
      have h1 := congrFun hab 1
      have h2 := congrFun hab 2
      simp only [Matrix.mulVec, dotProduct, Fin.sum_univ_three, blasF2_zero, blasF2_one, blasF2_two] at h0 h1 h2
      simp [blasX2n] at h0 h1 h2
      have g2 : a 2 = b 2 := by linarith
      have g1 : a 1 = b 1 := by linarith
      have g0 : a 0 = b 0 := by linarith
      funext i
      fin_cases i
      · exact g0
      · exact g1
      · exact g2)
  refine ⟨g, hg, fun la' => ?_⟩
  have ok := fitWith_ok hg
  obtain ⟨kernel', mean', theta', w', lk, inner, xd, xm, xs, yd, ym, ys⟩ := g
  obtain rfl : kernel' = .squaredExponential := ok.kernel
  obtain rfl : mean' = .linear := ok.mean
  obtain rfl : theta' = fun _ => 0 := ok.theta
  obtain rfl : w' = fun _ _ => 1 := ok.w
  have hx0 : xd = blasX2n := by
    rw [← blasX2n_eq]
    funext i j
    rw [← ok.xmean, ← ok.xstdOf]
    exact ok.xdata i j
  have hxm : xm = ![1/2, 11/2] := funext fun j => (ok.xmean j).trans (blasX2_mean j)
  have hxs1 : xs = ![1, 5] := funext fun j => (ok.xstdOf j).trans (blasX2_std j)
  subst hx0 hxm hxs1
  have hpos : 0 < inner.sigma2 := by
    refine sigma2_pos_of_contrast hg ![0, 2, -3, 1] ?_ ?_ ?_
    · show ∀ a : Fin 3, ∑ i, (![0, 2, -3, 1] : Fin 4 → ℝ) i * blasF2 i a = 0
      intro a
      fin_cases a <;> simp [Fin.sum_univ_four, blasF2_zero, blasF2_one, blasF2_two, blasX2n] <;> norm_num
    · simp [Fin.sum_univ_four]; norm_num
    · intro hc
      apply hy
      rw [← hc]
      simp [Fin.sum_univ_four]
      ring
  obtain ⟨hb, u, hu, hv⟩ := C77_variance_terms hg la' ![3/2, 11/2]
  refine ⟨_, _, hv, hb, ?_⟩
  refine variance_drop ν hν inner.ftQrR ok.inner.upper ok.inner.rdiag ok.inner.gram_eq.symm _ u (rCol _ _) hu
    (fun i => flat_value _ _) ?_ ?_ _ hpos
  · show (linValue fun j : Fin 2 => ((![3/2, 11/2] : Fin 2 → ℝ) j - (![1/2, 11/2] : Fin 2 → ℝ) j) /
      (![1, 5] : Fin 2 → ℝ) j).getD 1 0 ≠ 0
    simp [linValue]
    norm_num
  · show (linValue fun j : Fin 2 => ((![3/2, 11/2] : Fin 2 → ℝ) j - (![1/2, 11/2] : Fin 2 → ℝ) j) /
      (![1, 5] : Fin 2 → ℝ) j).getD 2 0 = 0
    simp [linValue]

example := C77_refuted_gradient 1 one_pos ![0, 0, 1] (by simp)
example := C77_refuted_variance 1 one_pos ![0, 0, 0, 1] (by simp)

end Verif.Props
