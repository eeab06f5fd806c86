import Verif.Props.GpPsd

/-!
# C104 to C107: invariances of Gaussian processes, best linear unbiased prediction
-/

set_option autoImplicit false

namespace Verif.Props

open Matrix Kernels Means GpUtils Spec Gp

variable {n d h p : ℕ} {la : LinAlg} {kernel : Kernel} {mean : Mean} {nugget : ℝ} {theta : Fin h → ℝ}
  {w : Fin d → Fin h → ℝ} {x : Fin n → Fin d → ℝ} {y : Fin n → ℝ} {g : Model n d h}

/-! ## Kriging formulas as functions of the outputs -/

theorem krigBeta_comb (R : Matrix (Fin n) (Fin n) ℝ) (F : Matrix (Fin n) (Fin p) ℝ) (y z : Matrix (Fin n) (Fin 1) ℝ)
    (a b : ℝ) : krigBeta R F (a • y + b • z) = a • krigBeta R F y + b • krigBeta R F z := by
  simp only [krigBeta, Matrix.mul_add, Matrix.mul_smul]

theorem krigMean_comb (R : Matrix (Fin n) (Fin n) ℝ) (F : Matrix (Fin n) (Fin p) ℝ) (y z : Matrix (Fin n) (Fin 1) ℝ)
    (r : Matrix (Fin n) (Fin 1) ℝ) (f : Matrix (Fin p) (Fin 1) ℝ) (a b : ℝ) :
    krigMean R F (a • y + b • z) r f = a * krigMean R F y r f + b * krigMean R F z r f := by
  simp only [krigMean, krigBeta_comb, Matrix.mul_add, Matrix.mul_smul, Matrix.mul_sub, Matrix.add_apply,
    Matrix.sub_apply, Matrix.smul_apply, smul_eq_mul]
  ring

theorem krigMean_smul (R : Matrix (Fin n) (Fin n) ℝ) (F : Matrix (Fin n) (Fin p) ℝ) (y : Matrix (Fin n) (Fin 1) ℝ)
    (r : Matrix (Fin n) (Fin 1) ℝ) (f : Matrix (Fin p) (Fin 1) ℝ) (a : ℝ) :
    krigMean R F (a • y) r f = a * krigMean R F y r f := by
  have := krigMean_comb R F y y r f a 0
  simpa using this

theorem krigSigma2_smul (R : Matrix (Fin n) (Fin n) ℝ) (F : Matrix (Fin n) (Fin p) ℝ) (y : Matrix (Fin n) (Fin 1) ℝ)
    (a : ℝ) : krigSigma2 R F (a • y) = a ^ 2 * krigSigma2 R F y := by
  have hb : krigBeta R F (a • y) = a • krigBeta R F y := by simp only [krigBeta, Matrix.mul_smul]
  have e : a • y - F * krigBeta R F (a • y) = a • (y - F * krigBeta R F y) := by
    rw [hb, Matrix.mul_smul, smul_sub]
  rw [krigSigma2, e, krigSigma2]
  simp only [Matrix.transpose_smul, Matrix.smul_mul, Matrix.mul_smul, Matrix.smul_apply, smul_eq_mul]
  ring

/-- The normalized inputs. -/
noncomputable def xnData (x : Fin n → Fin d → ℝ) : Fin n → Fin d → ℝ :=
  fun i j => (x i j - colMean fun i => x i j) / stdOf fun i => x i j

/-- A point normalized as the inputs. -/
noncomputable def xnPoint (x : Fin n → Fin d → ℝ) (x' : Fin d → ℝ) : Fin d → ℝ :=
  fun j => (x' j - colMean fun i => x i j) / stdOf fun i => x i j

/-- The centred outputs. -/
noncomputable def centred (y : Fin n → ℝ) : Matrix (Fin n) (Fin 1) ℝ := Matrix.of fun i _ => y i - colMean y

/-- Correlations of a point with the training points. -/
noncomputable def rAt (kernel : Kernel) (theta : Fin h → ℝ) (w : Fin d → Fin h → ℝ) (x : Fin n → Fin d → ℝ)
    (x' : Fin d → ℝ) : Matrix (Fin n) (Fin 1) ℝ :=
  Matrix.of fun i _ => kernel.value theta w (xnPoint x x' - xnData x i)

/-- Basis functions at a point. -/
noncomputable def fAt (mean : Mean) (x : Fin n → Fin d → ℝ) (x' : Fin d → ℝ) : Matrix (Fin (basis mean d)) (Fin 1) ℝ :=
  Matrix.of fun a _ => (mean.value (xnPoint x x')).getD a 0

/-- The predictions of a fit without reference to its stored fields. -/
theorem predict_closed (hg : fitWith la kernel mean nugget theta w x y = some g) (la' : LinAlg) (x' : Fin d → ℝ) :
    g.predict x' = krigMean (corrMatrix kernel theta w nugget (xnData x)) (meanMat mean (xnData x)) (centred y)
      (rAt kernel theta w x x') (fAt mean x x') + colMean y ∧
    g.predictVar la' x' = some (max 0 (krigSigma2 (corrMatrix kernel theta w nugget (xnData x))
      (meanMat mean (xnData x)) (centred y) * krigVar (corrMatrix kernel theta w nugget (xnData x))
      (meanMat mean (xnData x)) (rAt kernel theta w x x') (fAt mean x x'))) := by
  have ok := fitWith_ok hg
  have hx : g.xtData = xnData x := by
    funext i j
    rw [ok.xdata, ok.xmean, ok.xstdOf, xnData]
  have hp : g.xnorm x' = xnPoint x x' := by
    funext j
    rw [Model.xnorm, ok.xmean, ok.xstdOf, xnPoint]
  have hY : centred y = g.ytStd • (Matrix.of fun i (_ : Fin 1) => (y i - g.ytMean) / g.ytStd) := by
    funext i j
    rw [Matrix.smul_apply, Matrix.of_apply, smul_eq_mul, mul_div_cancel₀ _ ok.ystd.ne', ok.ymean]
    rfl
  obtain ⟨h1, h2⟩ := C45_universal_kriging hg la' x'
  simp only [hx, hp] at h1 h2
  rw [hY, krigMean_smul, krigSigma2_smul]
  constructor
  · rw [h1, ok.ymean, mul_comm]; rfl
  · rw [h2]; congr 2; rw [mul_comm (g.ytStd ^ 2)]; rfl

theorem fitWith_chol (hg : fitWith la kernel mean nugget theta w x y = some g) :
    la.chol (corrMatrix kernel theta w nugget (xnData x)) = some g.inner.rChol := by
  simp only [fitWith] at hg
  split_ifs at hg with hn
  split at hg
  · simp at hg
  · rename_i N c hc
    rw [map_some_iff] at hg
    obtain ⟨⟨lk, inner⟩, h1, rfl⟩ := hg
    rw [rMx_eq _ _ _ _ _ _ _ hc] at h1
    simp only [reducedLikelihood, Option.bind_eq_bind, Option.bind_eq_some_iff] at h1
    obtain ⟨l, hl, ft, hft, ⟨q, r⟩, hqr, h1⟩ := h1
    split_ifs at h1
    simp only [Option.bind_eq_some_iff] at h1
    obtain ⟨yt, hyt, beta, hbeta, gamma, hgamma, h1⟩ := h1
    simp only [Option.some.injEq, Prod.mk.injEq] at h1
    obtain ⟨_, rfl⟩ := h1
    exact hl

/-! ## C104: outputs -/

/-- Whether a fit succeeds does not depend on the outputs. -/
theorem C104_success (hg : fitWith la kernel mean nugget theta w x y = some g) (y' : Fin n → ℝ) :
    ∃ g', fitWith la kernel mean nugget theta w x y' = some g' := by
  simp only [fitWith] at hg ⊢
  split_ifs at hg ⊢ with hn
  split at hg
  · simp at hg
  · rename_i N c hc
    rw [map_some_iff] at hg
    obtain ⟨⟨lk, inner⟩, h1, _⟩ := hg
    rw [rMx_eq _ _ _ _ _ _ _ hc] at h1
    suffices h : ∃ r, reducedLikelihood la (meanMat mean (xnData x)) (corrMatrix kernel theta w nugget (xnData x))
        (fun i (_ : Fin 1) => (y' i - colMean y') / stdOf y') (stdOf y') = some r by
      obtain ⟨r, hr⟩ := h
      rw [rMx_eq _ _ _ _ _ _ _ hc]
      exact ⟨_, map_some_iff.2 ⟨r, hr, rfl⟩⟩
    simp only [reducedLikelihood, Option.bind_eq_bind, Option.bind_eq_some_iff] at h1 ⊢
    obtain ⟨l, hl, ft, hft, ⟨q, r⟩, hqr, h1⟩ := h1
    split_ifs at h1 with hw
    simp only [Option.bind_eq_some_iff] at h1
    obtain ⟨yt, hyt, beta, hbeta, gamma, hgamma, h1⟩ := h1
    obtain ⟨yt', hyt'⟩ := la.solve_total .lower l (fun i (_ : Fin 1) => (y' i - colMean y') / stdOf y')
      (la.solve_spec _ _ _ _ hyt).1
    obtain ⟨beta', hbeta'⟩ := la.solve_total .upper r (qᵀ * yt') (la.solve_spec _ _ _ _ hbeta).1
    obtain ⟨gamma', hgamma'⟩ := la.solve_total .upper lᵀ (yt' - ft * beta') (la.solve_spec _ _ _ _ hgamma).1
    exact ⟨_, l, hl, ft, hft, ⟨q, r⟩, hqr, (if_neg hw).trans (Option.bind_eq_some_iff.2 ⟨yt', hyt',
      Option.bind_eq_some_iff.2 ⟨beta', hbeta', Option.bind_eq_some_iff.2 ⟨gamma', hgamma', rfl⟩⟩⟩)⟩

theorem colMean_comb (hn : n ≠ 0) (y z : Fin n → ℝ) (a b c : ℝ) :
    colMean (fun i => a * y i + b * z i + c) = a * colMean y + b * colMean z + c := by
  have : (n : ℝ) ≠ 0 := by exact_mod_cast hn
  simp only [colMean, Finset.sum_add_distrib, ← Finset.mul_sum, Finset.sum_const, Finset.card_univ, Fintype.card_fin,
    nsmul_eq_mul]
  field_simp

/-- The prediction is linear in the outputs, and follows a change of origin. -/
theorem C104_linear {la1 la2 : LinAlg} {y1 y2 : Fin n → ℝ} {g1 g2 : Model n d h} (a b c : ℝ)
    (h1 : fitWith la1 kernel mean nugget theta w x y1 = some g1)
    (h2 : fitWith la2 kernel mean nugget theta w x y2 = some g2)
    (hg : fitWith la kernel mean nugget theta w x (fun i => a * y1 i + b * y2 i + c) = some g) (x' : Fin d → ℝ) :
    g.predict x' = a * g1.predict x' + b * g2.predict x' + c := by
  have hn : n ≠ 0 := by have := (fitWith_ok hg).two; omega
  have hc : centred (fun i => a * y1 i + b * y2 i + c) = a • centred y1 + b • centred y2 := by
    funext i j
    simp only [centred, Matrix.of_apply, Matrix.add_apply, Matrix.smul_apply, smul_eq_mul, colMean_comb hn]
    ring
  rw [(predict_closed hg la x').1, (predict_closed h1 la x').1, (predict_closed h2 la x').1, hc, krigMean_comb,
    colMean_comb hn]
  ring

/-- Changing the unit and the origin of the outputs changes predictions the same way, variances by the square of the
factor. -/
theorem C104_units {la1 : LinAlg} {g1 : Model n d h} (a c : ℝ)
    (h1 : fitWith la1 kernel mean nugget theta w x y = some g1)
    (hg : fitWith la kernel mean nugget theta w x (fun i => a * y i + c) = some g) (la' la'' : LinAlg)
    (x' : Fin d → ℝ) :
    g.predict x' = a * g1.predict x' + c ∧
      g.predictVar la' x' = (g1.predictVar la'' x').map fun v => a ^ 2 * v := by
  have hn : n ≠ 0 := by have := (fitWith_ok hg).two; omega
  have hm : colMean (fun i => a * y i + c) = a * colMean y + c := by
    have := colMean_comb hn y y a 0 c
    simpa using this
  have hc : centred (fun i => a * y i + c) = a • centred y := by
    funext i j
    simp only [centred, Matrix.of_apply, Matrix.smul_apply, smul_eq_mul, hm]
    ring
  obtain ⟨e1, e2⟩ := predict_closed hg la' x'
  obtain ⟨e3, e4⟩ := predict_closed h1 la'' x'
  rw [e1, e2, e3, e4, hc, krigMean_smul, krigSigma2_smul, hm, Option.map_some]
  refine ⟨by ring, ?_⟩
  rw [mul_assoc, mul_max_of_nonneg _ _ (sq_nonneg a), mul_zero]

theorem stdOf_affine (hn : n ≠ 0) (y : Fin n → ℝ) (a c : ℝ) (ha : a ≠ 0) :
    (centred y = 0 ∧ centred (fun i => a * y i + c) = 0) ∨ stdOf (fun i => a * y i + c) = |a| * stdOf y := by
  have hm : colMean (fun i => a * y i + c) = a * colMean y + c := by
    have := colMean_comb hn y y a 0 c
    simpa using this
  have hs : ∀ i, a * y i + c - colMean (fun i => a * y i + c) = a * (y i - colMean y) := fun i => by rw [hm]; ring
  have hv : √((∑ i, (a * y i + c - colMean (fun i => a * y i + c)) ^ 2) / ((n : ℝ) - 1)) =
      |a| * √((∑ i, (y i - colMean y) ^ 2) / ((n : ℝ) - 1)) := by
    simp only [hs, mul_pow, ← Finset.mul_sum, mul_div_assoc]
    rw [Real.sqrt_mul (sq_nonneg a), Real.sqrt_sq_eq_abs]
  by_cases h0 : √((∑ i, (y i - colMean y) ^ 2) / ((n : ℝ) - 1)) = 0
  · by_cases hn1 : n = 1
    · left
      subst hn1
      constructor
      · funext i j; simp [centred, colMean, Fin.eq_zero i]
      · funext i j; simp [centred, colMean, Fin.eq_zero i]
    · left
      have hn2 : (0 : ℝ) < (n : ℝ) - 1 := by
        have : (1 : ℝ) < n := by exact_mod_cast (by omega : 1 < n)
        linarith
      have hsum : ∑ i, (y i - colMean y) ^ 2 = 0 := by
        have hnn : 0 ≤ (∑ i, (y i - colMean y) ^ 2) / ((n : ℝ) - 1) :=
          div_nonneg (Finset.sum_nonneg fun i _ => sq_nonneg _) hn2.le
        have := (Real.sqrt_eq_zero hnn).1 h0
        rcases div_eq_zero_iff.1 this with h | h
        · exact h
        · linarith
      have hz : ∀ i, y i - colMean y = 0 := fun i =>
        pow_eq_zero_iff (two_ne_zero) |>.1 ((Finset.sum_eq_zero_iff_of_nonneg fun i _ => sq_nonneg _).1 hsum i (Finset.mem_univ i))
      constructor
      · funext i j; simp [centred, hz i]
      · funext i j
        simp only [centred, Matrix.of_apply, hs, hz, mul_zero]; rfl
  · right
    have hne : ¬ |a| * √((∑ i, (y i - colMean y) ^ 2) / ((n : ℝ) - 1)) = 0 := mul_ne_zero (abs_ne_zero.2 ha) h0
    simp only [stdOf]
    rw [hv, if_neg hne, if_neg h0]

theorem likelihood_closed (hg : fitWith la kernel mean nugget theta w x y = some g) :
    g.likelihood = -(n : ℝ) * (Real.log (krigSigma2 (corrMatrix kernel theta w nugget (xnData x))
      (meanMat mean (xnData x)) (centred y) / stdOf y ^ 2) / Real.log 10 +
        (∑ i, Real.log (g.inner.rChol i i) / Real.log 10) * 2 / n) := by
  have ok := fitWith_ok hg
  obtain ⟨s, h1, h2⟩ := ok.lik
  have hx : g.xtData = xnData x := by
    funext i j
    rw [ok.xdata, ok.xmean, ok.xstdOf, xnData]
  have hY : centred y = g.ytStd • (Matrix.of fun i (_ : Fin 1) => g.ytData i) := by
    funext i j
    rw [Matrix.smul_apply, Matrix.of_apply, smul_eq_mul, ok.ydata, mul_div_cancel₀ _ ok.ystd.ne', ok.ymean]
    rfl
  have h3 := ok.inner.sigma_eq
  have hpos := ok.ystd
  rw [h2, hY, krigSigma2_smul, ← ok.ystdOf, mul_comm (g.ytStd ^ 2),
    mul_div_cancel_right₀ _ (pow_ne_zero 2 hpos.ne')]
  rw [h1] at h3
  have h4 := mul_right_cancel₀ hpos.ne' (mul_right_cancel₀ hpos.ne' h3)
  rw [h4]
  obtain ⟨kernel', mean', theta', w', lk, inner, xd, xm, xs', yd, ym, ys⟩ := g
  obtain rfl : kernel' = kernel := ok.kernel
  obtain rfl : mean' = mean := ok.mean
  obtain rfl : theta' = theta := ok.theta
  obtain rfl : w' = w := ok.w
  simp only at hx
  subst hx
  rfl

/-- The likelihood of any hyperparameters does not depend on the unit and the origin of the outputs, so that the
hyperparameters found by the optimization do not either. -/
theorem C104_likelihood (la : LinAlg) (kernel : Kernel) (mean : Mean) (nugget : ℝ) (theta : Fin h → ℝ)
    (w : Fin d → Fin h → ℝ) (x : Fin n → Fin d → ℝ) (y : Fin n → ℝ) (a c : ℝ) (ha : a ≠ 0) :
    (fitWith la kernel mean nugget theta w x (fun i => a * y i + c)).map Model.likelihood =
      (fitWith la kernel mean nugget theta w x y).map Model.likelihood := by
  cases h1 : fitWith la kernel mean nugget theta w x y with
  | none =>
    cases h2 : fitWith la kernel mean nugget theta w x (fun i => a * y i + c) with
    | none => rfl
    | some g2 =>
      obtain ⟨g1, h3⟩ := C104_success h2 y
      rw [h1] at h3; cases h3
  | some g1 =>
    obtain ⟨g2, h2⟩ := C104_success h1 (fun i => a * y i + c)
    rw [h2, Option.map_some, Option.map_some]
    have hn : n ≠ 0 := by have := (fitWith_ok h1).two; omega
    have hch : g2.inner.rChol = g1.inner.rChol := by
      have e1 := fitWith_chol h1
      have e2 := fitWith_chol h2
      rw [e1] at e2
      exact (Option.some.inj e2).symm
    have hm : colMean (fun i => a * y i + c) = a * colMean y + c := by
      have := colMean_comb hn y y a 0 c
      simpa using this
    have hc : centred (fun i => a * y i + c) = a • centred y := by
      funext i j
      simp only [centred, Matrix.of_apply, Matrix.smul_apply, smul_eq_mul, hm]
      ring
    congr 1
    rw [likelihood_closed h1, likelihood_closed h2]
    have hch' : ∀ i, g2.inner.rChol i i = g1.inner.rChol i i := fun i => by rw [hch]
    simp only [hch']
    rcases stdOf_affine hn y a c ha with ⟨z1, z2⟩ | hs
    · have k0 : ∀ s : ℝ, krigSigma2 (corrMatrix kernel theta w nugget (xnData x)) (meanMat mean (xnData x))
          (0 : Matrix (Fin n) (Fin 1) ℝ) / s = 0 := by
        intro s
        have := krigSigma2_smul (corrMatrix kernel theta w nugget (xnData x)) (meanMat mean (xnData x))
          (0 : Matrix (Fin n) (Fin 1) ℝ) 0
        rw [zero_smul] at this
        rw [this]; simp
      rw [z1, z2, k0, k0]
    · rw [hc, krigSigma2_smul, hs, mul_pow, sq_abs, mul_div_mul_left _ _ (pow_ne_zero _ ha)]

/-! ## C105: units of the inputs -/

/-- `fitWith` from the normalized inputs. -/
noncomputable def fitCore (la : LinAlg) (kernel : Kernel) (mean : Mean) (nugget : ℝ) (theta : Fin h → ℝ)
    (w : Fin d → Fin h → ℝ) (xData : Fin n → Fin d → ℝ) (xMean xStd : Fin d → ℝ) (y : Fin n → ℝ) :
    Option (Model n d h) :=
  match crossDiff xData with
  | .error _ => none
  | .ok (N, c) =>
    (reducedLikelihood la (meanMat mean xData) (rMx N c.ind (fun r => kernel.value theta w (c.d r)) nugget)
      (fun i _ => (y i - colMean y) / stdOf y) (stdOf y)).map
      fun lp => ⟨kernel, mean, theta, w, lp.1, lp.2, xData, xMean, xStd, fun i => (y i - colMean y) / stdOf y,
        colMean y, stdOf y⟩

theorem fitWith_core : fitWith la kernel mean nugget theta w x y = if n < 2 then none else
    fitCore la kernel mean nugget theta w (xnData x) (fun j => colMean fun i => x i j) (fun j => stdOf fun i => x i j) y :=
  rfl

/-- The model with other stored means and deviations of the inputs. -/
def withInputs (xm xs : Fin d → ℝ) (g : Model n d h) : Model n d h :=
  { g with xtMean := xm, xtStd := xs }

theorem fitCore_map (xData : Fin n → Fin d → ℝ) (xm xs xm' xs' : Fin d → ℝ) :
    fitCore la kernel mean nugget theta w xData xm' xs' y =
      (fitCore la kernel mean nugget theta w xData xm xs y).map (withInputs xm' xs') := by
  simp only [fitCore]
  cases crossDiff xData with
  | error e => rfl
  | ok p =>
    simp only [Option.map_map]
    rfl

theorem opt_map_bind {α β γ : Type} (o : Option α) (f : α → Option β) (k : β → γ) :
    (o.bind f).map k = o.bind fun a => (f a).map k := by
  cases o <;> rfl

theorem colMean_affine (hn : n ≠ 0) (y : Fin n → ℝ) (a c : ℝ) :
    colMean (fun i => a * y i + c) = a * colMean y + c := by
  have := colMean_comb hn y y a 0 c
  simpa using this

theorem stdOf_pos_affine (hn : n ≠ 0) (y : Fin n → ℝ) (a c : ℝ) (ha : 0 < a) (h : a = 1 ∨ ∃ i j, y i ≠ y j) :
    stdOf (fun i => a * y i + c) = a * stdOf y := by
  rcases h with rfl | ⟨i, j, hij⟩
  · simp only [stdOf, one_mul]
    have h2 : ∀ i, y i + c - colMean (fun i => y i + c) = y i - colMean y := fun i => by
      have := colMean_affine hn y 1 c
      simp only [one_mul] at this
      rw [this]; ring
    simp only [h2]
  · rcases stdOf_affine hn y a c ha.ne' with ⟨z, _⟩ | hs
    · exfalso
      apply hij
      have h1 := congrFun (congrFun z i) 0
      have h2 := congrFun (congrFun z j) 0
      simp only [centred, Matrix.of_apply, Matrix.zero_apply] at h1 h2
      linarith
    · rw [hs, abs_of_pos ha]

/-- Changing the unit and the origin of the inputs (for the components which are not constant; only the origin for
the constant ones) gives the same fit: it succeeds in the same cases, with the same likelihood, and the predictions
at the changed points are the same ones; gradients are divided by the factors. -/
theorem C105_input_units (la : LinAlg) (kernel : Kernel) (mean : Mean) (nugget : ℝ) (theta : Fin h → ℝ)
    (w : Fin d → Fin h → ℝ) (x : Fin n → Fin d → ℝ) (y : Fin n → ℝ) (s t : Fin d → ℝ) (hs : ∀ j, 0 < s j)
    (hx : ∀ j, s j = 1 ∨ ∃ i i', x i j ≠ x i' j) :
    (fitWith la kernel mean nugget theta w x y = none ↔
      fitWith la kernel mean nugget theta w (fun i j => s j * x i j + t j) y = none) ∧
    ∀ g g', fitWith la kernel mean nugget theta w x y = some g →
      fitWith la kernel mean nugget theta w (fun i j => s j * x i j + t j) y = some g' →
      g'.likelihood = g.likelihood ∧
      ∀ (la' : LinAlg) (x' : Fin d → ℝ),
        g'.predict (fun j => s j * x' j + t j) = g.predict x' ∧
        g'.predictVar la' (fun j => s j * x' j + t j) = g.predictVar la' x' ∧
        g'.predictGradient (fun j => s j * x' j + t j) = (g.predictGradient x').map (fun v j => v j / s j) ∧
        g'.predictVarGradient la' (fun j => s j * x' j + t j) = (g.predictVarGradient la' x').map (fun v j => v j / s j) ∧
        ∀ (m : ℕ) (xs : Fin m → Fin d → ℝ),
          g'.covariance la' (fun a j => s j * xs a j + t j) = g.covariance la' xs := by
  by_cases hn : n < 2
  · have h1 : fitWith la kernel mean nugget theta w x y = none := by rw [fitWith_core, if_pos hn]
    have h2 : fitWith la kernel mean nugget theta w (fun i j => s j * x i j + t j) y = none := by
      rw [fitWith_core, if_pos hn]
    refine ⟨by rw [h1, h2], fun g g' e => by rw [h1] at e; cases e⟩
  have hn0 : n ≠ 0 := by omega
  have hm : ∀ j, colMean (fun i => s j * x i j + t j) = s j * colMean (fun i => x i j) + t j := fun j =>
    colMean_affine hn0 _ _ _
  have hsd : ∀ j, stdOf (fun i => s j * x i j + t j) = s j * stdOf (fun i => x i j) := fun j =>
    stdOf_pos_affine hn0 _ _ _ (hs j) (hx j)
  have hne : ∀ j, stdOf (fun i => x i j) ≠ 0 := fun j => (stdOf_pos _).ne'
  have hxd : xnData (fun i j => s j * x i j + t j) = xnData x := by
    funext i j
    simp only [xnData, hm, hsd]
    rw [show s j * x i j + t j - (s j * colMean (fun i => x i j) + t j) = s j * (x i j - colMean fun i => x i j) by ring,
      mul_div_mul_left _ _ (hs j).ne']
  have key : fitWith la kernel mean nugget theta w (fun i j => s j * x i j + t j) y =
      (fitWith la kernel mean nugget theta w x y).map (withInputs (fun j => colMean fun i => s j * x i j + t j)
        (fun j => stdOf fun i => s j * x i j + t j)) := by
    rw [fitWith_core, fitWith_core, if_neg hn, if_neg hn, hxd]
    exact fitCore_map _ _ _ _ _
  refine ⟨by rw [key, Option.map_eq_none_iff], fun g g' h1 h2 => ?_⟩
  rw [key, h1, Option.map_some, Option.some.injEq] at h2
  have ok := fitWith_ok h1
  subst h2
  set g' := withInputs (fun j => colMean fun i => s j * x i j + t j) (fun j => stdOf fun i => s j * x i j + t j) g with hg'
  have hnorm : ∀ x', g'.xnorm (fun j => s j * x' j + t j) = g.xnorm x' := by
    intro x'
    funext j
    show (s j * x' j + t j - colMean fun i => s j * x i j + t j) / (stdOf fun i => s j * x i j + t j) = _
    rw [hm, hsd, Model.xnorm, ok.xmean, ok.xstdOf,
      show s j * x' j + t j - (s j * colMean (fun i => x i j) + t j) = s j * (x' j - colMean fun i => x i j) by ring,
      mul_div_mul_left _ _ (hs j).ne']
  have hstd : ∀ j, g'.xtStd j = s j * g.xtStd j := fun j => by
    rw [ok.xstdOf]; exact hsd j
  refine ⟨rfl, fun la' x' => ⟨?_, ?_, ?_, ?_, fun m xs => ?_⟩⟩
  · simp only [Model.predict, hnorm]; rfl
  · simp only [Model.predictVar, Model.mse, hnorm]; rfl
  · simp only [Model.predictGradient, hnorm, hstd]
    have e : g'.mean = g.mean := rfl
    show (match g.mean.jacobian (g.xnorm x') with | .error _ => _ | .ok df => _) = _
    cases g.mean.jacobian (g.xnorm x') with
    | error e => rfl
    | ok J =>
      simp only [Option.map_some]
      congr 1
      funext j
      rw [mul_comm (s j), ← div_div]
      rfl
  · simp only [Model.predictVarGradient, hnorm, hstd, Option.bind_eq_bind, opt_map_bind]
    refine congrArg (Option.bind _) (funext fun rho1 => ?_)
    refine congrArg (Option.bind _) (funext fun invKr => ?_)
    refine congrArg (Option.bind _) (funext fun rho2 => ?_)
    refine congrArg (Option.bind _) (funext fun invKf => ?_)
    refine congrArg (Option.bind _) (funext fun rho3 => ?_)
    refine congrArg (Option.bind _) (funext fun invBat => ?_)
    refine congrArg (Option.bind _) (funext fun dMat => ?_)
    show (match g.mean.jacobian (g.xnorm x') with | .error _ => _ | .ok df => _) = _
    cases g.mean.jacobian (g.xnorm x') with
    | error e => rfl
    | ok J =>
      simp only [Option.map_some]
      congr 1
      funext j
      rw [mul_comm (s j), ← div_div, div_mul_eq_mul_div]
      rfl
  · simp only [Model.covariance, hnorm]; rfl

/-! ## C106: order of the training points -/

theorem colMean_perm (σ : Equiv.Perm (Fin n)) (y : Fin n → ℝ) : colMean (fun i => y (σ i)) = colMean y := by
  rw [colMean, colMean, Equiv.sum_comp σ y]

theorem stdOf_perm (σ : Equiv.Perm (Fin n)) (y : Fin n → ℝ) : stdOf (fun i => y (σ i)) = stdOf y := by
  simp only [stdOf, colMean_perm σ y]
  rw [Equiv.sum_comp σ (fun i => (y i - colMean y) ^ 2)]

theorem krigBeta_perm (σ : Equiv.Perm (Fin n)) (R : Matrix (Fin n) (Fin n) ℝ) (F : Matrix (Fin n) (Fin p) ℝ)
    (y : Matrix (Fin n) (Fin 1) ℝ) : krigBeta (R.submatrix σ σ) (F.submatrix σ id) (y.submatrix σ id) = krigBeta R F y := by
  simp only [krigBeta, Matrix.inv_submatrix_equiv, Matrix.transpose_submatrix, Matrix.submatrix_mul_equiv]
  simp

theorem krigMean_perm (σ : Equiv.Perm (Fin n)) (R : Matrix (Fin n) (Fin n) ℝ) (F : Matrix (Fin n) (Fin p) ℝ)
    (y r : Matrix (Fin n) (Fin 1) ℝ) (f : Matrix (Fin p) (Fin 1) ℝ) :
    krigMean (R.submatrix σ σ) (F.submatrix σ id) (y.submatrix σ id) (r.submatrix σ id) f = krigMean R F y r f := by
  have e : y.submatrix σ id - F.submatrix σ id * krigBeta R F y = (y - F * krigBeta R F y).submatrix σ id := by
    funext i j; rfl
  simp only [krigMean, krigBeta_perm, e, Matrix.inv_submatrix_equiv, Matrix.transpose_submatrix,
    Matrix.submatrix_mul_equiv]
  simp

theorem krigSigma2_perm (σ : Equiv.Perm (Fin n)) (R : Matrix (Fin n) (Fin n) ℝ) (F : Matrix (Fin n) (Fin p) ℝ)
    (y : Matrix (Fin n) (Fin 1) ℝ) :
    krigSigma2 (R.submatrix σ σ) (F.submatrix σ id) (y.submatrix σ id) = krigSigma2 R F y := by
  have e : y.submatrix σ id - F.submatrix σ id * krigBeta R F y = (y - F * krigBeta R F y).submatrix σ id := by
    funext i j; rfl
  simp only [krigSigma2, krigBeta_perm, e, Matrix.inv_submatrix_equiv, Matrix.transpose_submatrix,
    Matrix.submatrix_mul_equiv]
  simp

theorem krigVar_perm (σ : Equiv.Perm (Fin n)) (R : Matrix (Fin n) (Fin n) ℝ) (F : Matrix (Fin n) (Fin p) ℝ)
    (r : Matrix (Fin n) (Fin 1) ℝ) (f : Matrix (Fin p) (Fin 1) ℝ) :
    krigVar (R.submatrix σ σ) (F.submatrix σ id) (r.submatrix σ id) f = krigVar R F r f := by
  simp only [krigVar, Matrix.inv_submatrix_equiv, Matrix.transpose_submatrix, Matrix.submatrix_mul_equiv]
  simp

theorem log_chol {l R : Matrix (Fin n) (Fin n) ℝ} (h : l * lᵀ = R) (hl : ∀ i j, i < j → l i j = 0)
    (hd : ∀ i, 0 < l i i) : ∑ i, Real.log (l i i) = Real.log R.det / 2 := by
  have hdet : l.det = ∏ i, l i i := Matrix.det_of_isLowerTriangular l fun i j hij => hl i j hij
  have : Real.log R.det = 2 * ∑ i, Real.log (l i i) := by
    rw [← h, Matrix.det_mul, Matrix.det_transpose, hdet, ← Real.log_prod (fun i _ => (hd i).ne'), ← sq, Real.log_pow]
    simp
  rw [this]; ring

/-- The order of the training points does not matter: two fits of the same points in different orders have the same
likelihood and predict the same values and variances. -/
theorem C106_order {la1 : LinAlg} {g1 : Model n d h} (σ : Equiv.Perm (Fin n))
    (hg : fitWith la kernel mean nugget theta w x y = some g)
    (h1 : fitWith la1 kernel mean nugget theta w (fun i => x (σ i)) (fun i => y (σ i)) = some g1) :
    g1.likelihood = g.likelihood ∧ ∀ (la' la'' : LinAlg) (x' : Fin d → ℝ),
      g1.predict x' = g.predict x' ∧ g1.predictVar la' x' = g.predictVar la'' x' := by
  have hxd : xnData (fun i => x (σ i)) = fun i => xnData x (σ i) := by
    funext i j
    simp only [xnData, colMean_perm σ (fun i => x i j), stdOf_perm σ (fun i => x i j)]
  have hxp : ∀ x', xnPoint (fun i => x (σ i)) x' = xnPoint x x' := by
    intro x'
    funext j
    simp only [xnPoint, colMean_perm σ (fun i => x i j), stdOf_perm σ (fun i => x i j)]
  have hR : corrMatrix kernel theta w nugget (xnData fun i => x (σ i)) =
      (corrMatrix kernel theta w nugget (xnData x)).submatrix σ σ := by
    funext i j
    simp only [corrMatrix, hxd, Matrix.of_apply, Matrix.submatrix_apply, EmbeddingLike.apply_eq_iff_eq]
  have hF : meanMat mean (xnData fun i => x (σ i)) = (meanMat mean (xnData x)).submatrix σ id := by
    funext i j
    simp only [meanMat, hxd, Matrix.submatrix_apply, id]
  have hc : centred (fun i => y (σ i)) = (centred y).submatrix σ id := by
    funext i j
    simp only [centred, colMean_perm σ y, Matrix.of_apply, Matrix.submatrix_apply]
  have hr : ∀ x', rAt kernel theta w (fun i => x (σ i)) x' = (rAt kernel theta w x x').submatrix σ id := by
    intro x'
    funext i j
    simp only [rAt, hxp, hxd, Matrix.of_apply, Matrix.submatrix_apply]
  have hf : ∀ x', fAt mean (fun i => x (σ i)) x' = fAt mean x x' := by
    intro x'
    simp only [fAt, hxp]
  constructor
  · have key : ∀ {la2 : LinAlg} {x2 : Fin n → Fin d → ℝ} {y2 : Fin n → ℝ} {g2 : Model n d h},
        fitWith la2 kernel mean nugget theta w x2 y2 = some g2 →
        g2.likelihood = -(n : ℝ) * (Real.log (krigSigma2 (corrMatrix kernel theta w nugget (xnData x2))
          (meanMat mean (xnData x2)) (centred y2) / stdOf y2 ^ 2) / Real.log 10 +
          (Real.log (corrMatrix kernel theta w nugget (xnData x2)).det / 2 / Real.log 10) * 2 / n) := by
      intro la2 x2 y2 g2 h2
      rw [likelihood_closed h2]
      obtain ⟨e1, e2, e3⟩ := la2.chol_spec _ _ (corrMatrix_symm _ _ _ _ _) (fitWith_chol h2)
      rw [← log_chol e1 e2 e3, Finset.sum_div]
    rw [key h1, key hg, hR, hF, hc, krigSigma2_perm, stdOf_perm σ y, Matrix.det_submatrix_equiv_self]
  · intro la' la'' x'
    obtain ⟨e1, e2⟩ := predict_closed h1 la' x'
    obtain ⟨e3, e4⟩ := predict_closed hg la'' x'
    rw [e1, e2, e3, e4, hR, hF, hc, hr, hf, krigMean_perm, krigSigma2_perm, krigVar_perm, colMean_perm σ y]
    exact ⟨rfl, rfl⟩

/-! ## C107: best linear unbiased prediction -/

/-- Expected square of the error made by the combination of the observations with weights `l`, the process having unit
variance, correlations `R` between observations and correlations `r` with the value predicted, and the mean of the
combination being the mean of the value predicted. -/
noncomputable def errVar (R : Matrix (Fin n) (Fin n) ℝ) (r : Fin n → ℝ) (l : Fin n → ℝ) : ℝ :=
  1 - 2 * ∑ i, l i * r i + ∑ i, ∑ j, l i * R i j * l j

/-- Weights of universal kriging. -/
noncomputable def krigW (R : Matrix (Fin n) (Fin n) ℝ) (F : Matrix (Fin n) (Fin p) ℝ) (r : Matrix (Fin n) (Fin 1) ℝ)
    (f : Matrix (Fin p) (Fin 1) ℝ) : Matrix (Fin n) (Fin 1) ℝ :=
  R⁻¹ * (r + F * ((Fᵀ * R⁻¹ * F)⁻¹ * (f - Fᵀ * R⁻¹ * r)))

section
variable {R : Matrix (Fin n) (Fin n) ℝ} {F : Matrix (Fin n) (Fin p) ℝ} {r y0 : Matrix (Fin n) (Fin 1) ℝ}
  {f : Matrix (Fin p) (Fin 1) ℝ}

theorem krigW_unbiased (hB : IsUnit (Fᵀ * R⁻¹ * F).det) : Fᵀ * krigW R F r f = f := by
  have : Fᵀ * krigW R F r f = Fᵀ * R⁻¹ * r + (Fᵀ * R⁻¹ * F) * (Fᵀ * R⁻¹ * F)⁻¹ * (f - Fᵀ * R⁻¹ * r) := by
    simp only [krigW, Matrix.mul_add, Matrix.mul_assoc]
  rw [this, Matrix.mul_nonsing_inv _ hB, Matrix.one_mul, add_sub_cancel]

theorem gram_inv_symm (hs : R⁻¹ᵀ = R⁻¹) : (Fᵀ * R⁻¹ * F)⁻¹ᵀ = (Fᵀ * R⁻¹ * F)⁻¹ := by
  rw [Matrix.transpose_nonsing_inv]
  congr 1
  simp only [Matrix.transpose_mul, Matrix.transpose_transpose, hs, Matrix.mul_assoc]

theorem krigW_transpose (hs : R⁻¹ᵀ = R⁻¹) :
    (krigW R F r f)ᵀ = rᵀ * R⁻¹ + (f - Fᵀ * R⁻¹ * r)ᵀ * (Fᵀ * R⁻¹ * F)⁻¹ * (Fᵀ * R⁻¹) := by
  rw [krigW, Matrix.transpose_mul, hs, Matrix.transpose_add, Matrix.transpose_mul, Matrix.transpose_mul,
    gram_inv_symm hs, Matrix.add_mul]
  simp only [Matrix.mul_assoc]

theorem krigMean_eq_krigW (hs : R⁻¹ᵀ = R⁻¹) : krigMean R F y0 r f = ((krigW R F r f)ᵀ * y0) 0 0 := by
  rw [krigMean, krigW_transpose hs, krigBeta]
  simp only [Matrix.transpose_sub, Matrix.transpose_mul, hs, Matrix.transpose_transpose, Matrix.add_mul,
    Matrix.sub_mul, Matrix.mul_sub, Matrix.mul_assoc]
  simp only [Matrix.add_apply, Matrix.sub_apply]
  ring

theorem errVar_eq (l : Matrix (Fin n) (Fin 1) ℝ) :
    errVar R (fun i => r i 0) (fun i => l i 0) = 1 - 2 * (lᵀ * r) 0 0 + (lᵀ * R * l) 0 0 := by
  simp only [errVar, Matrix.mul_apply, Matrix.transpose_apply, Finset.sum_mul]
  rw [Finset.sum_comm]

theorem krigVar_eq_errVar (hR : IsUnit R.det) (hs : R⁻¹ᵀ = R⁻¹) (hB : IsUnit (Fᵀ * R⁻¹ * F).det) :
    krigVar R F r f = errVar R (fun i => r i 0) (fun i => krigW R F r f i 0) := by
  have h1 : R * krigW R F r f = r + F * ((Fᵀ * R⁻¹ * F)⁻¹ * (f - Fᵀ * R⁻¹ * r)) := by
    rw [krigW, ← Matrix.mul_assoc, Matrix.mul_nonsing_inv _ hR, Matrix.one_mul]
  have h2 : (krigW R F r f)ᵀ * F = fᵀ := by
    rw [← Matrix.transpose_transpose F, ← Matrix.transpose_mul, Matrix.transpose_transpose, krigW_unbiased hB]
  have h3 : (krigW R F r f)ᵀ * R * krigW R F r f =
      (krigW R F r f)ᵀ * r + fᵀ * ((Fᵀ * R⁻¹ * F)⁻¹ * (f - Fᵀ * R⁻¹ * r)) := by
    rw [Matrix.mul_assoc, h1, Matrix.mul_add, ← Matrix.mul_assoc _ F, h2]
  have h4 : (krigW R F r f)ᵀ * r = rᵀ * R⁻¹ * r + (f - Fᵀ * R⁻¹ * r)ᵀ * (Fᵀ * R⁻¹ * F)⁻¹ * (Fᵀ * R⁻¹ * r) := by
    rw [krigW_transpose hs, Matrix.add_mul]
    simp only [Matrix.mul_assoc]
  -- the trend part is symmetric
  have h5 : (fᵀ * ((Fᵀ * R⁻¹ * F)⁻¹ * (f - Fᵀ * R⁻¹ * r))) 0 0 =
      ((f - Fᵀ * R⁻¹ * r)ᵀ * (Fᵀ * R⁻¹ * F)⁻¹ * f) 0 0 := by
    have e : (fᵀ * ((Fᵀ * R⁻¹ * F)⁻¹ * (f - Fᵀ * R⁻¹ * r)))ᵀ = (f - Fᵀ * R⁻¹ * r)ᵀ * (Fᵀ * R⁻¹ * F)⁻¹ * f := by
      rw [Matrix.transpose_mul, Matrix.transpose_mul, gram_inv_symm hs, Matrix.transpose_transpose]
    rw [← e]; rfl
  rw [errVar_eq, h3, Matrix.add_apply, h5, h4, krigVar]
  rw [show (f - Fᵀ * R⁻¹ * r)ᵀ * (Fᵀ * R⁻¹ * F)⁻¹ * (f - Fᵀ * R⁻¹ * r) =
    (f - Fᵀ * R⁻¹ * r)ᵀ * (Fᵀ * R⁻¹ * F)⁻¹ * f - (f - Fᵀ * R⁻¹ * r)ᵀ * (Fᵀ * R⁻¹ * F)⁻¹ * (Fᵀ * R⁻¹ * r) from
    Matrix.mul_sub _ _ _, Matrix.sub_apply, Matrix.add_apply]
  ring

theorem errVar_min (hR : IsUnit R.det) (hp : R.PosSemidef) (hsy : Rᵀ = R) (hB : IsUnit (Fᵀ * R⁻¹ * F).det)
    (l : Matrix (Fin n) (Fin 1) ℝ) (hl : Fᵀ * l = f) :
    errVar R (fun i => r i 0) (fun i => krigW R F r f i 0) ≤ errVar R (fun i => r i 0) (fun i => l i 0) := by
  have h1 : R * krigW R F r f = r + F * ((Fᵀ * R⁻¹ * F)⁻¹ * (f - Fᵀ * R⁻¹ * r)) := by
    rw [krigW, ← Matrix.mul_assoc, Matrix.mul_nonsing_inv _ hR, Matrix.one_mul]
  set W := krigW R F r f with hW
  have hd : (l - W)ᵀ * F = 0 := by
    have : Fᵀ * (l - W) = 0 := by rw [Matrix.mul_sub, hl, hW, krigW_unbiased hB, sub_self]
    rw [← Matrix.transpose_transpose F, ← Matrix.transpose_mul, this, Matrix.transpose_zero]
  have h2 : (l - W)ᵀ * R * W = (l - W)ᵀ * r := by
    rw [Matrix.mul_assoc, h1, Matrix.mul_add, ← Matrix.mul_assoc _ F, hd, Matrix.zero_mul, add_zero]
  have h3 : (Wᵀ * R * (l - W)) 0 0 = ((l - W)ᵀ * r) 0 0 := by
    have e : (Wᵀ * R * (l - W))ᵀ = (l - W)ᵀ * R * W := by
      rw [Matrix.transpose_mul, Matrix.transpose_mul, hsy, Matrix.transpose_transpose, Matrix.mul_assoc]
    rw [← h2, ← e]; rfl
  have h4 : 0 ≤ ((l - W)ᵀ * R * (l - W)) 0 0 := by
    have := hp.conjTranspose_mul_mul_same (l - W)
    rw [Matrix.conjTranspose_eq_transpose_of_trivial] at this
    exact this.diag_nonneg
  have h5 : lᵀ * R * l = Wᵀ * R * W + Wᵀ * R * (l - W) + (l - W)ᵀ * R * W + (l - W)ᵀ * R * (l - W) := by
    simp only [Matrix.transpose_sub, Matrix.sub_mul, Matrix.mul_sub]
    abel
  have h6 : lᵀ * r = Wᵀ * r + (l - W)ᵀ * r := by
    rw [Matrix.transpose_sub, Matrix.sub_mul]; abel
  rw [errVar_eq, errVar_eq, h5, h6]
  simp only [Matrix.add_apply]
  rw [h3, h2]
  linarith

end

/-- The trends of a mean model: constants, affine functions or quadratic functions. -/
def IsTrend : Mean → ((Fin d → ℝ) → ℝ) → Prop
  | .constant, t => ∃ c, ∀ z, t z = c
  | .linear, t => ∃ (c : ℝ) (b : Fin d → ℝ), ∀ z, t z = c + ∑ j, b j * z j
  | .quadratic, t => ∃ (c : ℝ) (b : Fin d → ℝ) (q : Fin d → Fin d → ℝ), ∀ z,
      t z = c + ∑ j, b j * z j + ∑ j, ∑ k, q j k * (z j * z k)

/-- Weights of the observations whose combination is the value predicted at `x'` whenever the observed function is a
trend. -/
def Unbiased (mean : Mean) (x : Fin n → Fin d → ℝ) (x' : Fin d → ℝ) (l : Fin n → ℝ) : Prop :=
  ∀ t, IsTrend mean t → ∑ i, l i * t (x i) = t x'

theorem IsTrend.add {s t : (Fin d → ℝ) → ℝ} (hs : IsTrend mean s) (ht : IsTrend mean t) : IsTrend mean (s + t) := by
  cases mean with
  | constant =>
    obtain ⟨c, h1⟩ := hs
    obtain ⟨c', h2⟩ := ht
    exact ⟨c + c', fun z => by rw [Pi.add_apply, h1, h2]⟩
  | linear =>
    obtain ⟨c, b, h1⟩ := hs
    obtain ⟨c', b', h2⟩ := ht
    refine ⟨c + c', b + b', fun z => ?_⟩
    rw [Pi.add_apply, h1, h2]
    simp only [Pi.add_apply, add_mul, Finset.sum_add_distrib]
    ring
  | quadratic =>
    obtain ⟨c, b, q, h1⟩ := hs
    obtain ⟨c', b', q', h2⟩ := ht
    refine ⟨c + c', b + b', q + q', fun z => ?_⟩
    rw [Pi.add_apply, h1, h2]
    simp only [Pi.add_apply, add_mul, Finset.sum_add_distrib]
    ring

theorem IsTrend.smul {t : (Fin d → ℝ) → ℝ} (a : ℝ) (ht : IsTrend mean t) : IsTrend mean (a • t) := by
  cases mean with
  | constant =>
    obtain ⟨c, h1⟩ := ht
    exact ⟨a * c, fun z => by rw [Pi.smul_apply, h1, smul_eq_mul]⟩
  | linear =>
    obtain ⟨c, b, h1⟩ := ht
    refine ⟨a * c, a • b, fun z => ?_⟩
    rw [Pi.smul_apply, h1]
    simp only [Pi.smul_apply, smul_eq_mul, mul_add, Finset.mul_sum, mul_assoc]
  | quadratic =>
    obtain ⟨c, b, q, h1⟩ := ht
    refine ⟨a * c, a • b, a • q, fun z => ?_⟩
    rw [Pi.smul_apply, h1]
    simp only [Pi.smul_apply, smul_eq_mul, mul_add, Finset.mul_sum, mul_assoc]

theorem IsTrend.const (c : ℝ) : IsTrend mean (fun _ : Fin d → ℝ => c) := by
  cases mean with
  | constant => exact ⟨c, fun _ => rfl⟩
  | linear => exact ⟨c, 0, fun z => by simp⟩
  | quadratic => exact ⟨c, 0, 0, fun z => by simp⟩

theorem IsTrend.lin (j : Fin d) (hm : mean ≠ .constant) : IsTrend mean (fun z : Fin d → ℝ => z j) := by
  cases mean with
  | constant => exact absurd rfl hm
  | linear => exact ⟨0, Pi.single j 1, fun z => by simp [Pi.single_apply]⟩
  | quadratic => exact ⟨0, Pi.single j 1, 0, fun z => by simp [Pi.single_apply]⟩

theorem IsTrend.quad (j k : Fin d) : IsTrend .quadratic (fun z : Fin d → ℝ => z j * z k) :=
  ⟨0, 0, Pi.single j (Pi.single k 1), fun z => by
    have : ∀ i, ∑ l, (Pi.single j (Pi.single k (1 : ℝ)) : Fin d → Fin d → ℝ) i l * (z i * z l) =
        if i = j then z j * z k else 0 := by
      intro i
      by_cases e : i = j
      · subst e; simp [Pi.single_apply]
      · simp [e]
    simp only [this]
    simp⟩

/-- The trends form a vector space. -/
def trendSub (mean : Mean) (d : ℕ) : Submodule ℝ ((Fin d → ℝ) → ℝ) where
  carrier := {t | IsTrend mean t}
  add_mem' := IsTrend.add
  zero_mem' := IsTrend.const 0
  smul_mem' := fun a _ h => IsTrend.smul a h

/-- The basis functions of a mean model. -/
def monos : Mean → (d : ℕ) → List ((Fin d → ℝ) → ℝ)
  | .constant, _ => [fun _ => 1]
  | .linear, _ => (fun _ => 1) :: List.ofFn fun j u => u j
  | .quadratic, d => (fun _ => 1) :: (List.ofFn fun j u => u j) ++
      (List.finRange d).flatMap fun i => ((List.finRange d).filter fun j => i ≤ j).map fun j u => u i * u j

theorem value_monos (mean : Mean) (u : Fin d → ℝ) : mean.value u = (monos mean d).map fun φ => φ u := by
  cases mean with
  | constant => rw [(C42_basis u).1]; rfl
  | linear => rw [(C42_basis u).2.1, monos, List.map_cons, List.map_ofFn]; rfl
  | quadratic =>
    rw [(C42_basis u).2.2, monos, List.map_append, List.map_cons, List.map_ofFn, List.map_flatMap]
    simp only [List.map_map]
    rfl

theorem monos_length (mean : Mean) (d : ℕ) : (monos mean d).length = basis mean d := by
  have h := C42_basis_size mean (0 : Fin d → ℝ)
  rw [value_monos, List.length_map] at h
  rw [h]
  cases mean <;> rfl

/-- A basis function of the normalized inputs. -/
noncomputable def feat (mean : Mean) (x : Fin n → Fin d → ℝ) (a : Fin (basis mean d)) : (Fin d → ℝ) → ℝ :=
  fun z => (mean.value (xnPoint x z)).getD a 0

theorem feat_eq (a : Fin (basis mean d)) :
    ∃ φ ∈ monos mean d, feat mean x a = fun z => φ (xnPoint x z) := by
  have ha : a.val < (monos mean d).length := by rw [monos_length]; exact a.2
  refine ⟨(monos mean d)[a.val], List.getElem_mem ha, ?_⟩
  funext z
  rw [feat, value_monos, List.getD_eq_getElem?_getD, List.getElem?_map, List.getElem?_eq_getElem ha]
  rfl

theorem mem_feat {φ : (Fin d → ℝ) → ℝ} (hφ : φ ∈ monos mean d) :
    (fun z => φ (xnPoint x z)) ∈ Submodule.span ℝ (Set.range (feat mean x)) := by
  obtain ⟨a, ha, rfl⟩ := List.mem_iff_getElem.1 hφ
  refine Submodule.subset_span ⟨⟨a, by rw [← monos_length]; exact ha⟩, ?_⟩
  funext z
  rw [feat, value_monos, List.getD_eq_getElem?_getD, List.getElem?_map, List.getElem?_eq_getElem ha]
  rfl

theorem xnPoint_trend (j : Fin d) (hm : mean ≠ .constant) : IsTrend mean (fun z => xnPoint x z j) := by
  have := ((IsTrend.lin (mean := mean) j hm).smul (1 / stdOf fun i => x i j)).add
    (IsTrend.const (-(colMean fun i => x i j) / stdOf fun i => x i j))
  convert this using 1
  funext z
  simp only [xnPoint, Pi.add_apply, Pi.smul_apply, smul_eq_mul]
  ring

theorem xnPoint_quad (j k : Fin d) : IsTrend .quadratic (fun z => xnPoint x z j * xnPoint x z k) := by
  have := (((IsTrend.quad j k).smul (1 / ((stdOf fun i => x i j) * stdOf fun i => x i k))).add
    ((IsTrend.lin (mean := .quadratic) j (by simp)).smul
      (-(colMean fun i => x i k) / ((stdOf fun i => x i j) * stdOf fun i => x i k)))).add
    (((IsTrend.lin (mean := .quadratic) k (by simp)).smul
      (-(colMean fun i => x i j) / ((stdOf fun i => x i j) * stdOf fun i => x i k))).add
    (IsTrend.const ((colMean fun i => x i j) * (colMean fun i => x i k) /
      ((stdOf fun i => x i j) * stdOf fun i => x i k))))
  convert this using 1
  funext z
  simp only [xnPoint, Pi.add_apply, Pi.smul_apply, smul_eq_mul]
  have h1 := (stdOf_pos fun i => x i j).ne'
  have h2 := (stdOf_pos fun i => x i k).ne'
  field_simp
  ring

theorem feat_trend (a : Fin (basis mean d)) : IsTrend mean (feat mean x a) := by
  obtain ⟨φ, hφ, e⟩ := feat_eq (x := x) a
  rw [e]
  cases mean with
  | constant =>
    simp only [monos, List.mem_singleton] at hφ
    subst hφ
    exact IsTrend.const 1
  | linear =>
    simp only [monos, List.mem_cons, List.mem_ofFn] at hφ
    obtain rfl | ⟨j, rfl⟩ := hφ
    · exact IsTrend.const 1
    · exact xnPoint_trend j (by simp)
  | quadratic =>
    simp only [monos, List.mem_append, List.mem_cons, List.mem_ofFn, List.mem_flatMap, List.mem_map] at hφ
    obtain (rfl | ⟨j, rfl⟩) | ⟨i, _, j, _, rfl⟩ := hφ
    · exact IsTrend.const 1
    · exact xnPoint_trend j (by simp)
    · exact xnPoint_quad i j

theorem const_span (c : ℝ) : (fun _ => c) ∈ Submodule.span ℝ (Set.range (feat mean x)) := by
  have h : (fun _ : Fin d → ℝ => (1 : ℝ)) ∈ monos mean d := by cases mean <;> simp [monos]
  have := Submodule.smul_mem _ c (mem_feat (x := x) h)
  convert this using 1
  funext z
  simp

theorem lin_span (j : Fin d) (hm : mean ≠ .constant) :
    (fun z => z j) ∈ Submodule.span ℝ (Set.range (feat mean x)) := by
  have h : (fun u : Fin d → ℝ => u j) ∈ monos mean d := by
    cases mean with
    | constant => exact absurd rfl hm
    | linear => simp only [monos, List.mem_cons, List.mem_ofFn]; exact Or.inr ⟨j, rfl⟩
    | quadratic =>
      simp only [monos, List.mem_append, List.mem_cons, List.mem_ofFn]; exact Or.inl (Or.inr ⟨j, rfl⟩)
  have := Submodule.add_mem _ (Submodule.smul_mem _ (stdOf fun i => x i j) (mem_feat (x := x) h))
    (const_span (mean := mean) (x := x) (colMean fun i => x i j))
  convert this using 1
  funext z
  simp only [xnPoint, Pi.add_apply, Pi.smul_apply, smul_eq_mul]
  rw [mul_div_cancel₀ _ (stdOf_pos fun i => x i j).ne']
  ring

theorem quad_span (j k : Fin d) :
    (fun z => z j * z k) ∈ Submodule.span ℝ (Set.range (feat .quadratic x)) := by
  wlog hjk : j ≤ k generalizing j k
  · have := this k j (le_of_not_ge hjk)
    convert this using 1
    funext z
    ring
  have h : (fun u : Fin d → ℝ => u j * u k) ∈ monos .quadratic d := by
    simp only [monos, List.mem_append, List.mem_flatMap, List.mem_map, List.mem_filter]
    exact Or.inr ⟨j, List.mem_finRange j, k, ⟨List.mem_finRange k, by simpa using hjk⟩, rfl⟩
  have := Submodule.add_mem _ (Submodule.add_mem _
    (Submodule.smul_mem _ ((stdOf fun i => x i j) * stdOf fun i => x i k) (mem_feat (x := x) h))
    (Submodule.smul_mem _ (colMean fun i => x i k) (lin_span (mean := .quadratic) (x := x) j (by simp))))
    (Submodule.add_mem _ (Submodule.smul_mem _ (colMean fun i => x i j)
      (lin_span (mean := .quadratic) (x := x) k (by simp)))
    (const_span (mean := .quadratic) (x := x) (-((colMean fun i => x i j) * colMean fun i => x i k))))
  convert this using 1
  funext z
  simp only [xnPoint, Pi.add_apply, Pi.smul_apply, smul_eq_mul]
  have h1 := (stdOf_pos fun i => x i j).ne'
  have h2 := (stdOf_pos fun i => x i k).ne'
  field_simp
  ring

/-- The trends are the combinations of the basis functions of the normalized inputs. -/
theorem trend_iff (t : (Fin d → ℝ) → ℝ) : IsTrend mean t ↔ t ∈ Submodule.span ℝ (Set.range (feat mean x)) := by
  constructor
  · intro ht
    cases mean with
    | constant =>
      obtain ⟨c, h⟩ := ht
      obtain rfl : t = fun _ => c := funext h
      exact const_span c
    | linear =>
      obtain ⟨c, b, h⟩ := ht
      obtain rfl : t = (fun _ => c) + ∑ j, b j • fun z : Fin d → ℝ => z j := by
        funext z; rw [h]; simp [Finset.sum_apply]
      exact Submodule.add_mem _ (const_span c) (Submodule.sum_mem _ fun j _ =>
        Submodule.smul_mem _ _ (lin_span j (by simp)))
    | quadratic =>
      obtain ⟨c, b, q, h⟩ := ht
      obtain rfl : t = (fun _ => c) + (∑ j, b j • fun z : Fin d → ℝ => z j) +
          ∑ j, ∑ k, q j k • fun z : Fin d → ℝ => z j * z k := by
        funext z; rw [h]; simp [Finset.sum_apply]
      exact Submodule.add_mem _ (Submodule.add_mem _ (const_span c) (Submodule.sum_mem _ fun j _ =>
        Submodule.smul_mem _ _ (lin_span j (by simp)))) (Submodule.sum_mem _ fun j _ => Submodule.sum_mem _ fun k _ =>
        Submodule.smul_mem _ _ (quad_span j k))
  · intro ht
    have : Submodule.span ℝ (Set.range (feat mean x)) ≤ trendSub mean d := by
      rw [Submodule.span_le]
      rintro _ ⟨a, rfl⟩
      exact feat_trend a
    exact this ht

theorem meanMat_feat (i : Fin n) (a : Fin (basis mean d)) : meanMat mean (xnData x) i a = feat mean x a (x i) := rfl

theorem unbiased_iff (l : Fin n → ℝ) (x' : Fin d → ℝ) : Unbiased mean x x' l ↔
    (meanMat mean (xnData x))ᵀ * (Matrix.of fun i (_ : Fin 1) => l i) = fAt mean x x' := by
  constructor
  · intro hl
    funext a b
    rw [Matrix.mul_apply]
    have := hl _ (feat_trend (x := x) a)
    calc _ = ∑ i, l i * feat mean x a (x i) := Finset.sum_congr rfl fun i _ => by
          rw [Matrix.transpose_apply, meanMat_feat, mul_comm]; rfl
      _ = _ := this
  · intro hl t ht
    rw [trend_iff (x := x)] at ht
    induction ht using Submodule.span_induction with
    | mem t h =>
      obtain ⟨a, rfl⟩ := h
      have := congrFun (congrFun hl a) 0
      rw [Matrix.mul_apply] at this
      refine Eq.trans (Finset.sum_congr rfl fun i _ => ?_) this
      rw [Matrix.transpose_apply, meanMat_feat, mul_comm]; rfl
    | zero => simp
    | add s t _ _ h1 h2 => simp only [Pi.add_apply, mul_add, Finset.sum_add_distrib, h1, h2]
    | smul a t _ h1 =>
      simp only [Pi.smul_apply, smul_eq_mul, ← h1, Finset.mul_sum]
      exact Finset.sum_congr rfl fun i _ => by ring

theorem fit_matrices (hg : fitWith la kernel mean nugget theta w x y = some g) :
    (corrMatrix kernel theta w nugget (xnData x)).PosDef ∧
    IsUnit (corrMatrix kernel theta w nugget (xnData x)).det ∧
    IsUnit ((meanMat mean (xnData x))ᵀ * (corrMatrix kernel theta w nugget (xnData x))⁻¹ * meanMat mean (xnData x)).det ∧
    g.inner.sigma2 = krigSigma2 (corrMatrix kernel theta w nugget (xnData x)) (meanMat mean (xnData x)) (centred y) := by
  have ok := fitWith_ok hg
  have hY : centred y = g.ytStd • (Matrix.of fun i (_ : Fin 1) => g.ytData i) := by
    funext i j
    rw [Matrix.smul_apply, Matrix.of_apply, ok.ydata, smul_eq_mul, mul_div_cancel₀ _ ok.ystd.ne', ok.ymean]
    rfl
  have hx : g.xtData = xnData x := by
    funext i j
    rw [ok.xdata, ok.xmean, ok.xstdOf, xnData]
  have hin := ok.inner
  rw [hx, ok.kernel, ok.theta, ok.w] at hin
  rw [hY, krigSigma2_smul]
  obtain ⟨kernel', mean', theta', w', lk, inner, xd, xm, xs', yd, ym, ys⟩ := g
  obtain rfl : mean' = mean := ok.mean
  refine ⟨inner_posDef hin, hin.unitR, hin.unitB, ?_⟩
  rw [hin.sigma_eq]
  ring

/-- Prediction is the best linear unbiased prediction: it is a combination of the outputs with weights that depend only
on the inputs, which are unbiased, the predicted variance is that of the error made, and every other unbiased weights
make an error at least as large. -/
theorem C107_best_linear_unbiased (kernel : Kernel) (mean : Mean) (nugget : ℝ) (theta : Fin h → ℝ)
    (w : Fin d → Fin h → ℝ) (x : Fin n → Fin d → ℝ) (x' : Fin d → ℝ) :
    ∃ l : Fin n → ℝ, ∀ (la la' : LinAlg) (y : Fin n → ℝ) (g : Model n d h),
      fitWith la kernel mean nugget theta w x y = some g →
      let err := errVar (corrMatrix kernel theta w nugget g.xtData)
        (fun i => kernel.value theta w (g.xnorm x' - g.xtData i))
      g.predict x' = ∑ i, l i * y i ∧ Unbiased mean x x' l ∧
      g.predictVar la' x' = some (max 0 (g.inner.sigma2 * err l)) ∧
      (∀ l', Unbiased mean x x' l' → err l ≤ err l') ∧
      ((∀ k, 0 ≤ theta k) → 0 ≤ nugget → g.predictVar la' x' = some (g.inner.sigma2 * err l)) := by
  refine ⟨fun i => krigW (corrMatrix kernel theta w nugget (xnData x)) (meanMat mean (xnData x))
    (rAt kernel theta w x x') (fAt mean x x') i 0, fun la la' y g hg => ?_⟩
  have ok := fitWith_ok hg
  have hx : g.xtData = xnData x := by
    funext i j
    rw [ok.xdata, ok.xmean, ok.xstdOf, xnData]
  have hp : g.xnorm x' = xnPoint x x' := by
    funext j
    rw [Model.xnorm, ok.xmean, ok.xstdOf, xnPoint]
  obtain ⟨hpd, hR, hB, hsig⟩ := fit_matrices hg
  have hsy := corrMatrix_symm kernel theta w nugget (xnData x)
  have hs : (corrMatrix kernel theta w nugget (xnData x))⁻¹ᵀ = (corrMatrix kernel theta w nugget (xnData x))⁻¹ := by
    rw [Matrix.transpose_nonsing_inv, hsy]
  have hr : (fun i => kernel.value theta w (g.xnorm x' - g.xtData i)) = fun i => rAt kernel theta w x x' i 0 := by
    funext i
    rw [hp, hx]; rfl
  rw [hr, hx]
  intro err
  have hub : Unbiased mean x x' (fun i => krigW (corrMatrix kernel theta w nugget (xnData x))
      (meanMat mean (xnData x)) (rAt kernel theta w x x') (fAt mean x x') i 0) := by
    rw [unbiased_iff]
    refine Eq.trans (congrArg _ ?_) (krigW_unbiased (r := rAt kernel theta w x x') (f := fAt mean x x') hB)
    funext i j
    rw [Subsingleton.elim j 0]; rfl
  obtain ⟨h1, h2⟩ := predict_closed hg la' x'
  have hv := krigVar_eq_errVar (r := rAt kernel theta w x x') (f := fAt mean x x') hR hs hB
  refine ⟨?_, hub, ?_, fun l' hl' => ?_, fun hθ hn => ?_⟩
  · rw [h1, krigMean_eq_krigW hs, Matrix.mul_apply]
    have h1' := hub _ (IsTrend.const 1)
    simp only [mul_one] at h1'
    simp only [Matrix.transpose_apply, centred, Matrix.of_apply, mul_sub, Finset.sum_sub_distrib, ← Finset.sum_mul]
    rw [h1']
    ring
  · rw [h2, hsig, hv]
  · rw [unbiased_iff] at hl'
    exact errVar_min hR hpd.posSemidef hsy hB _ hl'
  · have e := C91_variance hg hθ hn la' x'
    simp only [hx, hp] at e
    have hY : centred y = g.ytStd • (Matrix.of fun i (_ : Fin 1) => (y i - g.ytMean) / g.ytStd) := by
      funext i j
      rw [Matrix.smul_apply, Matrix.of_apply, smul_eq_mul, mul_div_cancel₀ _ ok.ystd.ne', ok.ymean]
      rfl
    rw [e, hsig, hY, krigSigma2_smul, mul_comm (g.ytStd ^ 2)]
    exact congrArg (fun v => some (_ * v)) hv

/-- Outputs that are those of a trend are predicted exactly everywhere, with variance zero. The estimated variance of
the process is zero for no other outputs. -/
theorem C107_trend (hg : fitWith la kernel mean nugget theta w x y = some g) :
    (∀ t, IsTrend mean t → (∀ i, y i = t (x i)) → ∀ (la' : LinAlg) (x' : Fin d → ℝ),
      g.predict x' = t x' ∧ g.predictVar la' x' = some 0) ∧
    (g.inner.sigma2 = 0 ↔ ∃ t, IsTrend mean t ∧ ∀ i, y i = t (x i)) := by
  obtain ⟨hpd, hR, hB, hsig⟩ := fit_matrices hg
  have hn : (n : ℝ) ≠ 0 := by have := (fitWith_ok hg).two; exact_mod_cast (by omega : n ≠ 0)
  set R := corrMatrix kernel theta w nugget (xnData x) with hRdef
  set F := meanMat mean (xnData x) with hF
  -- zero variance and residuals
  have hres : g.inner.sigma2 = 0 ↔ centred y - F * krigBeta R F (centred y) = 0 := by
    rw [hsig, krigSigma2, div_eq_zero_iff, or_iff_left hn]
    set v := centred y - F * krigBeta R F (centred y)
    constructor
    · intro hv
      have := (hpd.inv).dotProduct_mulVec_pos (x := fun i => v i 0)
      by_contra hne
      have h1 := this fun e => hne (by funext i j; rw [Subsingleton.elim j 0]; exact congrFun e i)
      refine h1.ne' ?_
      rw [← hv]
      simp only [Matrix.mul_apply, dotProduct, Matrix.mulVec, star_trivial, Matrix.transpose_apply, Finset.mul_sum,
        Finset.sum_mul]
      rw [Finset.sum_comm]
      simp only [mul_assoc]
    · intro hv
      rw [hv]; simp
  have hspan : (∃ t, IsTrend mean t ∧ ∀ i, y i = t (x i)) ↔ centred y - F * krigBeta R F (centred y) = 0 := by
    constructor
    · rintro ⟨t, ht, hy⟩
      have ht' : IsTrend mean (t + fun _ => -colMean y) := ht.add (IsTrend.const _)
      rw [trend_iff (x := x), Submodule.mem_span_range_iff_exists_fun] at ht'
      obtain ⟨b, hb⟩ := ht'
      have hc : centred y = F * Matrix.of fun a (_ : Fin 1) => b a := by
        funext i j
        have := congrFun hb (x i)
        rw [Matrix.mul_apply, centred, Matrix.of_apply, hy, sub_eq_add_neg]
        refine Eq.trans this.symm ?_
        rw [Finset.sum_apply]
        exact Finset.sum_congr rfl fun a _ => by rw [Pi.smul_apply, smul_eq_mul, mul_comm]; rfl
      have : krigBeta R F (centred y) = Matrix.of fun a (_ : Fin 1) => b a := by
        rw [krigBeta, hc, ← Matrix.mul_assoc _ F, ← Matrix.mul_assoc, Matrix.nonsing_inv_mul _ hB, Matrix.one_mul]
      rw [this, hc, sub_self]
    · intro hv
      refine ⟨(∑ a, krigBeta R F (centred y) a 0 • feat mean x a) + fun _ => colMean y, IsTrend.add ?_ (IsTrend.const _),
        fun i => ?_⟩
      · rw [trend_iff (x := x), Submodule.mem_span_range_iff_exists_fun]
        exact ⟨_, rfl⟩
      · have := congrFun (congrFun (sub_eq_zero.1 hv) i) 0
        rw [Matrix.mul_apply, centred, Matrix.of_apply, sub_eq_iff_eq_add] at this
        rw [this, Pi.add_apply, Finset.sum_apply]
        exact congrArg (· + colMean y) (Finset.sum_congr rfl fun a _ => by
          rw [Pi.smul_apply, smul_eq_mul, mul_comm]; rfl)
  have h0 := hres.trans hspan.symm
  refine ⟨fun t ht hy la' x' => ?_, h0⟩
  obtain ⟨l, hl⟩ := C107_best_linear_unbiased kernel mean nugget theta w x x'
  obtain ⟨h1, h2, h3, _⟩ := hl la la' y g hg
  constructor
  · rw [h1, ← h2 t ht]
    exact Finset.sum_congr rfl fun i _ => by rw [hy]
  · rw [h3, h0.2 ⟨t, ht, hy⟩, zero_mul, max_self]

/-- With exact linear algebra, a fit succeeds for every order of points when it does for one. -/
theorem C106_success (σ : Equiv.Perm (Fin n)) (hg : fitWith la kernel mean nugget theta w x y = some g) :
    ∃ g1, fitWith exact kernel mean nugget theta w (fun i => x (σ i)) (fun i => y (σ i)) = some g1 := by
  obtain ⟨hpd, hR, hB, _⟩ := fit_matrices hg
  have hxd : (fun i j => (x (σ i) j - GpUtils.colMean fun i => x (σ i) j) / stdOf fun i => x (σ i) j) =
      fun i => xnData x (σ i) := by
    funext i j
    simp only [xnData, colMean_perm σ (fun i => x i j), stdOf_perm σ (fun i => x i j)]
  refine fit_succeeds _ _ _ _ _ _ _ (fitWith_ok hg).two ?_ ?_
  · rw [hxd]
    have e : corrMatrix kernel theta w nugget (fun i => xnData x (σ i)) =
        (corrMatrix kernel theta w nugget (xnData x)).submatrix σ σ := by
      funext i j
      simp only [corrMatrix, Matrix.of_apply, Matrix.submatrix_apply, EmbeddingLike.apply_eq_iff_eq]
    rw [e]
    exact hpd.submatrix σ.injective
  · rw [hxd]
    intro v v' hv
    have h1 : (meanMat mean (xnData x)).mulVec v = (meanMat mean (xnData x)).mulVec v' := by
      funext i
      have := congrFun hv (σ.symm i)
      simpa only [Matrix.mulVec, dotProduct, meanMat, Equiv.apply_symm_apply] using this
    have h2 := congrArg (((meanMat mean (xnData x))ᵀ * (corrMatrix kernel theta w nugget (xnData x))⁻¹).mulVec) h1
    rw [Matrix.mulVec_mulVec, Matrix.mulVec_mulVec] at h2
    exact Matrix.mulVec_injective_of_isUnit ((Matrix.isUnit_iff_isUnit_det _).2 hB) h2

/-! ## Examples -/

example : ∃ g g1, fitWith exact .squaredExponential .constant 0 (fun _ : Fin 1 => 1) (fun (_ : Fin 1) (_ : Fin 1) => 1)
      (fun (i : Fin 2) (_ : Fin 1) => (i : ℝ)) ![3, 5] = some g ∧
    fitWith exact .squaredExponential .constant 0 (fun _ : Fin 1 => 1) (fun (_ : Fin 1) (_ : Fin 1) => 1)
      (fun (i : Fin 2) (_ : Fin 1) => (i : ℝ)) (fun i => -10 * ![3, 5] i + 1) = some g1 ∧
    g1.likelihood = g.likelihood ∧ g1.predict (fun _ => 1 / 2) = -10 * g.predict (fun _ => 1 / 2) + 1 ∧
    g1.predict (fun _ => 1) = -49 := by
  obtain ⟨g, hg⟩ := fit_two_points 1 one_pos ![3, 5]
  obtain ⟨g1, h1⟩ := C104_success hg (fun i => -10 * ![3, 5] i + 1)
  refine ⟨g, g1, hg, h1, ?_, (C104_units _ _ hg h1 exact exact _).1, ?_⟩
  · have := C104_likelihood exact .squaredExponential .constant 0 (fun _ : Fin 1 => 1)
      (fun (_ : Fin 1) (_ : Fin 1) => 1) (fun (i : Fin 2) (_ : Fin 1) => (i : ℝ)) ![3, 5] (-10) 1 (by norm_num)
    rw [hg, h1] at this
    simpa using this
  · have h2 := C45_interpolation hg 1
    have h3 := (C104_units _ _ hg h1 exact exact (fun _ => 1)).1
    simp only [Fin.val_one, Nat.cast_one, Matrix.cons_val_one, Matrix.cons_val_fin_one] at h2
    rw [h3, h2]
    norm_num

/-- Temperatures in Fahrenheit instead of Celsius. -/
example : ∃ g g1, fitWith exact .squaredExponential .constant 0 (fun _ : Fin 1 => 1) (fun (_ : Fin 1) (_ : Fin 1) => 1)
      (fun (i : Fin 2) (_ : Fin 1) => (i : ℝ)) ![3, 5] = some g ∧
    fitWith exact .squaredExponential .constant 0 (fun _ : Fin 1 => 1) (fun (_ : Fin 1) (_ : Fin 1) => 1)
      (fun (i : Fin 2) (_ : Fin 1) => 1.8 * (i : ℝ) + 32) ![3, 5] = some g1 ∧
    ∀ c : ℝ, g1.predict (fun _ => 1.8 * c + 32) = g.predict (fun _ => c) := by
  obtain ⟨g, hg⟩ := fit_two_points 1 one_pos ![3, 5]
  obtain ⟨h1, h2⟩ := C105_input_units exact .squaredExponential .constant 0 (fun _ : Fin 1 => 1)
    (fun (_ : Fin 1) (_ : Fin 1) => 1) (fun (i : Fin 2) (_ : Fin 1) => (i : ℝ)) ![3, 5] (fun _ => 1.8) (fun _ => 32)
    (fun _ => by norm_num) (fun _ => Or.inr ⟨0, 1, by simp⟩)
  cases h3 : fitWith exact .squaredExponential .constant 0 (fun _ : Fin 1 => 1) (fun (_ : Fin 1) (_ : Fin 1) => 1)
      (fun (i : Fin 2) (_ : Fin 1) => 1.8 * (i : ℝ) + 32) ![3, 5] with
  | none => rw [h1.2 h3] at hg; cases hg
  | some g1 => exact ⟨g, g1, hg, rfl, fun c => ((h2 g g1 hg h3).2 exact (fun _ => c)).1⟩

/-- The two points in the other order. -/
example : ∃ g g1, fitWith exact .squaredExponential .constant 0 (fun _ : Fin 1 => 1) (fun (_ : Fin 1) (_ : Fin 1) => 1)
      (fun (i : Fin 2) (_ : Fin 1) => (i : ℝ)) ![3, 5] = some g ∧
    fitWith exact .squaredExponential .constant 0 (fun _ : Fin 1 => 1) (fun (_ : Fin 1) (_ : Fin 1) => 1)
      (fun (i : Fin 2) (_ : Fin 1) => ((Equiv.swap 0 1 i : Fin 2) : ℝ)) (fun i => ![3, 5] (Equiv.swap 0 1 i)) = some g1 ∧
    g1.likelihood = g.likelihood ∧ g1.predict (fun _ => 7) = g.predict (fun _ => 7) := by
  obtain ⟨g, hg⟩ := fit_two_points 1 one_pos ![3, 5]
  obtain ⟨g1, h1⟩ := C106_success (Equiv.swap 0 1) hg
  obtain ⟨h2, h3⟩ := C106_order _ hg h1
  exact ⟨g, g1, hg, h1, h2, (h3 exact exact _).1⟩

/-- Equal outputs: the prediction is that value everywhere. -/
example : ∃ g, fitWith exact .squaredExponential .constant 0 (fun _ : Fin 1 => 1) (fun (_ : Fin 1) (_ : Fin 1) => 1)
      (fun (i : Fin 2) (_ : Fin 1) => (i : ℝ)) (fun _ => 4) = some g ∧
    ∀ x', g.predict x' = 4 ∧ g.predictVar exact x' = some 0 := by
  obtain ⟨g, hg⟩ := fit_two_points 1 one_pos (fun _ => 4)
  exact ⟨g, hg, fun x' => (C107_trend hg).1 (fun _ => 4) ⟨4, fun _ => rfl⟩ (fun _ => rfl) exact x'⟩

/-- Weights of the two outputs: their sum is one. -/
example (x' : Fin 1 → ℝ) : ∃ (g : Model 2 1 1) (l : Fin 2 → ℝ), fitWith exact .squaredExponential .constant 0 (fun _ : Fin 1 => 1)
      (fun (_ : Fin 1) (_ : Fin 1) => 1) (fun (i : Fin 2) (_ : Fin 1) => (i : ℝ)) ![3, 5] = some g ∧
    g.predict x' = l 0 * 3 + l 1 * 5 ∧ l 0 + l 1 = 1 := by
  obtain ⟨g, hg⟩ := fit_two_points 1 one_pos ![3, 5]
  obtain ⟨l, hl⟩ := C107_best_linear_unbiased .squaredExponential .constant 0 (fun _ : Fin 1 => 1)
    (fun (_ : Fin 1) (_ : Fin 1) => 1) (fun (i : Fin 2) (_ : Fin 1) => (i : ℝ)) x'
  obtain ⟨h1, h2, _⟩ := hl exact exact _ g hg
  refine ⟨g, l, hg, ?_, ?_⟩
  · rw [h1, Fin.sum_univ_two]; rfl
  · have := h2 (fun _ => 1) ⟨1, fun _ => rfl⟩
    simpa [Fin.sum_univ_two] using this

end Verif.Props
