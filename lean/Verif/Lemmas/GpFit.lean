import Verif.Lemmas.Gp
import Verif.Spec.Gp
import Verif.Props.Kernels
import Verif.Props.Means
import Verif.Props.GpUtils

/-!
# What a successful fit provides
-/

set_option autoImplicit false

namespace Verif.Gp

open Matrix Kernels Means GpUtils Spec

variable {n d h p : ℕ}

theorem map_some_iff {α β : Type} {f : α → β} {o : Option α} {b : β} :
    o.map f = some b ↔ ∃ a, o = some a ∧ f a = b := by
  cases o <;> simp

/-! ## Correlation matrix -/

theorem foldl_write_unique (l : List ℕ) (c : ℕ → Prop) [DecidablePred c] (v : ℕ → ℝ) (init : ℝ) (k0 : ℕ)
    (hu : ∀ k ∈ l, c k → k = k0) (hm : k0 ∈ l) (hc : c k0) :
    l.foldl (fun acc k => if c k then v k else acc) init = v k0 := by
  induction l using List.reverseRecOn with
  | nil => simp at hm
  | append_singleton l a ih =>
    rw [List.foldl_append, List.foldl_cons, List.foldl_nil]
    by_cases ha : c a
    · rw [if_pos ha, hu a (by simp) ha]
    · rw [if_neg ha]
      refine ih (fun k hk => hu k (by simp [hk])) ?_
      rcases List.mem_append.1 hm with h | h
      · exact h
      · rw [List.mem_singleton] at h
        subst h
        exact absurd hc ha

theorem foldl_write_none (l : List ℕ) (c : ℕ → Prop) [DecidablePred c] (v : ℕ → ℝ) (init : ℝ)
    (hn : ∀ k ∈ l, ¬ c k) : l.foldl (fun acc k => if c k then v k else acc) init = init := by
  induction l generalizing init with
  | nil => rfl
  | cons a l ih =>
    rw [List.foldl_cons, if_neg (hn a (by simp))]
    exact ih _ fun k hk => hn k (by simp [hk])

theorem rMx_apply (N : ℕ) (ind : ℕ → ℕ × ℕ) (rxx : ℕ → ℝ) (nugget : ℝ) (i j : Fin n) :
    (rMx N ind rxx nugget : Matrix (Fin n) (Fin n) ℝ) i j =
      (List.range N).foldl (fun acc k =>
        if (i.val = (ind k).1 ∧ j.val = (ind k).2) ∨ (i.val = (ind k).2 ∧ j.val = (ind k).1) then rxx k else acc)
        ((if i = j then 1 else 0) + (if i = j then 1 else 0) * nugget) := by
  unfold rMx
  generalize hb : (fun i j : Fin n => (if i = j then (1 : ℝ) else 0) + (if i = j then 1 else 0) * nugget) = base
  have : (if i = j then (1 : ℝ) else 0) + (if i = j then 1 else 0) * nugget = base i j := by rw [← hb]
  rw [this]
  clear this hb
  generalize List.range N = l
  induction l generalizing base with
  | nil => rfl
  | cons a l ih =>
    exact ih _

/-- The matrix filled from the table of differences is the correlation matrix. -/
theorem rMx_eq (k : Kernel) (θ : Fin h → ℝ) (w : Fin d → Fin h → ℝ) (nugget : ℝ) (x : Fin n → Fin d → ℝ)
    (N : ℕ) (c : Cross d) (hc : crossDiff x = .ok (N, c)) :
    rMx N c.ind (fun r => k.value θ w (c.d r)) nugget = corrMatrix k θ w nugget x := by
  have hn : 1 ≤ n := by
    by_contra hn
    have : n = 0 := by omega
    subst this
    simp [crossDiff] at hc
  obtain ⟨N', c', h1, h2, h3, h4⟩ := Props.C44_table x hn
  rw [hc] at h1
  simp only [Except.ok.injEq, Prod.mk.injEq] at h1
  obtain ⟨rfl, rfl⟩ := h1
  funext i j
  rw [rMx_apply, corrMatrix, Matrix.of_apply]
  have hlt : ∀ r ∈ List.range N, (c.ind r).1 < (c.ind r).2 := by
    intro r hr
    obtain ⟨a, b, hab, he, _⟩ := h4 r (List.mem_range.1 hr)
    rw [he]; exact hab
  have key : ∀ a b : Fin n, a < b → ∃ r0 < N, c.ind r0 = (a.val, b.val) ∧ (∀ r < N, c.ind r = (a.val, b.val) → r = r0) ∧
      k.value θ w (c.d r0) = k.value θ w (x a - x b) := by
    intro a b hab
    obtain ⟨r0, ⟨hr0, he⟩, hu⟩ := h3 a b hab b.2
    refine ⟨r0, hr0, he, fun r hr hr2 => hu r ⟨hr, hr2⟩, ?_⟩
    obtain ⟨a', b', _, he', hd⟩ := h4 r0 hr0
    rw [he] at he'
    simp only [Prod.mk.injEq] at he'
    have ha : a = a' := Fin.ext he'.1
    have hb : b = b' := Fin.ext he'.2
    subst ha hb
    refine Props.C40_symmetric k θ w _ _ fun l => ?_
    rw [hd l, Pi.sub_apply]
    exact abs_choice _
  rcases lt_trichotomy i j with hij | hij | hij
  · obtain ⟨r0, hr0, he, hu, hv⟩ := key i j hij
    rw [foldl_write_unique _ _ _ _ r0 ?_ (List.mem_range.2 hr0) (by simp [he]), if_neg hij.ne, hv]
    intro r hr hcond
    have := hlt r hr
    refine hu r (List.mem_range.1 hr) ?_
    rcases hcond with ⟨e1, e2⟩ | ⟨e1, e2⟩
    · exact Prod.ext e1.symm e2.symm
    · have : i.val < j.val := hij
      omega
  · subst hij
    rw [foldl_write_none]
    · simp
    · intro r hr hcond
      have := hlt r hr
      omega
  · obtain ⟨r0, hr0, he, hu, hv⟩ := key j i hij
    rw [foldl_write_unique _ _ _ _ r0 ?_ (List.mem_range.2 hr0) (by simp [he]), if_neg hij.ne', hv]
    · refine Props.C40_symmetric k θ w _ _ fun l => ?_
      right; simp
    intro r hr hcond
    have := hlt r hr
    refine hu r (List.mem_range.1 hr) ?_
    rcases hcond with ⟨e1, e2⟩ | ⟨e1, e2⟩
    · have : j.val < i.val := hij
      omega
    · exact Prod.ext e2.symm e1.symm

theorem corrMatrix_symm (k : Kernel) (θ : Fin h → ℝ) (w : Fin d → Fin h → ℝ) (nugget : ℝ) (x : Fin n → Fin d → ℝ) :
    (corrMatrix k θ w nugget x)ᵀ = corrMatrix k θ w nugget x := by
  funext i j
  rw [Matrix.transpose_apply, corrMatrix, Matrix.of_apply, Matrix.of_apply]
  by_cases e : i = j
  · subst e; rfl
  · rw [if_neg e, if_neg (Ne.symm e)]
    refine Props.C40_symmetric k θ w _ _ fun l => ?_
    right; simp

/-! ## Factorizations -/

/-- What the inner parameters satisfy. -/
structure InnerOk (R : Matrix (Fin n) (Fin n) ℝ) (F : Matrix (Fin n) (Fin p) ℝ) (y : Matrix (Fin n) (Fin 1) ℝ)
    (ystd : ℝ) (g : Inner n p) : Prop where
  hR : g.rChol * g.rCholᵀ = R
  lower : ∀ i j, i < j → g.rChol i j = 0
  diag : ∀ i, 0 < g.rChol i i
  hft : g.rChol * g.ft = F
  upper : ∀ i j, j < i → g.ftQrR i j = 0
  rdiag : ∀ i, g.ftQrR i i ≠ 0
  gram : g.ftQrRᵀ * g.ftQrR = g.ftᵀ * g.ft
  hgamma : R * g.gamma = y - F * g.beta
  normal : Fᵀ * g.gamma = 0
  hsigma : g.sigma2 = ((y - F * g.beta)ᵀ * g.gamma) 0 0 / n * ystd * ystd

theorem reducedLikelihood_ok (la : LinAlg) {F : Matrix (Fin n) (Fin p) ℝ} {R : Matrix (Fin n) (Fin n) ℝ}
    {y : Matrix (Fin n) (Fin 1) ℝ} {ystd : ℝ} {lk : ℝ} {g : Inner n p} (hsym : Rᵀ = R)
    (hg : reducedLikelihood la F R y ystd = some (lk, g)) : InnerOk R F y ystd g := by
  simp only [reducedLikelihood, Option.bind_eq_bind, Option.bind_eq_some_iff] at hg
  obtain ⟨l, hl, ft, hft, ⟨q, r⟩, hqr, hg⟩ := hg
  split_ifs at hg
  simp only [Option.bind_eq_some_iff] at hg
  obtain ⟨yt, hyt, beta, hbeta, gamma, hgamma, hg⟩ := hg
  simp only [Option.some.injEq, Prod.mk.injEq] at hg
  obtain ⟨_, rfl⟩ := hg
  obtain ⟨h1, h2, h3⟩ := la.chol_spec _ _ hsym hl
  obtain ⟨_, h4⟩ := la.solve_spec _ _ _ _ hft
  obtain ⟨h5, h6, h7⟩ := la.qr_spec _ _ _ hqr
  obtain ⟨_, h8⟩ := la.solve_spec _ _ _ _ hyt
  obtain ⟨h9, h10⟩ := la.solve_spec _ _ _ _ hbeta
  obtain ⟨_, h11⟩ := la.solve_spec _ _ _ _ hgamma
  rw [tri_lower h2] at h4 h8
  rw [tri_upper h7] at h10
  rw [tri_upper (u := lᵀ) (fun i j hij => h2 j i hij)] at h11
  have hres : l * (yt - ft * beta) = y - F * beta := by
    rw [Matrix.mul_sub, h8, ← Matrix.mul_assoc, h4]
  refine ⟨h1, h2, h3, h4, h7, h9, ?_, ?_, ?_, ?_⟩
  · simp only
    rw [← h5, Matrix.transpose_mul, Matrix.mul_assoc, ← Matrix.mul_assoc qᵀ, h6, Matrix.one_mul]
  · simp only
    rw [← h1, Matrix.mul_assoc, h11, hres]
  · simp only
    rw [← h4, Matrix.transpose_mul, Matrix.mul_assoc, h11, Matrix.mul_sub, ← h5, Matrix.transpose_mul,
      Matrix.mul_assoc, Matrix.mul_assoc, Matrix.mul_assoc q, h10]
    rw [← Matrix.mul_assoc qᵀ, h6, Matrix.one_mul, sub_self]
  · simp only
    congr 3
    rw [← hres, Matrix.transpose_mul, Matrix.mul_assoc, h11, Matrix.mul_apply]
    rfl

/-- Value of the likelihood in terms of the factor and of the process variance. -/
theorem reducedLikelihood_value (la : LinAlg) {F : Matrix (Fin n) (Fin p) ℝ} {R : Matrix (Fin n) (Fin n) ℝ}
    {y : Matrix (Fin n) (Fin 1) ℝ} {ystd : ℝ} {lk : ℝ} {g : Inner n p}
    (hg : reducedLikelihood la F R y ystd = some (lk, g)) :
    ∃ s, g.sigma2 = s * ystd * ystd ∧
      lk = -(n : ℝ) * (Real.log s / Real.log 10 + (∑ i, Real.log (g.rChol i i) / Real.log 10) * 2 / n) := by
  simp only [reducedLikelihood, Option.bind_eq_bind, Option.bind_eq_some_iff] at hg
  obtain ⟨l, hl, ft, hft, ⟨q, r⟩, hqr, hg⟩ := hg
  split_ifs at hg
  simp only [Option.bind_eq_some_iff] at hg
  obtain ⟨yt, hyt, beta, hbeta, gamma, hgamma, hg⟩ := hg
  simp only [Option.some.injEq, Prod.mk.injEq] at hg
  obtain ⟨rfl, rfl⟩ := hg
  exact ⟨_, rfl, rfl⟩

section
variable {R : Matrix (Fin n) (Fin n) ℝ} {F : Matrix (Fin n) (Fin p) ℝ} {y : Matrix (Fin n) (Fin 1) ℝ}
  {ystd : ℝ} {g : Inner n p}

theorem InnerOk.unitL (ok : InnerOk R F y ystd g) : IsUnit g.rChol.det :=
  isUnit_det_lower ok.lower fun i => (ok.diag i).ne'

theorem InnerOk.unitLt (ok : InnerOk R F y ystd g) : IsUnit g.rCholᵀ.det := by
  rw [Matrix.det_transpose]; exact ok.unitL

theorem InnerOk.unitR (ok : InnerOk R F y ystd g) : IsUnit R.det := by
  rw [← ok.hR, Matrix.det_mul]
  exact ok.unitL.mul ok.unitLt

theorem InnerOk.unitQ (ok : InnerOk R F y ystd g) : IsUnit g.ftQrR.det := isUnit_det_upper ok.upper ok.rdiag

theorem InnerOk.unitQt (ok : InnerOk R F y ystd g) : IsUnit g.ftQrRᵀ.det := by
  rw [Matrix.det_transpose]; exact ok.unitQ

theorem InnerOk.inv_eq (ok : InnerOk R F y ystd g) : R⁻¹ = g.rCholᵀ⁻¹ * g.rChol⁻¹ := by
  rw [← ok.hR, Matrix.mul_inv_rev]

theorem InnerOk.symm (ok : InnerOk R F y ystd g) : Rᵀ = R := by
  rw [← ok.hR, Matrix.transpose_mul, Matrix.transpose_transpose]

theorem InnerOk.inv_symm (ok : InnerOk R F y ystd g) : R⁻¹ᵀ = R⁻¹ := by
  rw [Matrix.transpose_nonsing_inv, ok.symm]

theorem InnerOk.ft_eq (ok : InnerOk R F y ystd g) : g.ft = g.rChol⁻¹ * F := by
  rw [← ok.hft, ← Matrix.mul_assoc, Matrix.nonsing_inv_mul _ ok.unitL, Matrix.one_mul]

theorem InnerOk.gamma_eq (ok : InnerOk R F y ystd g) : g.gamma = R⁻¹ * (y - F * g.beta) := by
  rw [← ok.hgamma, ← Matrix.mul_assoc, Matrix.nonsing_inv_mul _ ok.unitR, Matrix.one_mul]

theorem InnerOk.gram_eq (ok : InnerOk R F y ystd g) : Fᵀ * R⁻¹ * F = g.ftQrRᵀ * g.ftQrR := by
  rw [ok.gram, ok.ft_eq, ok.inv_eq, Matrix.transpose_mul, Matrix.transpose_nonsing_inv]
  simp only [Matrix.mul_assoc]

theorem InnerOk.unitB (ok : InnerOk R F y ystd g) : IsUnit (Fᵀ * R⁻¹ * F).det := by
  rw [ok.gram_eq, Matrix.det_mul]
  exact ok.unitQt.mul ok.unitQ

theorem InnerOk.beta_eq (ok : InnerOk R F y ystd g) : g.beta = krigBeta R F y := by
  have h := ok.normal
  rw [ok.gamma_eq, Matrix.mul_sub, Matrix.mul_sub, sub_eq_zero] at h
  rw [krigBeta]
  have h2 : Fᵀ * R⁻¹ * y = Fᵀ * R⁻¹ * F * g.beta := by
    simp only [Matrix.mul_assoc]; exact h
  rw [h2, ← Matrix.mul_assoc, Matrix.nonsing_inv_mul _ ok.unitB, Matrix.one_mul]

theorem InnerOk.sigma_eq (ok : InnerOk R F y ystd g) : g.sigma2 = krigSigma2 R F y * ystd * ystd := by
  rw [ok.hsigma, krigSigma2, ← ok.beta_eq, ok.gamma_eq]
  simp only [Matrix.mul_assoc]

/-- Solves for several points at once. -/
theorem InnerOk.cov_eq (ok : InnerOk R F y ystd g) {m : ℕ} {r rt : Matrix (Fin n) (Fin m) ℝ}
    {f u : Matrix (Fin p) (Fin m) ℝ} (h1 : g.rChol * rt = r) (h2 : g.ftQrRᵀ * u = g.ftᵀ * rt - f) :
    rtᵀ * rt = rᵀ * R⁻¹ * r ∧ uᵀ * u = (f - Fᵀ * R⁻¹ * r)ᵀ * (Fᵀ * R⁻¹ * F)⁻¹ * (f - Fᵀ * R⁻¹ * r) := by
  have hrt : rt = g.rChol⁻¹ * r := by
    rw [← h1, ← Matrix.mul_assoc, Matrix.nonsing_inv_mul _ ok.unitL, Matrix.one_mul]
  have hu : u = g.ftQrRᵀ⁻¹ * (g.ftᵀ * rt - f) := by
    rw [← h2, ← Matrix.mul_assoc, Matrix.nonsing_inv_mul _ ok.unitQt, Matrix.one_mul]
  have e1 : rtᵀ * rt = rᵀ * R⁻¹ * r := by
    rw [hrt, ok.inv_eq, Matrix.transpose_mul, Matrix.transpose_nonsing_inv]
    simp only [Matrix.mul_assoc]
  have e2 : g.ftᵀ * rt = Fᵀ * R⁻¹ * r := by
    rw [hrt, ok.ft_eq, ok.inv_eq, Matrix.transpose_mul, Matrix.transpose_nonsing_inv]
    simp only [Matrix.mul_assoc]
  refine ⟨e1, ?_⟩
  rw [hu, e2, ok.gram_eq, Matrix.mul_inv_rev, Matrix.transpose_mul, Matrix.transpose_nonsing_inv,
    Matrix.transpose_transpose]
  have : Fᵀ * R⁻¹ * r - f = -(f - Fᵀ * R⁻¹ * r) := by rw [neg_sub]
  rw [this]
  simp only [Matrix.transpose_neg, Matrix.mul_neg, Matrix.neg_mul, neg_neg, Matrix.mul_assoc]

theorem dot_eq {m : ℕ} (u : Matrix (Fin m) (Fin 1) ℝ) : ∑ i, u i 0 * u i 0 = (uᵀ * u) 0 0 := by
  rw [Matrix.mul_apply]; rfl

/-- Unclamped variance factor in terms of the solves. -/
theorem InnerOk.var_eq (ok : InnerOk R F y ystd g) {r rt : Matrix (Fin n) (Fin 1) ℝ}
    {f u : Matrix (Fin p) (Fin 1) ℝ} (h1 : g.rChol * rt = r) (h2 : g.ftQrRᵀ * u = g.ftᵀ * rt - f) :
    1 - ∑ i, rt i 0 * rt i 0 + ∑ a, u a 0 * u a 0 = krigVar R F r f := by
  obtain ⟨e1, e3⟩ := ok.cov_eq h1 h2
  rw [dot_eq, dot_eq, e1, e3, krigVar]

end

/-- Inversion of a successful fit. -/
structure FitOk (kernel : Kernel) (mean : Mean) (nugget : ℝ) (theta : Fin h → ℝ) (w : Fin d → Fin h → ℝ)
    (x : Fin n → Fin d → ℝ) (y : Fin n → ℝ) (g : Model n d h) : Prop where
  two : 2 ≤ n
  kernel : g.kernel = kernel
  mean : g.mean = mean
  theta : g.theta = theta
  w : g.w = w
  xstd : ∀ j, 0 < g.xtStd j
  ystd : 0 < g.ytStd
  xdata : ∀ i j, g.xtData i j = (x i j - g.xtMean j) / g.xtStd j
  ydata : ∀ i, g.ytData i = (y i - g.ytMean) / g.ytStd
  xmean : ∀ j, g.xtMean j = colMean fun i => x i j
  ymean : g.ytMean = colMean y
  xstdOf : ∀ j, g.xtStd j = stdOf fun i => x i j
  ystdOf : g.ytStd = stdOf y
  inner : InnerOk (corrMatrix g.kernel g.theta g.w nugget g.xtData) (meanMat g.mean g.xtData)
    (Matrix.of fun i _ => g.ytData i) g.ytStd g.inner
  lik : ∃ s, g.inner.sigma2 = s * g.ytStd * g.ytStd ∧ g.likelihood =
    -(n : ℝ) * (Real.log s / Real.log 10 + (∑ i, Real.log (g.inner.rChol i i) / Real.log 10) * 2 / n)

theorem stdOf_pos {m : ℕ} (x : Fin m → ℝ) : 0 < stdOf x := by
  simp only [stdOf]
  split_ifs with h0
  · exact one_pos
  · exact lt_of_le_of_ne (Real.sqrt_nonneg _) (Ne.symm h0)

theorem fitWith_ok {la : LinAlg} {kernel : Kernel} {mean : Mean} {nugget : ℝ} {theta : Fin h → ℝ}
    {w : Fin d → Fin h → ℝ} {x : Fin n → Fin d → ℝ} {y : Fin n → ℝ} {g : Model n d h}
    (hg : fitWith la kernel mean nugget theta w x y = some g) : FitOk kernel mean nugget theta w x y g := by
  simp only [fitWith] at hg
  split_ifs at hg with hn
  split at hg
  · simp at hg
  · rename_i N c hc
    rw [map_some_iff] at hg
    obtain ⟨⟨lk, inner⟩, h1, rfl⟩ := hg
    rw [rMx_eq _ _ _ _ _ _ _ hc] at h1
    exact {
      two := not_lt.1 hn, kernel := rfl, mean := rfl, theta := rfl, w := rfl
      xstd := fun j => stdOf_pos _, ystd := stdOf_pos _
      xdata := fun _ _ => rfl, ydata := fun _ => rfl, xmean := fun _ => rfl, ymean := rfl
      xstdOf := fun _ => rfl, ystdOf := rfl
      inner := reducedLikelihood_ok la (corrMatrix_symm _ _ _ _ _) h1
      lik := reducedLikelihood_value la h1 }

end Verif.Gp
