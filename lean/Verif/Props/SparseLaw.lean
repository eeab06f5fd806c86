import Verif.Props.Sparse
import Verif.Lemmas.KernelStrict

/-!
# C93: trajectories of FITC models, any number of inducing points
-/

set_option autoImplicit false

namespace Verif.Props

open Matrix Kernels Gp Sparse Spec

variable {n m d h : ℕ} {la : LinAlg} {kernel : Kernel} {θ : Fin h → ℝ} {s noise nugget : ℝ} {w : Fin d → Fin h → ℝ}
  {x : Fin n → Fin d → ℝ} {y : Fin n → ℝ} {z : Fin m → Fin d → ℝ} {g : Sparse.Model n m d h}

/-- What the observations explain of the variance at a point of covariances `k` with the inducing variables. -/
theorem explained {A : Matrix (Fin m) (Fin m) ℝ} (hA : A.PosDef) (M : Matrix (Fin m) (Fin n) ℝ) (Λ : Fin n → ℝ)
    (hΛ : ∀ i, 0 < Λ i) (k : Matrix (Fin m) (Fin 1) ℝ) :
    0 ≤ (kᵀ * (A⁻¹ - sparseSigma A M Λ) * k) 0 0 ∧
      ((kᵀ * (A⁻¹ - sparseSigma A M Λ) * k) 0 0 = 0 ↔ Mᵀ * A⁻¹ * k = 0) := by
  set E := (Matrix.diagonal Λ)⁻¹ with hE
  have hEp : E.PosDef := by
    rw [hE, diagonal_inv fun i => (hΛ i).ne']
    exact Matrix.PosDef.diagonal fun i => one_div_pos.2 (hΛ i)
  set B := M * E * Mᵀ with hB
  have hBs : B.PosSemidef := by
    have := hEp.posSemidef.mul_mul_conjTranspose_same M
    simpa [hB, Matrix.conjTranspose_eq_transpose_of_trivial] using this
  have hC : (A + B).PosDef := hA.add_posSemidef hBs
  have uA : IsUnit A.det := (Matrix.isUnit_iff_isUnit_det _).1 hA.isUnit
  have uC : IsUnit (A + B).det := (Matrix.isUnit_iff_isUnit_det _).1 hC.isUnit
  have At : Aᵀ = A := by simpa [Matrix.conjTranspose_eq_transpose_of_trivial] using hA.isHermitian.eq
  have Bt : Bᵀ = B := by simpa [Matrix.conjTranspose_eq_transpose_of_trivial] using hBs.isHermitian.eq
  set v := (A + B)⁻¹ * k with hv
  have hk : k = A * v + B * v := by
    rw [← Matrix.add_mul, hv, ← Matrix.mul_assoc, Matrix.mul_nonsing_inv _ uC, Matrix.one_mul]
  have hS : sparseSigma A M Λ * k = v := rfl
  have hq : kᵀ * (A⁻¹ - sparseSigma A M Λ) * k =
      (Mᵀ * v)ᵀ * E * (Mᵀ * v) + (B * v)ᵀ * A⁻¹ * (B * v) := by
    have e1 : A⁻¹ * k = v + A⁻¹ * (B * v) := by
      conv_lhs => rw [hk]
      rw [Matrix.mul_add, ← Matrix.mul_assoc, Matrix.nonsing_inv_mul _ uA, Matrix.one_mul]
    have e2 : kᵀ = vᵀ * A + (B * v)ᵀ := by
      conv_lhs => rw [hk]
      rw [Matrix.transpose_add, Matrix.transpose_mul A v, At]
    have e3 : kᵀ * (A⁻¹ - sparseSigma A M Λ) * k = kᵀ * (A⁻¹ * (B * v)) := by
      rw [Matrix.mul_assoc, Matrix.sub_mul, hS, e1, add_sub_cancel_left]
    have e4 : vᵀ * A * (A⁻¹ * (B * v)) = (Mᵀ * v)ᵀ * E * (Mᵀ * v) := by
      rw [Matrix.mul_assoc, ← Matrix.mul_assoc A, Matrix.mul_nonsing_inv _ uA, Matrix.one_mul, Matrix.transpose_mul Mᵀ v,
        Matrix.transpose_transpose, hB]
      simp only [Matrix.mul_assoc]
    rw [e3, e2, Matrix.add_mul, e4, ← Matrix.mul_assoc (B * v)ᵀ]
  have hz : (kᵀ * (A⁻¹ - sparseSigma A M Λ) * k) 0 0 = 0 ↔ Mᵀ * v = 0 := by
    rw [hq, Matrix.add_apply]
    constructor
    · intro h0
      by_contra hne
      have hne' : ∃ i, (Mᵀ * v) i 0 ≠ 0 := by
        by_contra hc
        push Not at hc
        refine hne ?_
        funext i j
        rw [Fin.eq_zero j]
        exact hc i
      have h1 := quad_pos hEp _ hne'
      have h2 := quad_nonneg hA.inv.posSemidef (B * v)
      linarith
    · intro h0
      have : B * v = 0 := by rw [hB, Matrix.mul_assoc, h0, Matrix.mul_zero]
      rw [this, h0]
      simp
  refine ⟨?_, hz.trans ?_⟩
  · rw [hq, Matrix.add_apply]
    exact add_nonneg (quad_nonneg hEp.posSemidef _) (quad_nonneg hA.inv.posSemidef _)
  · constructor
    · intro h0
      have hBv : B * v = 0 := by rw [hB, Matrix.mul_assoc, h0, Matrix.mul_zero]
      rw [Matrix.mul_assoc]
      conv_lhs => rw [hk, hBv, add_zero, ← Matrix.mul_assoc A⁻¹, Matrix.nonsing_inv_mul _ uA, Matrix.one_mul]
      exact h0
    · intro h0
      have hBu : B * (A⁻¹ * k) = 0 := by
        rw [hB, Matrix.mul_assoc, ← Matrix.mul_assoc Mᵀ, h0, Matrix.mul_zero]
      have : (A + B) * (A⁻¹ * k) = k := by
        rw [Matrix.add_mul, hBu, add_zero, ← Matrix.mul_assoc, Matrix.mul_nonsing_inv _ uA, Matrix.one_mul]
      have hvu : v = A⁻¹ * k := by
        rw [hv]
        conv_lhs => rw [← this]
        rw [← Matrix.mul_assoc, Matrix.nonsing_inv_mul _ uC, Matrix.one_mul]
      rw [hvu, ← Matrix.mul_assoc]
      exact h0

/-- **C93**, exact condition for FITC. Trajectories never have a smaller variance than the predicted one (noise
excluded), and they have the same at a point if and only if the inducing variables explain no covariance of this point
with any observation. -/
theorem C93_fitc_iff (hg : Sparse.fitWith la .fitc kernel θ s noise w x y z nugget = some g) (hθ : ∀ l, 0 ≤ θ l)
    (hs : 1e-15 < s) (hn : 0 ≤ nugget) (hnoise : 0 < noise) {t : ℕ} (xs : Fin t → Fin d → ℝ) (a : Fin t) :
    g.predictVar (xs a) - noise ≤ g.sampleCovariance xs a a ∧
      (g.predictVar (xs a) - noise = g.sampleCovariance xs a a ↔
        ∀ i, ((crossCov kernel θ w s z x)ᵀ * (inducingCov kernel θ w s nugget z)⁻¹ *
          crossCov kernel θ w s z fun _ : Fin 1 => xs a) i 0 = 0) := by
  have hs0 : 0 < s := lt_trans (by norm_num) hs
  rw [(C93_prior_covariance_partial hg hθ hs0.le xs).2.2, (C50_fitc_predictions hg _).2, add_sub_cancel_right]
  have hK := fitc_posDef hg
  obtain ⟨h1, h2⟩ := explained hK (crossCov kernel θ w s z x) _
    (fun i => lt_of_lt_of_le hnoise (fitcVariances_ge kernel θ hθ w s nugget noise hs0 hn z x hK i))
    (crossCov kernel θ w s z fun _ : Fin 1 => xs a)
  rw [sparseVar]
  refine ⟨max_le hs.le (by linarith), ?_⟩
  have e : (∀ i, ((crossCov kernel θ w s z x)ᵀ * (inducingCov kernel θ w s nugget z)⁻¹ *
          crossCov kernel θ w s z fun _ : Fin 1 => xs a) i 0 = 0) ↔
      (crossCov kernel θ w s z x)ᵀ * (inducingCov kernel θ w s nugget z)⁻¹ *
          (crossCov kernel θ w s z fun _ : Fin 1 => xs a) = 0 := by
    constructor
    · intro h
      funext i j
      rw [Fin.eq_zero j]
      exact h i
    · intro h i
      rw [h]
      rfl
  rw [e, ← h2]
  constructor
  · intro h
    rcases max_choice (1e-15 : ℝ) (s - _) with hm | hm
    · rw [hm] at h
      exact absurd h hs.ne
    · rw [hm] at h
      linarith
  · intro h
    rw [h, sub_zero]
    exact max_eq_right hs.le

/-- **C93**, refuted for FITC with any number of inducing points. Without nugget, at an inducing point, trajectories have
a variance strictly larger than the predicted one as soon as there is an observation. -/
theorem C93_refuted_fitc_inducing (hg : Sparse.fitWith la .fitc kernel θ s noise w x y z 0 = some g)
    (hθ : ∀ l, 0 ≤ θ l) (hs : 1e-15 < s) (hnoise : 0 < noise) (h0 : 0 < n) {t : ℕ} (xs : Fin t → Fin d → ℝ) (a : Fin t)
    (b : Fin m) (hb : xs a = z b) : g.predictVar (xs a) - noise < g.sampleCovariance xs a a := by
  have hs0 : 0 < s := lt_trans (by norm_num) hs
  obtain ⟨h1, h2⟩ := C93_fitc_iff hg hθ hs le_rfl hnoise xs a
  refine lt_of_le_of_ne h1 fun he => ?_
  have h3 := h2.1 he ⟨0, h0⟩
  have hK := fitc_posDef hg
  have uK : IsUnit (inducingCov kernel θ w s 0 z).det := (Matrix.isUnit_iff_isUnit_det _).1 hK.isUnit
  have hcol : (crossCov kernel θ w s z fun _ : Fin 1 => xs a) =
      inducingCov kernel θ w s 0 z * Matrix.of fun i (_ : Fin 1) => if i = b then (1 : ℝ) else 0 := by
    funext i j
    rw [Matrix.mul_apply]
    simp [inducingCov, crossCov, hb]
  rw [hcol, Matrix.mul_assoc, ← Matrix.mul_assoc _ (inducingCov kernel θ w s 0 z), Matrix.nonsing_inv_mul _ uK,
    Matrix.one_mul, Matrix.mul_apply] at h3
  simp only [Matrix.transpose_apply, Matrix.of_apply, mul_ite, mul_one, mul_zero, Finset.sum_ite_eq', Finset.mem_univ,
    if_true] at h3
  have := (C40_range kernel θ w (fun l => z b l - x ⟨0, h0⟩ l) hθ).1
  rw [C40_documented] at this
  exact (mul_pos hs0 this).ne' h3

/-- Case of `C93_fitc_iff` and `C93_refuted_fitc_inducing`: three inducing points and five observations. -/
example (kernel : Kernel) : ∃ g : Sparse.Model 5 3 2 2, Sparse.fitWith Gp.exact .fitc kernel (fun _ : Fin 2 => (1 : ℝ)) 2
    (1 / 100) (fun (a b : Fin 2) => if a = b then 1 else 0) (fun (i : Fin 5) _ => (i.val : ℝ))
    (fun i => (i.val : ℝ) ^ 2) (fun (i : Fin 3) _ => (i.val : ℝ)) 0 = some g ∧
    g.predictVar (fun _ => 1) - 1 / 100 < g.sampleCovariance (fun (_ : Fin 1) _ => 1) 0 0 := by
  have hpd : (inducingCov kernel (fun _ : Fin 2 => (1 : ℝ)) (fun (a b : Fin 2) => if a = b then 1 else 0) 2 0
      (fun (i : Fin 3) _ => (i.val : ℝ))).PosDef := by
    have h := ((posDef_kernel_iff kernel (fun _ : Fin 2 => (1 : ℝ)) (fun _ => zero_le_one)
      (fun (a b : Fin 2) => if a = b then 1 else 0) (fun (i : Fin 3) _ => (i.val : ℝ))).2 fun i j hij =>
        ⟨0, 0, one_ne_zero, by simp, fun e => hij (Fin.ext (by exact_mod_cast e))⟩).smul (zero_lt_two (α := ℝ))
    refine (congrArg Matrix.PosDef ?_).mp h
    funext i j
    rw [inducingCov, zero_smul, add_zero, crossCov, Matrix.smul_apply, Matrix.of_apply, Matrix.of_apply, C40_documented,
      smul_eq_mul]
    rfl
  obtain ⟨g, hg⟩ := fitc_fits_of Gp.exact kernel (fun _ : Fin 2 => (1 : ℝ)) (fun _ => zero_le_one)
    (fun (a b : Fin 2) => if a = b then 1 else 0) 2 (1 / 100) 0 (by norm_num) (by norm_num) le_rfl
    (fun (i : Fin 5) _ => (i.val : ℝ)) (fun i => (i.val : ℝ) ^ 2) (fun (i : Fin 3) _ => (i.val : ℝ)) hpd
  refine ⟨g, hg, ?_⟩
  exact C93_refuted_fitc_inducing hg (fun _ => zero_le_one) (by norm_num) (by norm_num) (by norm_num)
    (fun (_ : Fin 1) _ => 1) 0 1 (funext fun _ => by simp)

end Verif.Props
