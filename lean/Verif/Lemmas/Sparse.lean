import Verif.Model.Sparse
import Verif.Spec.Sparse
import Verif.Props.GpPsd
import Mathlib.LinearAlgebra.Matrix.SchurComplement

/-!
# Linear algebra for sparse Gaussian processes
-/

set_option autoImplicit false

namespace Verif.Sparse

open Matrix Kernels Gp Spec

variable {n m d h : ℕ}

theorem inv_of_factor {W X : Matrix (Fin m) (Fin m) ℝ} (h : W * X = 1) : Xᵀ * X = (W * Wᵀ)⁻¹ := by
  refine (Matrix.inv_eq_right_inv ?_).symm
  have h' : X * W = 1 := mul_eq_one_comm.1 h
  calc W * Wᵀ * (Xᵀ * X) = W * (X * W)ᵀ * X := by rw [Matrix.transpose_mul]; simp only [Matrix.mul_assoc]
    _ = 1 := by rw [h', Matrix.transpose_one, Matrix.mul_one, h]

/-- What the factorizations of both methods satisfy, `D` being the precisions of the observations given the
inducing variables. -/
structure Factors (Kmm : Matrix (Fin m) (Fin m) ℝ) (Kmn : Matrix (Fin m) (Fin n) ℝ) (D : Matrix (Fin n) (Fin n) ℝ)
    (U Ui L Li : Matrix (Fin m) (Fin m) ℝ) : Prop where
  hU : U * Uᵀ = Kmm
  hUi : U * Ui = 1
  hL : L * Lᵀ = 1 + Ui * Kmn * D * (Ui * Kmn)ᵀ
  hLi : L * Li = 1
  lower : ∀ i j, i < j → L i j = 0
  diag : ∀ i, 0 < L i i

variable {Kmm U Ui L Li : Matrix (Fin m) (Fin m) ℝ} {Kmn : Matrix (Fin m) (Fin n) ℝ} {D : Matrix (Fin n) (Fin n) ℝ}

theorem Factors.inv_kmm (f : Factors Kmm Kmn D U Ui L Li) : Uiᵀ * Ui = Kmm⁻¹ := by
  rw [inv_of_factor f.hUi, f.hU]

theorem Factors.inv_a (f : Factors Kmm Kmn D U Ui L Li) :
    Liᵀ * Li = (1 + Ui * Kmn * D * (Ui * Kmn)ᵀ)⁻¹ := by
  rw [inv_of_factor f.hLi, f.hL]

theorem Factors.sigma (f : Factors Kmm Kmn D U Ui L Li) :
    (Li * Ui)ᵀ * (Li * Ui) = (Kmm + Kmn * D * Kmnᵀ)⁻¹ := by
  have h : U * L * (Li * Ui) = 1 := by
    rw [Matrix.mul_assoc, ← Matrix.mul_assoc L, f.hLi, Matrix.one_mul, f.hUi]
  rw [inv_of_factor h]
  congr 1
  have e : U * (Ui * Kmn) = Kmn := by rw [← Matrix.mul_assoc, f.hUi, Matrix.one_mul]
  calc U * L * (U * L)ᵀ = U * (L * Lᵀ) * Uᵀ := by rw [Matrix.transpose_mul]; simp only [Matrix.mul_assoc]
    _ = U * Uᵀ + (U * (Ui * Kmn)) * D * (U * (Ui * Kmn))ᵀ := by
      rw [f.hL, Matrix.mul_add, Matrix.add_mul, Matrix.mul_one, Matrix.transpose_mul (M := U)]
      simp only [Matrix.mul_assoc]
    _ = Kmm + Kmn * D * Kmnᵀ := by rw [f.hU, e]

theorem Factors.isUnit_a (f : Factors Kmm Kmn D U Ui L Li) :
    IsUnit (1 + Ui * Kmn * D * (Ui * Kmn)ᵀ) := by
  have h1 : IsUnit L.det := isUnit_det_lower f.lower fun i => (f.diag i).ne'
  rw [← f.hL, Matrix.isUnit_iff_isUnit_det, Matrix.det_mul, Matrix.det_transpose]
  exact h1.mul h1

/-- `Qnn = Vᵀ V`. -/
theorem Factors.nystrom (f : Factors Kmm Kmn D U Ui L Li) : nystrom Kmm Kmn = (Ui * Kmn)ᵀ * (Ui * Kmn) := by
  rw [Spec.nystrom, ← f.inv_kmm, Matrix.transpose_mul]
  simp only [Matrix.mul_assoc]

/-- Woodbury identity for the covariance of the observations. -/
theorem Factors.inv_s (f : Factors Kmm Kmn D U Ui L Li) (hD : IsUnit D) :
    (Spec.nystrom Kmm Kmn + D⁻¹)⁻¹ = D - D * (Ui * Kmn)ᵀ * (Liᵀ * Li) * (Ui * Kmn) * D := by
  have hdet : IsUnit D.det := (Matrix.isUnit_iff_isUnit_det _).1 hD
  have hDi : IsUnit D⁻¹ := by rw [Matrix.isUnit_iff_isUnit_det]; exact Matrix.isUnit_nonsing_inv_det _ hdet
  have := Matrix.add_mul_mul_inv_eq_sub D⁻¹ (Ui * Kmn)ᵀ 1 (Ui * Kmn) hDi isUnit_one (by
    rw [inv_one, Matrix.nonsing_inv_nonsing_inv _ hdet]
    exact f.isUnit_a)
  rw [f.nystrom, add_comm, f.inv_a]
  rw [Matrix.mul_one, inv_one, Matrix.nonsing_inv_nonsing_inv _ hdet] at this
  exact this

/-- Determinant of the covariance of the observations. -/
theorem Factors.det_s (f : Factors Kmm Kmn D U Ui L Li) (hD : IsUnit D) :
    (Spec.nystrom Kmm Kmn + D⁻¹).det = D⁻¹.det * (∏ i, L i i) ^ 2 := by
  have hdet : IsUnit D.det := (Matrix.isUnit_iff_isUnit_det _).1 hD
  have e1 : Spec.nystrom Kmm Kmn + D⁻¹ = D⁻¹ * (1 + D * (Ui * Kmn)ᵀ * (Ui * Kmn)) := by
    rw [f.nystrom, Matrix.mul_add, Matrix.mul_one, Matrix.mul_assoc D, ← Matrix.mul_assoc D⁻¹,
      Matrix.nonsing_inv_mul _ hdet, Matrix.one_mul, add_comm]
  have e2 : (1 + D * (Ui * Kmn)ᵀ * (Ui * Kmn)).det = (L * Lᵀ).det := by
    rw [Matrix.det_one_add_mul_comm, f.hL, Matrix.mul_assoc (Ui * Kmn)]
  have e3 : L.det = ∏ i, L i i := Matrix.det_of_isLowerTriangular _ fun i j hij => f.lower i j hij
  rw [e1, Matrix.det_mul, e2, Matrix.det_mul, Matrix.det_transpose, e3, sq]

/-- Posterior mean of both methods. -/
theorem Factors.mean (f : Factors Kmm Kmn D U Ui L Li) (y : Matrix (Fin n) (Fin 1) ℝ) :
    (Li * Ui)ᵀ * (Li * (Ui * Kmn) * (D * y)) = (Kmm + Kmn * D * Kmnᵀ)⁻¹ * Kmn * D * y := by
  rw [← f.sigma]
  simp only [Matrix.mul_assoc]

theorem Factors.posDef_kmm (f : Factors Kmm Kmn D U Ui L Li) : Kmm.PosDef := by
  rw [← f.hU, ← Matrix.conjTranspose_eq_transpose_of_trivial]
  refine Matrix.PosDef.mul_conjTranspose_self _ (Matrix.vecMul_injective_of_isUnit ?_)
  exact IsUnit.of_mul_eq_one _ f.hUi

theorem Factors.posDef_sigma (f : Factors Kmm Kmn D U Ui L Li) :
    ((Kmm + Kmn * D * Kmnᵀ)⁻¹).PosDef := by
  rw [← f.sigma, ← Matrix.conjTranspose_eq_transpose_of_trivial]
  refine Matrix.PosDef.conjTranspose_mul_self _ (Matrix.mulVec_injective_of_isUnit ?_)
  refine IsUnit.of_mul_eq_one (U * L) (mul_eq_one_comm.1 ?_)
  rw [Matrix.mul_assoc, ← Matrix.mul_assoc L, f.hLi, Matrix.one_mul, f.hUi]

/-- The observations reduce the variance of the inducing variables. -/
theorem Factors.reduction (f : Factors Kmm Kmn D U Ui L Li) (hD : D.PosSemidef) :
    (Kmm⁻¹ - (Kmm + Kmn * D * Kmnᵀ)⁻¹).PosSemidef := by
  have e : Kmm⁻¹ - (Kmm + Kmn * D * Kmnᵀ)⁻¹ = Uiᵀ * (1 - Liᵀ * Li) * Ui := by
    rw [← f.sigma, ← f.inv_kmm, Matrix.mul_sub, Matrix.sub_mul, Matrix.mul_one, Matrix.transpose_mul]
    simp only [Matrix.mul_assoc]
  set P := Ui * Kmn * D * (Ui * Kmn)ᵀ with hP
  have hPpsd : P.PosSemidef := by
    have := hD.mul_mul_conjTranspose_same (Ui * Kmn)
    rwa [Matrix.conjTranspose_eq_transpose_of_trivial] at this
  have hA := (Matrix.isUnit_iff_isUnit_det _).1 f.isUnit_a
  rw [← hP] at hA
  have hsym : (1 + P)⁻¹ᵀ = (1 + P)⁻¹ := by
    rw [Matrix.transpose_nonsing_inv, Matrix.transpose_add, Matrix.transpose_one]
    have := hPpsd.isHermitian.eq
    rw [Matrix.conjTranspose_eq_transpose_of_trivial] at this
    rw [this]
  have hPs : Pᵀ = P := by
    have := hPpsd.isHermitian.eq
    rwa [Matrix.conjTranspose_eq_transpose_of_trivial] at this
  have e2 : 1 - Liᵀ * Li = (1 + P)⁻¹ᵀ * (P + Pᵀ * P) * (1 + P)⁻¹ := by
    rw [f.inv_a, ← hP, hsym, hPs]
    have h1 : P + P * P = (1 + P) * P := by rw [Matrix.add_mul, Matrix.one_mul]
    rw [h1, ← Matrix.mul_assoc, Matrix.nonsing_inv_mul _ hA, Matrix.one_mul]
    have h2 : P = (1 + P) - 1 := by rw [add_sub_cancel_left]
    conv_rhs => rw [h2, Matrix.sub_mul, add_sub_cancel, Matrix.mul_nonsing_inv _ hA, Matrix.one_mul]
  have h3 : (P + Pᵀ * P).PosSemidef := by
    refine hPpsd.add ?_
    rw [← Matrix.conjTranspose_eq_transpose_of_trivial]
    exact Matrix.posSemidef_conjTranspose_mul_self P
  have h4 : (1 - Liᵀ * Li).PosSemidef := by
    rw [e2, ← Matrix.conjTranspose_eq_transpose_of_trivial]
    exact h3.conjTranspose_mul_mul_same _
  rw [e, ← Matrix.conjTranspose_eq_transpose_of_trivial]
  exact h4.conjTranspose_mul_mul_same _

theorem diagonal_inv {v : Fin n → ℝ} (hv : ∀ i, v i ≠ 0) :
    (Matrix.diagonal v)⁻¹ = Matrix.diagonal fun i => 1 / v i := by
  refine Matrix.inv_eq_right_inv ?_
  rw [Matrix.diagonal_mul_diagonal, ← Matrix.diagonal_one]
  congr 1
  funext i
  exact mul_one_div_cancel (hv i)

/-! ## What is returned -/

theorem computeK_symm (k : Kernel) (z : Fin m → Fin d → ℝ) (w : Fin d → Fin h → ℝ) (θ : Fin h → ℝ) (s c : ℝ) :
    (computeK k z z w θ s + c • (1 : Matrix (Fin m) (Fin m) ℝ))ᵀ = computeK k z z w θ s + c • 1 := by
  rw [Matrix.transpose_add, Matrix.transpose_smul, Matrix.transpose_one]
  congr 1
  funext i j
  simp only [Matrix.transpose_apply, computeK, Matrix.of_apply]
  congr 1
  exact Props.C40_symmetric k θ w _ _ fun l => by right; ring

/-- Inversion of `fitc`. -/
theorem fitc_ok {la : LinAlg} {k : Kernel} {θ : Fin h → ℝ} {s noise : ℝ} {w : Fin d → Fin h → ℝ}
    {x : Fin n → Fin d → ℝ} {y : Fin n → ℝ} {z : Fin m → Fin d → ℝ} {nugget : ℝ} {lk : Option ℝ} {wd : Woodbury m}
    (hf : fitc la k θ s noise w x y z nugget = some (lk, wd)) :
    ∃ (U Ui L Li : Matrix (Fin m) (Fin m) ℝ) (nu : Fin n → ℝ),
      (∀ i, nu i = s - ∑ a, (Ui * computeK k z x w θ s) a i * (Ui * computeK k z x w θ s) a i + noise) ∧
      (∀ i, nu i ≠ 0) ∧
      Factors (computeK k z z w θ s + nugget • (1 : Matrix (Fin m) (Fin m) ℝ)) (computeK k z x w θ s)
        (Matrix.diagonal fun i => 1 / nu i) U Ui L Li ∧
      wd.vec = (Li * Ui)ᵀ * (Li * (Ui * computeK k z x w θ s) * (Matrix.diagonal (fun i => 1 / nu i) *
        Matrix.of fun i _ => y i)) ∧
      wd.inv = Uiᵀ * Ui - (Li * Ui)ᵀ * (Li * Ui) ∧
      lk = (sumLn nu).bind fun t1 => (sumLn fun i => L i i).map fun t2 => -(1 / 2) * (t1 + 2 * t2 +
        ∑ i, y i * (1 / nu i) * y i +
        -∑ i, (Li * (Ui * computeK k z x w θ s) * Matrix.of fun i (_ : Fin 1) => y i * (1 / nu i)) i 0 *
          (Li * (Ui * computeK k z x w θ s) * Matrix.of fun i (_ : Fin 1) => y i * (1 / nu i)) i 0) := by
  simp only [fitc, Option.bind_eq_bind, Option.bind_eq_some_iff] at hf
  obtain ⟨U, hU, Ui, hUi, hf⟩ := hf
  split_ifs at hf with hnu
  simp only [Option.bind_eq_some_iff] at hf
  obtain ⟨L, hL, Li, hLi, hf⟩ := hf
  push Not at hnu
  simp only [Option.some.injEq, Prod.mk.injEq] at hf
  obtain ⟨hlk, hwd⟩ := hf
  obtain ⟨u1, u2, u3⟩ := la.chol_spec _ _ (computeK_symm k z w θ s nugget) hU
  have u4 := (la.solve_spec _ _ _ _ hUi).2
  rw [tri_lower u2] at u4
  set V := Ui * computeK k z x w θ s with hV
  set nu : Fin n → ℝ := fun i => s - ∑ a, V a i * V a i + noise with hnudef
  have hmat : (Matrix.of fun i j => V i j * (1 / nu j) : Matrix (Fin m) (Fin n) ℝ) =
      V * Matrix.diagonal fun i => 1 / nu i := by
    funext i j
    rw [Matrix.mul_diagonal, Matrix.of_apply]
  have hA : (1 + V * Matrix.diagonal (fun i => 1 / nu i) * Vᵀ)ᵀ = 1 + V * Matrix.diagonal (fun i => 1 / nu i) * Vᵀ := by
    rw [Matrix.transpose_add, Matrix.transpose_one, Matrix.transpose_mul _ Vᵀ, Matrix.transpose_mul V,
      Matrix.transpose_transpose, Matrix.diagonal_transpose, Matrix.mul_assoc V]
  have hL' : la.chol (1 + V * Matrix.diagonal (fun i => 1 / nu i) * Vᵀ) = some L := by
    rw [← hmat]; exact hL
  obtain ⟨l1, l2, l3⟩ := la.chol_spec _ _ hA hL'
  have l4 := (la.solve_spec _ _ _ _ hLi).2
  rw [tri_lower l2] at l4
  refine ⟨U, Ui, L, Li, nu, fun i => rfl, hnu, ⟨u1, u4, l1, l4, l2, l3⟩, ?_, ?_, hlk.symm⟩
  · rw [← hwd]
    show (Li * Ui)ᵀ * (Li * V * Matrix.of fun i _ => y i * (1 / nu i)) = _
    congr 2
    funext i j
    rw [Matrix.diagonal_mul, Matrix.of_apply, Matrix.of_apply, mul_comm]
  · rw [← hwd]

/-- Inversion of `vfe`. -/
theorem vfe_ok {la : LinAlg} {k : Kernel} {θ : Fin h → ℝ} {s noise : ℝ} {w : Fin d → Fin h → ℝ}
    {x : Fin n → Fin d → ℝ} {y : Fin n → ℝ} {z : Fin m → Fin d → ℝ} {nugget : ℝ} {lk : Option ℝ} {wd : Woodbury m}
    (hf : vfe la k θ s noise w x y z nugget = some (lk, wd)) :
    max noise nugget ≠ 0 ∧ ∃ (U Ui L Li : Matrix (Fin m) (Fin m) ℝ),
      Factors (computeK k z z w θ s + nugget • (1 : Matrix (Fin m) (Fin m) ℝ)) (computeK k z x w θ s)
        (Matrix.diagonal fun _ => 1 / max noise nugget) U Ui L Li ∧
      wd.vec = (Li * Ui)ᵀ * (Li * (Ui * computeK k z x w θ s) * (Matrix.diagonal (fun _ : Fin n => 1 / max noise nugget) *
        Matrix.of fun i _ => y i)) ∧
      wd.inv = Uiᵀ * Ui + (Li * Ui)ᵀ * (Li * Ui) ∧
      lk = (ln (1 / max noise nugget)).bind fun lb => (sumLn fun i => L i i).map fun t2 => -(1 / 2) *
        (-(n : ℝ) * lb + 2 * t2 + 1 / max noise nugget * ∑ i, y i * y i +
        -(((1 / max noise nugget) • (Li * (Ui * computeK k z x w θ s) * Matrix.of fun (i : Fin n) (_ : Fin 1) => y i))ᵀ *
          ((1 / max noise nugget) • (Li * (Ui * computeK k z x w θ s) * Matrix.of fun (i : Fin n) (_ : Fin 1) => y i))) 0 0 +
        n * (1 / max noise nugget) * s + -∑ i, ((1 / max noise nugget) • ((Ui * computeK k z x w θ s) *
          (Ui * computeK k z x w θ s)ᵀ)) i i) := by
  simp only [vfe, Option.bind_eq_bind, Option.bind_eq_some_iff] at hf
  obtain ⟨U, hU, Ui, hUi, hf⟩ := hf
  split_ifs at hf with hnu
  simp only [Option.bind_eq_some_iff] at hf
  obtain ⟨L, hL, Li, hLi, hf⟩ := hf
  simp only [Option.some.injEq, Prod.mk.injEq] at hf
  obtain ⟨hlk, hwd⟩ := hf
  obtain ⟨u1, u2, u3⟩ := la.chol_spec _ _ (computeK_symm k z w θ s nugget) hU
  have u4 := (la.solve_spec _ _ _ _ hUi).2
  rw [tri_lower u2] at u4
  set V := Ui * computeK k z x w θ s with hV
  set b := 1 / max noise nugget with hb
  have hdiag : (Matrix.diagonal fun _ => b : Matrix (Fin n) (Fin n) ℝ) = b • 1 := by
    rw [Matrix.smul_one_eq_diagonal]
  have hmat : b • (V * Vᵀ) = V * (Matrix.diagonal fun _ => b) * Vᵀ := by
    rw [hdiag, Matrix.mul_smul, Matrix.mul_one, Matrix.smul_mul]
  have hA : (1 + b • (V * Vᵀ))ᵀ = 1 + b • (V * Vᵀ) := by
    rw [Matrix.transpose_add, Matrix.transpose_one, Matrix.transpose_smul, Matrix.transpose_mul,
      Matrix.transpose_transpose]
  obtain ⟨l1, l2, l3⟩ := la.chol_spec _ _ hA hL
  have l4 := (la.solve_spec _ _ _ _ hLi).2
  rw [tri_lower l2] at l4
  rw [hmat] at l1
  refine ⟨hnu, U, Ui, L, Li, ⟨u1, u4, l1, l4, l2, l3⟩, ?_, ?_, hlk.symm⟩
  · rw [← hwd]
    show (Li * Ui)ᵀ * (b • (Li * V * Matrix.of fun i _ => y i)) = _
    rw [hdiag, Matrix.smul_mul, Matrix.one_mul, Matrix.mul_smul (Li * V)]
  · rw [← hwd]
    show Uiᵀ * (1 + Liᵀ * Li) * Ui = _
    rw [Matrix.mul_add, Matrix.add_mul, Matrix.mul_one, Matrix.transpose_mul]
    simp only [Matrix.mul_assoc]

end Verif.Sparse
