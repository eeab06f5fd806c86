import Verif.Model.Gp
import Mathlib.LinearAlgebra.Matrix.Block
import Mathlib.Analysis.Matrix.LDL
import Mathlib.Algebra.Order.Star.Real

/-!
# Linear algebra for Gaussian processes

Triangular matrices, and an instance of the external routines (so that their contracts are consistent).
-/

set_option autoImplicit false

namespace Verif.Gp

open Matrix

variable {n p k : ℕ}

theorem tri_lower {l : Matrix (Fin n) (Fin n) ℝ} (h : ∀ i j, i < j → l i j = 0) : tri .lower l = l := by
  funext i j
  simp only [tri]
  split_ifs with hij
  · rfl
  · exact (h i j (not_le.1 hij)).symm

theorem tri_upper {u : Matrix (Fin n) (Fin n) ℝ} (h : ∀ i j, j < i → u i j = 0) : tri .upper u = u := by
  funext i j
  simp only [tri]
  split_ifs with hij
  · rfl
  · exact (h i j (not_le.1 hij)).symm

theorem det_tri_ne (u : Uplo) {a : Matrix (Fin n) (Fin n) ℝ} (ha : ∀ i, a i i ≠ 0) : (tri u a).det ≠ 0 := by
  cases u with
  | lower =>
    rw [Matrix.det_of_isLowerTriangular]
    · exact Finset.prod_ne_zero_iff.2 fun i _ => by simpa [tri] using ha i
    · intro i j hij
      have : i < j := hij
      simp [tri, not_le.2 this]
  | upper =>
    rw [Matrix.det_of_isUpperTriangular]
    · exact Finset.prod_ne_zero_iff.2 fun i _ => by simpa [tri] using ha i
    · intro i j hij
      have : j < i := hij
      simp [tri, not_le.2 this]

theorem isUnit_det_lower {l : Matrix (Fin n) (Fin n) ℝ} (h : ∀ i j, i < j → l i j = 0) (hd : ∀ i, l i i ≠ 0) :
    IsUnit l.det := by
  have := det_tri_ne .lower hd
  rw [tri_lower h] at this
  exact isUnit_iff_ne_zero.2 this

theorem isUnit_det_upper {l : Matrix (Fin n) (Fin n) ℝ} (h : ∀ i j, j < i → l i j = 0) (hd : ∀ i, l i i ≠ 0) :
    IsUnit l.det := by
  have := det_tri_ne .upper hd
  rw [tri_upper h] at this
  exact isUnit_iff_ne_zero.2 this

/-- Every symmetric positive definite matrix has a Cholesky factor. -/
theorem exists_chol (a : Matrix (Fin n) (Fin n) ℝ) (ha : a.PosDef) :
    ∃ l : Matrix (Fin n) (Fin n) ℝ, l * lᵀ = a ∧ (∀ i j, i < j → l i j = 0) ∧ ∀ i, 0 < l i i := by
  -- A = L D Lᵀ
  have h1 := LDL.lower_conj_diag ha
  have hD : ∀ i, 0 < LDL.diagEntries ha i := by
    intro i
    have hpd : (LDL.lowerInv ha * a * (LDL.lowerInv ha)ᴴ).PosDef :=
      ha.mul_mul_conjTranspose_same (Matrix.vecMul_injective_of_isUnit (isUnit_of_invertible _))
    rw [← LDL.diag_eq_lowerInv_conj] at hpd
    have := hpd.diag_pos (i := i)
    simpa [LDL.diag] using this
  have hlow : ∀ i j, i < j → LDL.lower ha i j = 0 := by
    have hbt : (LDL.lowerInv ha).BlockTriangular OrderDual.toDual := by
      intro i j hij
      exact LDL.lowerInv_triangular ha hij
    have := Matrix.blockTriangular_inv_of_blockTriangular hbt
    intro i j hij
    exact this hij
  have hunit : IsUnit (LDL.lower ha).det := by
    have : LDL.lower ha = (LDL.lowerInv ha)⁻¹ := rfl
    rw [this, Matrix.isUnit_nonsing_inv_det_iff]
    exact (Matrix.isUnit_iff_isUnit_det _).1 (isUnit_of_invertible _)
  have hdiag : ∀ i, LDL.lower ha i i ≠ 0 := by
    have hd : (LDL.lower ha).det = ∏ i, LDL.lower ha i i :=
      Matrix.det_of_isLowerTriangular _ (fun i j hij => hlow i j hij)
    intro i h0
    rw [hd, Finset.prod_eq_zero (f := fun i => LDL.lower ha i i) (Finset.mem_univ i) h0] at hunit
    exact not_isUnit_zero hunit
  -- L' = L · diag(sign · sqrt D)
  let s : Fin n → ℝ := fun i => (if 0 < LDL.lower ha i i then 1 else -1) * √(LDL.diagEntries ha i)
  have hs2 : ∀ i, s i * s i = LDL.diagEntries ha i := by
    intro i
    simp only [s]
    have := Real.mul_self_sqrt (hD i).le
    split_ifs
    · simpa using this
    · simpa using this
  refine ⟨LDL.lower ha * Matrix.diagonal s, ?_, ?_, ?_⟩
  · rw [Matrix.transpose_mul, Matrix.diagonal_transpose, Matrix.mul_assoc, ← Matrix.mul_assoc (Matrix.diagonal s),
      Matrix.diagonal_mul_diagonal]
    have : (fun i => s i * s i) = LDL.diagEntries ha := funext hs2
    rw [this, ← Matrix.mul_assoc]
    simpa [LDL.diag, Matrix.conjTranspose_eq_transpose_of_trivial] using h1
  · intro i j hij
    rw [Matrix.mul_diagonal, hlow i j hij, zero_mul]
  · intro i
    rw [Matrix.mul_diagonal]
    have hq := Real.sqrt_pos.2 (hD i)
    simp only [s]
    split_ifs with hp
    · positivity
    · have : LDL.lower ha i i < 0 := lt_of_le_of_ne (not_lt.1 hp) (hdiag i)
      nlinarith

/-- Exact linear algebra: an instance of the external routines. -/
noncomputable def exact : LinAlg where
  chol a := by
    classical
    exact if h : ∃ l : Matrix _ _ ℝ, l * lᵀ = a ∧ (∀ i j, i < j → l i j = 0) ∧ ∀ i, 0 < l i i then some h.choose
      else none
  chol_spec := by
    intro n a l _ h
    split_ifs at h with hex
    simp only [Option.some.injEq] at h
    rw [← h]
    exact hex.choose_spec
  chol_total := by
    intro n a ha
    rw [dif_pos (exists_chol a ha)]
    exact ⟨_, rfl⟩
  solve u a b := by
    classical
    exact if ∀ i, a i i ≠ 0 then some ((tri u a)⁻¹ * b) else none
  solve_spec := by
    intro n k u a b x h
    split_ifs at h with hd
    simp only [Option.some.injEq] at h
    refine ⟨hd, ?_⟩
    rw [← h, ← Matrix.mul_assoc, Matrix.mul_nonsing_inv _ (isUnit_iff_ne_zero.2 (det_tri_ne u hd)), Matrix.one_mul]
  solve_total := by
    intro n k u a b hd
    rw [if_pos hd]
    exact ⟨_, rfl⟩
  qr a := by
    classical
    exact if h : ∃ qr : Matrix _ _ ℝ × Matrix _ _ ℝ, qr.1 * qr.2 = a ∧ qr.1ᵀ * qr.1 = 1 ∧ ∀ i j, j < i → qr.2 i j = 0
      then some h.choose else none
  qr_spec := by
    intro n p a q r h
    split_ifs at h with hex
    simp only [Option.some.injEq] at h
    have := hex.choose_spec
    rw [h] at this
    exact this
  wellConditioned _ _ := true

/-- A matrix with independent columns has a QR factorization with non-zero diagonal. -/
theorem exact_qr (a : Matrix (Fin n) (Fin p) ℝ) (ha : Function.Injective a.mulVec) :
    ∃ q r, exact.qr a = some (q, r) ∧ ∀ i, r i i ≠ 0 := by
  have hpd : (aᵀ * a).PosDef := by
    have := Matrix.PosDef.conjTranspose_mul_self a ha
    rwa [Matrix.conjTranspose_eq_transpose_of_trivial] at this
  obtain ⟨l, h1, h2, h3⟩ := exists_chol _ hpd
  have hu : IsUnit l.det := isUnit_det_lower h2 fun i => (h3 i).ne'
  have hut : IsUnit lᵀ.det := by rwa [Matrix.det_transpose]
  have hex : ∃ qr : Matrix (Fin n) (Fin p) ℝ × Matrix (Fin p) (Fin p) ℝ, qr.1 * qr.2 = a ∧ qr.1ᵀ * qr.1 = 1 ∧
      ∀ i j, j < i → qr.2 i j = 0 := by
    refine ⟨(a * lᵀ⁻¹, lᵀ), ?_, ?_, fun i j hij => h2 j i hij⟩
    · simp only
      rw [Matrix.mul_assoc, Matrix.nonsing_inv_mul _ hut, Matrix.mul_one]
    · simp only
      rw [Matrix.transpose_mul, Matrix.mul_assoc, ← Matrix.mul_assoc aᵀ, ← h1, Matrix.mul_assoc l,
        Matrix.mul_nonsing_inv _ hut, Matrix.mul_one, Matrix.transpose_nonsing_inv, Matrix.transpose_transpose,
        Matrix.nonsing_inv_mul _ hu]
  refine ⟨hex.choose.1, hex.choose.2, ?_, ?_⟩
  · simp only [exact]
    rw [dif_pos hex]
  · obtain ⟨g1, g2, g3⟩ := hex.choose_spec
    set q := hex.choose.1
    set r := hex.choose.2
    have hrr : rᵀ * r = aᵀ * a := by
      rw [← g1, Matrix.transpose_mul, Matrix.mul_assoc, ← Matrix.mul_assoc qᵀ, g2, Matrix.one_mul]
    have hdet : IsUnit r.det := by
      have h4 : IsUnit (aᵀ * a).det := (Matrix.isUnit_iff_isUnit_det _).1 hpd.isUnit
      rw [← hrr, Matrix.det_mul] at h4
      exact isUnit_of_mul_isUnit_right h4
    intro i h0
    rw [Matrix.det_of_isUpperTriangular (fun i j hij => g3 i j hij), Finset.prod_eq_zero (f := fun i => r i i) (Finset.mem_univ i) h0] at hdet
    exact not_isUnit_zero hdet

end Verif.Gp
