import Verif.Spec.Mixture
import Verif.Lemmas.Gp
import Mathlib.Tactic.Ring
import Mathlib.Tactic.FieldSimp
import Mathlib.Tactic.Linarith
import Mathlib.Tactic.Positivity

/-!
# Lemmas on Gaussian mixtures
-/

set_option autoImplicit false

namespace Verif.Mixture

open Verif Matrix Spec

variable {n d : ℕ}

theorem precChol_spec {la : Gp.LinAlg} {C p : Matrix (Fin d) (Fin d) ℝ} (hC : C.PosDef)
    (h : precChol la C = some p) :
    p * pᵀ = C⁻¹ ∧ (∀ i, 0 < p i i) ∧ (∏ i, p i i) ^ 2 * C.det = 1 := by
  unfold precChol at h
  cases hl : la.chol C with
  | none => rw [hl] at h; simp at h
  | some l =>
    rw [hl] at h
    simp only [Option.bind_eq_bind, Option.bind_some] at h
    cases hs : la.solve .lower l (1 : Matrix (Fin d) (Fin d) ℝ) with
    | none => rw [hs] at h; simp at h
    | some s =>
      rw [hs] at h
      simp only [Option.bind_some, Option.some.injEq] at h
      have hsymm : Cᵀ = C := by simpa [Matrix.conjTranspose_eq_transpose_of_trivial] using hC.1.eq
      obtain ⟨h1, h2, h3⟩ := la.chol_spec C l hsymm hl
      obtain ⟨_, h4⟩ := la.solve_spec .lower l 1 s hs
      rw [Gp.tri_lower h2] at h4
      have hu : IsUnit l.det := Gp.isUnit_det_lower h2 fun i => (h3 i).ne'
      have hsl : s = l⁻¹ := (Matrix.inv_eq_right_inv h4).symm
      subst h
      have hlow : ∀ i j, i < j → s i j = 0 := by
        have hbt : l.BlockTriangular OrderDual.toDual := fun i j hij => h2 i j hij
        have : Invertible l := Matrix.invertibleOfIsUnitDet _ hu
        have := Matrix.blockTriangular_inv_of_blockTriangular hbt
        intro i j hij
        rw [hsl]
        exact this hij
      have hdiag : ∀ i, l i i * s i i = 1 := by
        intro i
        have := congrFun (congrFun h4 i) i
        rw [Matrix.mul_apply, Matrix.one_apply_eq, Finset.sum_eq_single i] at this
        · exact this
        · intro b _ hb
          rcases lt_or_gt_of_ne hb with hlt | hgt
          · rw [hlow b i hlt, mul_zero]
          · rw [h2 i b hgt, zero_mul]
        · simp
      refine ⟨?_, ?_, ?_⟩
      · rw [Matrix.transpose_transpose, hsl, ← h1, Matrix.mul_inv_rev, Matrix.transpose_nonsing_inv]
      · intro i
        rw [Matrix.transpose_apply]
        have := hdiag i
        have hp := h3 i
        by_contra hcon
        nlinarith
      · simp only [Matrix.transpose_apply]
        have hdl : l.det = ∏ i, l i i := Matrix.det_of_isLowerTriangular _ fun i j hij => h2 i j hij
        rw [← h1, Matrix.det_mul, Matrix.det_transpose, hdl]
        have : (∏ i, l i i) * ∏ i, s i i = 1 := by
          rw [← Finset.prod_mul_distrib]
          exact Finset.prod_eq_one fun i _ => hdiag i
        calc (∏ i, s i i) ^ 2 * ((∏ i, l i i) * ∏ i, l i i)
            = ((∏ i, l i i) * ∏ i, s i i) ^ 2 := by ring
          _ = 1 := by rw [this, one_pow]

/-- What the construction gives. -/
structure Facts (m : Gmx n d) (w : Fin n → ℝ) (μ : Fin n → Fin d → ℝ) (C : Fin n → Matrix (Fin d) (Fin d) ℝ)
    (h : ℝ) : Prop where
  weights : m.weights = w
  means : m.means = μ
  factor : m.heavisideFactor = h
  prec : ∀ k, m.precisions k = (C k)⁻¹
  chol : ∀ k, m.precisionsChol k * (m.precisionsChol k)ᵀ = (C k)⁻¹
  diag : ∀ k i, 0 < m.precisionsChol k i i
  det : ∀ k, (∏ i, m.precisionsChol k i i) ^ 2 * (C k).det = 1
  logDet : m.logDet = computeLogDet m.precisionsChol h

theorem facts {m : Gmx n d} {w : Fin n → ℝ} {μ : Fin n → Fin d → ℝ} {C : Fin n → Matrix (Fin d) (Fin d) ℝ} {h : ℝ}
    (hm : IsMixture m w μ C h) : Facts m w μ C h := by
  obtain ⟨la, m0, h0, rfl⟩ := hm.built
  unfold new at h0
  split_ifs at h0 with hex
  simp only [Option.some.injEq] at h0
  have hp : ∀ k, precChol la (C k) = some ((hex k).choose) := fun k => (hex k).choose_spec
  subst h0
  refine ⟨rfl, rfl, rfl, ?_, ?_, ?_, ?_, rfl⟩
  · intro k; exact (precChol_spec (hm.posDef k) (hp k)).1
  · intro k; exact (precChol_spec (hm.posDef k) (hp k)).1
  · intro k; exact (precChol_spec (hm.posDef k) (hp k)).2.1
  · intro k; exact (precChol_spec (hm.posDef k) (hp k)).2.2

theorem inv_smul' {h : ℝ} (hh : 0 < h) (C : Matrix (Fin d) (Fin d) ℝ) (hC : C.PosDef) :
    (h • C)⁻¹ = h⁻¹ • C⁻¹ := by
  have hu : IsUnit C.det := isUnit_iff_ne_zero.2 hC.det_pos.ne'
  apply Matrix.inv_eq_right_inv
  rw [Matrix.smul_mul, Matrix.mul_smul, smul_smul, Matrix.mul_nonsing_inv _ hu, mul_inv_cancel₀ hh.ne', one_smul]

theorem sq_factor {h : ℝ} (hh : 0 < h) : h ^ (-0.5 : ℝ) * h ^ (-0.5 : ℝ) = h⁻¹ := by
  rw [← Real.rpow_add hh]
  norm_num
  exact Real.rpow_neg_one h

variable {m : Gmx n d} {w : Fin n → ℝ} {μ : Fin n → Fin d → ℝ} {C : Fin n → Matrix (Fin d) (Fin d) ℝ} {h : ℝ}

theorem det_pos_smul (hm : IsMixture m w μ C h) (k : Fin n) : 0 < (h • C k).det := by
  rw [Matrix.det_smul]
  have := (hm.posDef k).det_pos
  have := hm.factor
  positivity

theorem density_pos (hm : IsMixture m w μ C h) (x : Fin d → ℝ) (k : Fin n) : 0 < density (μ k) (h • C k) x := by
  unfold density
  have := det_pos_smul hm k
  have := Real.pi_pos
  positivity

theorem joint_pos (hm : IsMixture m w μ C h) (x : Fin d → ℝ) (k : Fin n) : 0 < joint w μ C h x k :=
  mul_pos (hm.weights k) (density_pos hm x k)

/-- The quadratic form in the exponent. -/
theorem quad_eq (hm : IsMixture m w μ C h) (x : Fin d → ℝ) (k : Fin n) :
    (∑ j, ((x - m.means k) ᵥ* (m.heavisideFactor ^ (-0.5 : ℝ) • m.precisionsChol k)) j *
        ((x - m.means k) ᵥ* (m.heavisideFactor ^ (-0.5 : ℝ) • m.precisionsChol k)) j)
      = (x - μ k) ⬝ᵥ ((h • C k)⁻¹ *ᵥ (x - μ k)) := by
  have f := facts hm
  rw [f.means, f.factor, inv_smul' hm.factor _ (hm.posDef k), ← f.chol k]
  generalize x - μ k = y
  generalize m.precisionsChol k = P
  have h1 : (∑ j, (y ᵥ* (h ^ (-0.5 : ℝ) • P)) j * (y ᵥ* (h ^ (-0.5 : ℝ) • P)) j)
      = (y ᵥ* (h ^ (-0.5 : ℝ) • P)) ⬝ᵥ (y ᵥ* (h ^ (-0.5 : ℝ) • P)) := rfl
  rw [h1, Matrix.vecMul_smul, smul_dotProduct, dotProduct_smul, smul_smul, sq_factor hm.factor,
    Matrix.smul_mulVec, dotProduct_smul, ← Matrix.mulVec_mulVec, Matrix.dotProduct_mulVec, Matrix.mulVec_transpose]

/-- The densities are those of normal laws. -/
theorem pdfs_eq (hm : IsMixture m w μ C h) (x : Fin d → ℝ) (k : Fin n) :
    m.pdfs x k = density (μ k) (h • C k) x := by
  have f := facts hm
  have hh := hm.factor
  have hdet := det_pos_smul hm k
  have hpi := Real.pi_pos
  unfold Gmx.pdfs Gmx.logGaussianProb density
  simp only
  rw [quad_eq hm x k, f.logDet]
  set q := (x - μ k) ⬝ᵥ ((h • C k)⁻¹ *ᵥ (x - μ k))
  have hc : 0 < h ^ (-0.5 : ℝ) := Real.rpow_pos_of_pos hh _
  have hld : computeLogDet m.precisionsChol h k = Real.log (∏ i, m.precisionsChol k i i * h ^ (-0.5 : ℝ)) := by
    unfold computeLogDet
    rw [Real.log_prod]
    intro i _
    exact (mul_pos (f.diag k i) hc).ne'
  have hprod : 0 < ∏ i, m.precisionsChol k i i * h ^ (-0.5 : ℝ) :=
    Finset.prod_pos fun i _ => mul_pos (f.diag k i) hc
  rw [hld, Real.exp_add, Real.exp_log hprod]
  have he : Real.exp ((-0.5 : ℝ) * (q + d * Real.log (2 * Real.pi)))
      = Real.exp (-q / 2) * (√((2 * Real.pi) ^ d))⁻¹ := by
    have hA : 0 < (2 * Real.pi) ^ d := by positivity
    have : (-0.5 : ℝ) * (q + d * Real.log (2 * Real.pi)) = -q / 2 + -Real.log (√((2 * Real.pi) ^ d)) := by
      rw [Real.log_sqrt hA.le, Real.log_pow]; ring
    rw [this, Real.exp_add, Real.exp_neg, Real.exp_log (Real.sqrt_pos.2 hA)]
  have hone : (∏ i, m.precisionsChol k i i * h ^ (-0.5 : ℝ)) * √((h • C k).det) = 1 := by
    have h1 := f.det k
    have h2 : (h ^ (-0.5 : ℝ)) ^ d * (h ^ (-0.5 : ℝ)) ^ d * h ^ d = 1 := by
      rw [← mul_pow, ← mul_pow, sq_factor hh, inv_mul_cancel₀ hh.ne', one_pow]
    have h3 : ((∏ i, m.precisionsChol k i i * h ^ (-0.5 : ℝ)) * √((h • C k).det)) ^ 2 = 1 := by
      rw [mul_pow, Real.sq_sqrt hdet.le, Matrix.det_smul, Fintype.card_fin, Finset.prod_mul_distrib,
        Finset.prod_const, Finset.card_univ, Fintype.card_fin]
      calc _ = ((∏ i, m.precisionsChol k i i) ^ 2 * (C k).det) *
            ((h ^ (-0.5 : ℝ)) ^ d * (h ^ (-0.5 : ℝ)) ^ d * h ^ d) := by ring
        _ = 1 := by rw [h1, h2, one_mul]
    exact (pow_eq_one_iff_of_nonneg (mul_pos hprod (Real.sqrt_pos.2 hdet)).le two_ne_zero).1 h3
  have hA : 0 < √((2 * Real.pi) ^ d) := Real.sqrt_pos.2 (by positivity)
  have hB : 0 < √((h • C k).det) := Real.sqrt_pos.2 hdet
  rw [he, Real.sqrt_mul (by positivity)]
  generalize √((h • C k).det) = B at hone hB
  generalize (∏ i, m.precisionsChol k i i * h ^ (-0.5 : ℝ)) = D at hone
  generalize √((2 * Real.pi) ^ d) = A at hA
  generalize Real.exp (-q / 2) = E
  rw [eq_div_iff (by positivity)]
  field_simp
  rw [mul_assoc, hone, mul_one]

theorem exp_weighted (hm : IsMixture m w μ C h) (x : Fin d → ℝ) (k : Fin n) :
    Real.exp (m.weightedLogProb x k) = joint w μ C h x k := by
  unfold Gmx.weightedLogProb joint
  rw [Real.exp_add, (facts hm).weights, Real.exp_log (hm.weights k), ← pdfs_eq hm x k, mul_comm]
  rfl

theorem weighted_eq (hm : IsMixture m w μ C h) (x : Fin d → ℝ) (k : Fin n) :
    m.weightedLogProb x k = Real.log (joint w μ C h x k) := by
  rw [← exp_weighted hm, Real.log_exp]

theorem probSum_eq (hm : IsMixture m w μ C h) (x : Fin d → ℝ) :
    m.probSum x = ∑ k, if joint w μ C h x k ≤ Real.exp (-307) then 0 else joint w μ C h x k := by
  unfold Gmx.probSum
  apply Finset.sum_congr rfl
  intro k _
  have : m.weightedLogProb x k ≤ Gmx.minExp ↔ joint w μ C h x k ≤ Real.exp (-307) := by
    rw [← exp_weighted hm, Real.exp_le_exp]
    rfl
  rw [exp_weighted hm]
  by_cases hc : joint w μ C h x k ≤ Real.exp (-307)
  · rw [if_pos hc, if_pos (this.2 hc)]
  · rw [if_neg hc, if_neg (fun hcc => hc (this.1 hcc))]

theorem probSum_nonneg (hm : IsMixture m w μ C h) (x : Fin d → ℝ) : 0 ≤ m.probSum x := by
  rw [probSum_eq hm]
  apply Finset.sum_nonneg
  intro k _
  split_ifs
  · exact le_refl _
  · exact (joint_pos hm x k).le

theorem epsilon_pos : 0 < Gmx.epsilon := by unfold Gmx.epsilon; positivity

/-- Responsibilities computed with several clusters. -/
theorem exp_logResp (hm : IsMixture m w μ C h) (x : Fin d → ℝ) (k : Fin n) :
    Real.exp (m.logResp x k)
      = joint w μ C h x k / if m.probSum x < Gmx.epsilon then 1 else m.probSum x := by
  unfold Gmx.logResp Gmx.logProbNorm
  rw [abs_of_nonneg (probSum_nonneg hm x), Real.exp_sub, exp_weighted hm]
  split_ifs with hlt
  · rw [Real.exp_zero]
  · rw [Real.exp_log (lt_of_lt_of_le epsilon_pos (not_lt.1 hlt))]

end Verif.Mixture
