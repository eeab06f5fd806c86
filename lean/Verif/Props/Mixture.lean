import Verif.Lemmas.Mixture
import Verif.Lemmas.MixInt
import Verif.Lemmas.Run
import Verif.Props.Means
import Verif.Spec.Criteria
import Mathlib.Analysis.Complex.ExponentialBounds

/-!
# Gaussian mixture and recombination: C55, C56, C82
-/

set_option autoImplicit false

namespace Verif.Props

open Verif Matrix Spec Mixture

variable {n d : ℕ} {m : Gmx n d} {w : Fin n → ℝ} {μ : Fin n → Fin d → ℝ} {C : Fin n → Matrix (Fin d) (Fin d) ℝ}
  {h : ℝ}

/-! ## C82 -/

/-- **C82.** A mixture with positive definite covariances can be built. -/
theorem C82_new_succeeds (la : Gp.LinAlg) (w : Fin n → ℝ) (μ : Fin n → Fin d → ℝ)
    (C : Fin n → Matrix (Fin d) (Fin d) ℝ) (hC : ∀ k, (C k).PosDef) : ∃ m, new la w μ C = some m := by
  unfold new
  rw [dif_pos]
  · exact ⟨_, rfl⟩
  · intro k
    obtain ⟨l, hl⟩ := la.chol_total (C k) (hC k)
    have hsymm : (C k)ᵀ = C k := by simpa [Matrix.conjTranspose_eq_transpose_of_trivial] using (hC k).1.eq
    obtain ⟨_, _, h3⟩ := la.chol_spec (C k) l hsymm hl
    obtain ⟨s, hs⟩ := la.solve_total .lower l (1 : Matrix (Fin d) (Fin d) ℝ) fun i => (h3 i).ne'
    exact ⟨sᵀ, by simp [precChol, hl, hs]⟩

/-- **C82.** `pdfs` gives at every point the densities of the normal laws of the clusters, covariances being
multiplied by the heaviside factor. -/
theorem C82_pdfs (hm : IsMixture m w μ C h) (x : Fin d → ℝ) (k : Fin n) :
    m.pdfs x k = density (μ k) (h • C k) x := pdfs_eq hm x k

/-- Mixture of unit normal laws with equal weights. -/
theorem exists_unit (hn : n ≠ 0) (μ : Fin n → Fin d → ℝ) :
    ∃ m : Gmx n d, IsMixture m (fun _ => (n : ℝ)⁻¹) μ (fun _ => 1) 1 := by
  obtain ⟨m0, h0⟩ := C82_new_succeeds Gp.exact (fun _ => (n : ℝ)⁻¹) μ (fun _ => (1 : Matrix (Fin d) (Fin d) ℝ))
    fun _ => Matrix.PosDef.one
  exact ⟨m0.setFactor 1, ⟨fun _ => by positivity, one_pos, fun _ => Matrix.PosDef.one, _, m0, h0, rfl⟩⟩

/-- Case: two clusters in dimension one. -/
example : ∃ m : Gmx 2 1, IsMixture m (fun _ => ((2 : ℕ) : ℝ)⁻¹) (fun k _ => k) (fun _ => 1) 1 :=
  exists_unit (by decide) _

/-! ## C55 -/

/-- **C55.** Responsibilities are positive. -/
theorem C55_positive (x : Fin d → ℝ) (k : Fin n) : 0 < m.probas x k := by
  unfold Gmx.probas
  split_ifs
  · exact one_pos
  · exact Real.exp_pos _

/-- **C55.** With a single cluster the responsibility is 1. -/
theorem C55_single (m : Gmx 1 d) (x : Fin d → ℝ) : ∑ k, m.probas x k = 1 := by
  simp [Gmx.probas]

theorem probas_eq (hm : IsMixture m w μ C h) (hn : n ≠ 1) (x : Fin d → ℝ) (k : Fin n) :
    m.probas x k = joint w μ C h x k / if m.probSum x < Gmx.epsilon then 1 else m.probSum x := by
  unfold Gmx.probas
  rw [if_neg hn, exp_logResp hm]

theorem probSum_of_large (hm : IsMixture m w μ C h) (x : Fin d → ℝ)
    (hl : ∀ k, Real.exp (-307) < joint w μ C h x k) : m.probSum x = ∑ k, joint w μ C h x k := by
  rw [probSum_eq hm]
  exact Finset.sum_congr rfl fun k _ => if_neg (not_le.2 (hl k))

/-- **C55.** Where each weighted density is above `e^-307` and their sum not below the machine precision, the
responsibilities are those of the mixture and sum to one. -/
theorem C55_responsibilities_partial (hm : IsMixture m w μ C h) (x : Fin d → ℝ)
    (hl : ∀ k, Real.exp (-307) < joint w μ C h x k) (hs : Gmx.epsilon ≤ ∑ k, joint w μ C h x k) :
    (∀ k, m.probas x k = responsibility w μ C h x k) ∧ ∑ k, m.probas x k = 1 := by
  have hpos : 0 < ∑ k, joint w μ C h x k := lt_of_lt_of_le epsilon_pos hs
  have key : ∀ k, m.probas x k = responsibility w μ C h x k := by
    intro k
    by_cases hn : n = 1
    · subst hn
      rw [Gmx.probas, if_pos rfl, responsibility]
      rw [Fintype.sum_eq_single k fun i hi => absurd (Subsingleton.elim i k) hi] at hpos ⊢
      rw [div_self hpos.ne']
    · rw [probas_eq hm hn, probSum_of_large hm x hl, if_neg (not_lt.2 hs)]
      rfl
  refine ⟨key, ?_⟩
  simp only [key, responsibility]
  rw [← Finset.sum_div, div_self hpos.ne']

/-- Part of the sum which the code leaves out. -/
theorem left_out (hm : IsMixture m w μ C h) (x : Fin d → ℝ) :
    m.probSum x ≤ ∑ k, joint w μ C h x k ∧ ∑ k, joint w μ C h x k ≤ m.probSum x + n * Real.exp (-307) := by
  rw [probSum_eq hm]
  constructor
  · apply Finset.sum_le_sum
    intro k _
    split_ifs
    · exact (joint_pos hm x k).le
    · exact le_refl _
  · have : (n : ℝ) * Real.exp (-307) = ∑ _k : Fin n, Real.exp (-307) := by simp
    rw [this, ← Finset.sum_add_distrib]
    apply Finset.sum_le_sum
    intro k _
    split_ifs with hc
    · simpa using hc
    · have := Real.exp_pos (-307); linarith

theorem exp_bound : Real.exp (-307) ≤ 2⁻¹ ^ 307 := by
  have h1 : (2 : ℝ) ≤ Real.exp 1 := by
    have := Real.exp_one_gt_d9; linarith
  have h2 : Real.exp (-307) = (Real.exp 1)⁻¹ ^ 307 := by
    rw [← Real.exp_neg, ← Real.exp_nat_mul]; norm_num
  rw [h2]
  exact pow_le_pow_left₀ (by positivity) (inv_anti₀ (by norm_num) h1) _

theorem count_bound (hn : n ≤ 2 ^ 100) : (n : ℝ) * Real.exp (-307) ≤ 2⁻¹ ^ 200 := by
  have h1 : (n : ℝ) ≤ 2 ^ 100 := by exact_mod_cast hn
  calc (n : ℝ) * Real.exp (-307) ≤ 2 ^ 100 * 2⁻¹ ^ 307 :=
        mul_le_mul h1 exp_bound (Real.exp_pos _).le (by positivity)
    _ = 2⁻¹ ^ 7 * 2⁻¹ ^ 200 * (2 ^ 100 * 2⁻¹ ^ 100) := by
        rw [show 307 = 7 + 200 + 100 from rfl, pow_add, pow_add]
        generalize (2⁻¹ : ℝ) ^ 200 = a
        ring
    _ ≤ 2⁻¹ ^ 200 := by norm_num

theorem sum_probas (hm : IsMixture m w μ C h) (hn : n ≠ 1) (x : Fin d → ℝ) :
    ∑ k, m.probas x k = (∑ k, joint w μ C h x k) / if m.probSum x < Gmx.epsilon then 1 else m.probSum x := by
  simp only [probas_eq hm hn]
  rw [Finset.sum_div]

/-- **C55.** With two clusters or more (and less than `2^100`), the responsibilities sum to one exactly at the
points of `C55_responsibilities_partial`. -/
theorem C55_sum_one_iff (hm : IsMixture m w μ C h) (hn : 2 ≤ n) (hn' : n ≤ 2 ^ 100) (x : Fin d → ℝ) :
    ∑ k, m.probas x k = 1 ↔
      (∀ k, Real.exp (-307) < joint w μ C h x k) ∧ Gmx.epsilon ≤ ∑ k, joint w μ C h x k := by
  refine ⟨fun hsum => ?_, fun hc => (C55_responsibilities_partial hm x hc.1 hc.2).2⟩
  rw [sum_probas hm (by omega)] at hsum
  have hlo := left_out hm x
  have hcb := count_bound hn'
  by_cases hlt : m.probSum x < Gmx.epsilon
  · rw [if_pos hlt, div_one] at hsum
    have he : Gmx.epsilon ≤ 1 / 4 := by unfold Gmx.epsilon; norm_num
    have : (2⁻¹ : ℝ) ^ 200 ≤ 1 / 4 := by norm_num
    linarith
  · rw [if_neg hlt] at hsum
    have hpos := lt_of_lt_of_le epsilon_pos (not_lt.1 hlt)
    rw [div_eq_one_iff_eq hpos.ne'] at hsum
    refine ⟨?_, by rw [hsum]; exact not_lt.1 hlt⟩
    by_contra hcon
    push Not at hcon
    obtain ⟨k, hk⟩ := hcon
    have : m.probSum x < ∑ k, joint w μ C h x k := by
      rw [probSum_eq hm]
      apply Finset.sum_lt_sum
      · intro i _
        split_ifs
        · exact (joint_pos hm x i).le
        · exact le_refl _
      · exact ⟨k, Finset.mem_univ _, by rw [if_pos hk]; exact joint_pos hm x k⟩
    linarith

/-- **C55.** Where the sum of the weighted densities is above twice the machine precision, the sum of
responsibilities is one up to `2^-140`. -/
theorem C55_nearly_one (hm : IsMixture m w μ C h) (hn' : n ≤ 2 ^ 100) (x : Fin d → ℝ)
    (hs : 2 * Gmx.epsilon ≤ ∑ k, joint w μ C h x k) :
    1 ≤ ∑ k, m.probas x k ∧ ∑ k, m.probas x k ≤ 1 + 2⁻¹ ^ 140 := by
  by_cases hn : n = 1
  · subst hn
    rw [C55_single]
    exact ⟨le_refl _, by norm_num⟩
  rw [sum_probas hm hn]
  have hlo := left_out hm x
  have hcb := count_bound hn'
  have he : (2⁻¹ : ℝ) ^ 200 ≤ Gmx.epsilon := by unfold Gmx.epsilon; norm_num
  have hge : Gmx.epsilon ≤ m.probSum x := by linarith
  have hpos := lt_of_lt_of_le epsilon_pos hge
  rw [if_neg (not_lt.2 hge), le_div_iff₀ hpos, div_le_iff₀ hpos]
  refine ⟨by linarith [hlo.1], ?_⟩
  have h3 : (2⁻¹ : ℝ) ^ 200 ≤ 2⁻¹ ^ 140 * Gmx.epsilon := by unfold Gmx.epsilon; norm_num
  have h4 : (2⁻¹ : ℝ) ^ 140 * Gmx.epsilon ≤ 2⁻¹ ^ 140 * m.probSum x :=
    mul_le_mul_of_nonneg_left hge (by positivity)
  linarith [hlo.2]

/-- Weighted densities vanish far away. -/
theorem far_away (hm : IsMixture m w μ C h) (hd : 0 < d) (δ : ℝ) (hδ : 0 < δ) :
    ∃ x, ∀ k, joint w μ C h x k < δ := by
  set e : Fin d → ℝ := Pi.single ⟨0, hd⟩ 1 with he
  have hne : e ≠ 0 := by
    intro h0
    have := congrFun h0 ⟨0, hd⟩
    simp [he] at this
  have lim : ∀ k, Filter.Tendsto (fun t : ℝ => joint w μ C h (t • e) k) Filter.atTop (nhds 0) := by
    intro k
    have hpd : ((h • C k)⁻¹).PosDef := by
      have : (h • C k).PosDef := (hm.posDef k).smul hm.factor
      exact this.inv
    set A := (h • C k)⁻¹
    have hA : Aᵀ = A := by simpa [Matrix.conjTranspose_eq_transpose_of_trivial] using hpd.1.eq
    have ha : 0 < e ⬝ᵥ (A *ᵥ e) := by simpa using hpd.dotProduct_mulVec_pos hne
    have hb : 0 ≤ μ k ⬝ᵥ (A *ᵥ μ k) := by simpa using hpd.posSemidef.dotProduct_mulVec_nonneg (μ k)
    have hq : ∀ t : ℝ, t * (t * (e ⬝ᵥ (A *ᵥ e)) - 2 * (e ⬝ᵥ (A *ᵥ μ k))) ≤
        (t • e - μ k) ⬝ᵥ (A *ᵥ (t • e - μ k)) := by
      intro t
      have hsw : μ k ⬝ᵥ (A *ᵥ e) = e ⬝ᵥ (A *ᵥ μ k) := by
        rw [Matrix.dotProduct_mulVec, ← Matrix.mulVec_transpose, hA, dotProduct_comm]
      rw [Matrix.mulVec_sub, Matrix.mulVec_smul, dotProduct_sub, sub_dotProduct, sub_dotProduct, smul_dotProduct,
        smul_dotProduct, dotProduct_smul, dotProduct_smul, hsw]
      simp only [smul_eq_mul]
      nlinarith
    have hlim : Filter.Tendsto (fun t : ℝ => t * (t * (e ⬝ᵥ (A *ᵥ e)) - 2 * (e ⬝ᵥ (A *ᵥ μ k))))
        Filter.atTop Filter.atTop := by
      apply Filter.Tendsto.atTop_mul_atTop₀ Filter.tendsto_id
      exact Filter.tendsto_atTop_add_const_right _ _ (Filter.tendsto_id.atTop_mul_const ha)
    have hq2 := Filter.tendsto_atTop_mono hq hlim
    have h1 : Filter.Tendsto (fun t : ℝ => Real.exp (-((t • e - μ k) ⬝ᵥ (A *ᵥ (t • e - μ k))) / 2))
        Filter.atTop (nhds 0) := by
      apply Real.tendsto_exp_atBot.comp
      have := (Filter.tendsto_neg_atTop_atBot.comp hq2).atBot_mul_const (r := (1 / 2 : ℝ)) (by norm_num)
      refine this.congr fun t => ?_
      simp only [Function.comp]
      ring
    have h2 := (h1.div_const (√((2 * Real.pi) ^ d * (h • C k).det))).const_mul (w k)
    simpa [joint, density] using h2
  have hev : ∀ᶠ t : ℝ in Filter.atTop, ∀ k, joint w μ C h (t • e) k < δ :=
    Filter.eventually_all.2 fun k => (lim k).eventually (gt_mem_nhds hδ)
  obtain ⟨t, ht⟩ := hev.exists
  exact ⟨t • e, ht⟩

/-- **C55 refuted.** Every mixture with two clusters or more has points where the sum of the responsibilities is
nearly zero (below any positive number), since the weighted densities are not normalized when their sum is below
the machine precision. -/
theorem C55_refuted_far (hm : IsMixture m w μ C h) (hd : 0 < d) (hn : 2 ≤ n) (δ : ℝ) (hδ : 0 < δ) :
    ∃ x, ∑ k, m.probas x k < δ := by
  have hnp : (0 : ℝ) < n := by positivity
  obtain ⟨x, hx⟩ := far_away hm hd (min δ Gmx.epsilon / n) (by have := epsilon_pos; positivity)
  refine ⟨x, ?_⟩
  have hsum : ∑ k, joint w μ C h x k < min δ Gmx.epsilon := by
    have hne : (Finset.univ : Finset (Fin n)).Nonempty := ⟨⟨0, by omega⟩, Finset.mem_univ _⟩
    calc ∑ k, joint w μ C h x k < ∑ _k : Fin n, min δ Gmx.epsilon / n :=
          Finset.sum_lt_sum_of_nonempty hne fun k _ => hx k
      _ = min δ Gmx.epsilon := by simp; field_simp
  rw [sum_probas hm (by omega)]
  have hlo := (left_out hm x).1
  rw [if_pos (lt_of_le_of_lt hlo (lt_of_lt_of_le hsum (min_le_right _ _))), div_one]
  exact lt_of_lt_of_le hsum (min_le_left _ _)

/-- **C55 refuted.** The smooth prediction is then not between the smallest and the largest predictions of the
experts: when all experts predict 1 it takes values below any positive number. -/
theorem C55_refuted_prediction (g : GpMixture n d) (hm : IsMixture g.gmx w μ C h) (hd : 0 < d) (hn : 2 ≤ n)
    (hone : ∀ k x, (g.experts k).predict x = 1) (δ : ℝ) (hδ : 0 < δ) : ∃ x, g.predictSmooth x < δ := by
  obtain ⟨x, hx⟩ := C55_refuted_far hm hd hn δ hδ
  refine ⟨x, ?_⟩
  unfold GpMixture.predictSmooth
  simpa [hone] using hx

/-- **C55.** Where responsibilities sum to one, the smooth prediction is between bounds of the predictions of the
experts, and the smooth variance is not larger than the largest variance. -/
theorem C55_convex_partial (g : GpMixture n d) (x : Fin d → ℝ) (hsum : ∑ k, g.gmx.probas x k = 1) (a b : ℝ)
    (hab : ∀ k, a ≤ (g.experts k).predict x ∧ (g.experts k).predict x ≤ b) :
    a ≤ g.predictSmooth x ∧ g.predictSmooth x ≤ b := by
  unfold GpMixture.predictSmooth
  constructor
  · calc a = ∑ k, a * g.gmx.probas x k := by rw [← Finset.mul_sum, hsum, mul_one]
      _ ≤ _ := Finset.sum_le_sum fun k _ => mul_le_mul_of_nonneg_right (hab k).1 (C55_positive x k).le
  · calc _ ≤ ∑ k, b * g.gmx.probas x k :=
          Finset.sum_le_sum fun k _ => mul_le_mul_of_nonneg_right (hab k).2 (C55_positive x k).le
      _ = b := by rw [← Finset.mul_sum, hsum, mul_one]

/-- **C55.** Variance counterpart: between 0 and the largest variance. -/
theorem C55_variance_partial (g : GpMixture n d) (x : Fin d → ℝ) (hsum : ∑ k, g.gmx.probas x k = 1) (b : ℝ)
    (hb : ∀ k, 0 ≤ (g.experts k).predictVar x ∧ (g.experts k).predictVar x ≤ b) :
    0 ≤ g.predictVarSmooth x ∧ g.predictVarSmooth x ≤ b := by
  unfold GpMixture.predictVarSmooth
  have hle : ∀ k, g.gmx.probas x k ≤ 1 := by
    intro k
    rw [← hsum]
    exact Finset.single_le_sum (fun i _ => (C55_positive x i).le) (Finset.mem_univ k)
  have hp := fun k => (C55_positive (m := g.gmx) x k).le
  constructor
  · exact Finset.sum_nonneg fun k _ => mul_nonneg (mul_nonneg (hb k).1 (hp k)) (hp k)
  · calc _ ≤ ∑ k, b * g.gmx.probas x k := by
          apply Finset.sum_le_sum
          intro k _
          have h0 : 0 ≤ b := le_trans (hb k).1 (hb k).2
          calc (g.experts k).predictVar x * g.gmx.probas x k * g.gmx.probas x k
              ≤ (g.experts k).predictVar x * g.gmx.probas x k * 1 :=
                mul_le_mul_of_nonneg_left (hle k) (mul_nonneg (hb k).1 (hp k))
            _ ≤ b * g.gmx.probas x k := by
                rw [mul_one]
                exact mul_le_mul_of_nonneg_right (hb k).2 (hp k)
      _ = b := by rw [← Finset.mul_sum, hsum, mul_one]

/-! ## C56 -/

/-- **C56.** The cluster of a point is the first of those with the largest weighted density (thus the largest
responsibility). -/
theorem C56_cluster (hm : IsMixture m w μ C h) (hn : n ≠ 0) (x : Fin d → ℝ) :
    ∃ k : Fin n, m.predict x = k ∧ (∀ i, joint w μ C h x i ≤ joint w μ C h x k) ∧
      ∀ i, i < k → joint w μ C h x i < joint w μ C h x k := by
  have hne : (List.ofFn fun k => Real.exp (m.logResp x k)) ≠ [] := by
    intro h0
    have := congrArg List.length h0
    simp at this
    exact hn this
  obtain ⟨k, hk, h1, h2, h3⟩ := MixInt.argmax_spec _ hne
  have hk' : k < n := by simpa using hk
  have hc : 0 < if m.probSum x < Gmx.epsilon then 1 else m.probSum x := by
    split_ifs with hlt
    · exact one_pos
    · exact lt_of_lt_of_le epsilon_pos (not_lt.1 hlt)
  refine ⟨⟨k, hk'⟩, ?_, ?_, ?_⟩
  · unfold Gmx.predict
    rw [h1]
  · intro i
    have := h2 (Real.exp (m.logResp x i)) (by simp)
    simp only [List.getElem_ofFn, exp_logResp hm] at this
    exact (div_le_div_iff_of_pos_right hc).1 this
  · intro i hi
    have := h3 i hi
    simp only [List.getElem_ofFn, exp_logResp hm] at this
    exact (div_lt_div_iff_of_pos_right hc).1 this

/-- **C56.** With hard recombination, value, variance and gradients are those of the expert of the first cluster
with the largest weighted density. -/
theorem C56_hard (g : GpMixture n d) (hm : IsMixture g.gmx w μ C h) (hn : n ≠ 0) (hr : g.recombination = .hard)
    (x : Fin d → ℝ) :
    ∃ k : Fin n, ((∀ i, joint w μ C h x i ≤ joint w μ C h x k) ∧ ∀ i, i < k → joint w μ C h x i < joint w μ C h x k) ∧
      g.predict x = .ok ((g.experts k).predict x) ∧ g.predictVar x = .ok ((g.experts k).predictVar x) ∧
      g.predictGradients x = .ok ((g.experts k).predictGradients x) ∧
      g.predictVarGradients x = .ok ((g.experts k).predictVarGradients x) := by
  obtain ⟨k, h1, h2, h3⟩ := C56_cluster hm hn x
  refine ⟨k, ⟨h2, h3⟩, ?_⟩
  have he : g.expert (g.gmx.predict x) = .ok (g.experts k) := by
    rw [h1, GpMixture.expert, dif_pos k.isLt]
  simp only [GpMixture.predict, GpMixture.predictVar, GpMixture.predictGradients, GpMixture.predictVarGradients, hr,
    GpMixture.predictHard, GpMixture.predictVarHard, GpMixture.predictGradientsHard, GpMixture.predictVarGradientsHard,
    he, bind_ok]
  exact ⟨⟨_, rfl, rfl⟩, ⟨_, rfl, rfl⟩, ⟨_, rfl, rfl⟩, ⟨_, rfl, rfl⟩⟩

end Verif.Props
