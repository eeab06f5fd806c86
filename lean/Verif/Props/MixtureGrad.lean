import Verif.Props.Mixture
import Verif.Props.Gp

/-!
# Gradients of the mixture of experts and heaviside factor: C56 (single cluster), C57, C83
-/

set_option autoImplicit false

namespace Verif.Props

open Verif Matrix Spec Mixture

variable {n d : ℕ} {m : Gmx n d} {w : Fin n → ℝ} {μ : Fin n → Fin d → ℝ} {C : Fin n → Matrix (Fin d) (Fin d) ℝ}
  {h : ℝ}

/-! ## Derivatives of densities -/

/-- `C⁻¹ (x - μ)` for cluster `k`. -/
noncomputable def scoreOf (μ : Fin n → Fin d → ℝ) (C : Fin n → Matrix (Fin d) (Fin d) ℝ) (h : ℝ) (x : Fin d → ℝ)
    (k : Fin n) (j : Fin d) : ℝ := ((h • C k)⁻¹ *ᵥ (x - μ k)) j

theorem inv_symm (hm : IsMixture m w μ C h) (k : Fin n) : ((h • C k)⁻¹)ᵀ = (h • C k)⁻¹ := by
  have : ((h • C k)⁻¹).PosDef := ((hm.posDef k).smul hm.factor).inv
  simpa [Matrix.conjTranspose_eq_transpose_of_trivial] using this.1.eq

theorem hasDerivAt_joint (hm : IsMixture m w μ C h) (x : Fin d → ℝ) (k : Fin n) (j : Fin d) :
    HasDerivAt (fun t => joint w μ C h (Function.update x j t) k)
      (-(scoreOf μ C h x k j * joint w μ C h x k)) (x j) := by
  have hsym := inv_symm hm k
  unfold joint density scoreOf
  generalize (h • C k)⁻¹ = A at hsym
  generalize √((2 * Real.pi) ^ d * (h • C k).det) = D
  have hu : ∀ i, HasDerivAt (fun t => Function.update x j t i - μ k i) (if i = j then 1 else 0) (x j) :=
    fun i => (hasDerivAt_update x i j).sub_const _
  have hq := hasDerivAt_quadForm _ _ (x j) A hsym hu
  have e1 : ∀ y : Fin d → ℝ, ((Matrix.of fun i (_ : Fin 1) => y i)ᵀ * A * (Matrix.of fun i (_ : Fin 1) => y i)) 0 0
      = y ⬝ᵥ (A *ᵥ y) := by
    intro y
    rw [Matrix.mul_assoc, Matrix.mul_apply]
    rfl
  have e2 : (fun s => ((Matrix.of fun i (_ : Fin 1) => Function.update x j s i - μ k i)ᵀ * A *
      (Matrix.of fun i (_ : Fin 1) => Function.update x j s i - μ k i)) 0 0)
      = fun s => (Function.update x j s - μ k) ⬝ᵥ (A *ᵥ (Function.update x j s - μ k)) := by
    funext s
    exact e1 _
  rw [e2] at hq
  have h1 := (((hq.neg.div_const 2).exp).div_const D).const_mul (w k)
  refine h1.congr_deriv ?_
  simp only [Function.update_eq_self, Pi.neg_apply]
  have e3 : ∑ i, (A * Matrix.of fun i (_ : Fin 1) => x i - μ k i) i 0 * (if i = j then (1 : ℝ) else 0)
      = (A *ᵥ (x - μ k)) j := by
    rw [Finset.sum_eq_single j]
    · simp only [if_true, mul_one]; rfl
    · intro b _ hb; simp [hb]
    · simp
  rw [e3]
  ring

/-- The derivative computed by the code. -/
theorem probasDerivatives_eq (hm : IsMixture m w μ C h) (x : Fin d → ℝ) (k : Fin n) (j : Fin d) :
    m.probasDerivatives x k j =
      (-(scoreOf μ C h x k j * joint w μ C h x k) * (∑ i, joint w μ C h x i) -
        joint w μ C h x k * ∑ i, -(scoreOf μ C h x i j * joint w μ C h x i)) / (∑ i, joint w μ C h x i) ^ 2 := by
  have f := facts hm
  have hj : ∀ i, m.weights i * m.pdfs x i = joint w μ C h x i := by
    intro i
    rw [f.weights, pdfs_eq hm]
    rfl
  have hs : ∀ i, ((x - m.means i) ᵥ* (m.heavisideFactor⁻¹ • m.precisions i)) j = scoreOf μ C h x i j := by
    intro i
    have hsym := inv_symm hm i
    unfold scoreOf
    rw [f.means, f.factor, f.prec, ← inv_smul' hm.factor _ (hm.posDef i), ← Matrix.mulVec_transpose, hsym]
  unfold Gmx.probasDerivatives Gmx.mixtureDensity
  simp only [hj, hs, mul_neg, sq]

theorem hasDerivAt_responsibility (hm : IsMixture m w μ C h) (x : Fin d → ℝ) (k : Fin n) (j : Fin d) :
    HasDerivAt (fun t => responsibility w μ C h (Function.update x j t) k) (m.probasDerivatives x k j) (x j) := by
  have hpos : 0 < ∑ i, joint w μ C h x i :=
    Finset.sum_pos (fun i _ => joint_pos hm x i) ⟨k, Finset.mem_univ _⟩
  have h1 := hasDerivAt_joint hm x k j
  have h2 : HasDerivAt (fun t => ∑ i, joint w μ C h (Function.update x j t) i)
      (∑ i, -(scoreOf μ C h x i j * joint w μ C h x i)) (x j) :=
    HasDerivAt.fun_sum fun i _ => hasDerivAt_joint hm x i j
  have h3 := h1.fun_div h2 (by simpa only [Function.update_eq_self] using hpos.ne')
  refine h3.congr_deriv ?_
  simp only [Function.update_eq_self]
  rw [probasDerivatives_eq hm]

/-- The points around which responsibilities are those of the mixture. -/
def Regular (w : Fin n → ℝ) (μ : Fin n → Fin d → ℝ) (C : Fin n → Matrix (Fin d) (Fin d) ℝ) (h : ℝ)
    (x : Fin d → ℝ) : Prop :=
  n = 1 ∨ ((∀ k, Real.exp (-307) < joint w μ C h x k) ∧ Gmx.epsilon < ∑ k, joint w μ C h x k)

theorem single_derivatives {m : Gmx 1 d} {w : Fin 1 → ℝ} {μ : Fin 1 → Fin d → ℝ}
    {C : Fin 1 → Matrix (Fin d) (Fin d) ℝ} (hm : IsMixture m w μ C h) (x : Fin d → ℝ) (k : Fin 1) (j : Fin d) :
    m.probasDerivatives x k j = 0 := by
  rw [probasDerivatives_eq hm, Subsingleton.elim k 0]
  simp only [Finset.univ_unique, Finset.sum_singleton, Fin.default_eq_zero]
  rw [div_eq_zero_iff]
  left
  ring

/-- **C57.** The derivatives of the responsibilities are right at regular points. -/
theorem C57_probas_partial (hm : IsMixture m w μ C h) (x : Fin d → ℝ) (hr : Regular w μ C h x) (k : Fin n) :
    IsGradient (fun z => m.probas z k) (m.probasDerivatives x k) x := by
  intro j
  rcases hr with rfl | ⟨hl, hs⟩
  · rw [single_derivatives hm]
    simpa [Gmx.probas] using hasDerivAt_const (x j) (1 : ℝ)
  · have hev : ∀ᶠ t in nhds (x j), ∀ i, Real.exp (-307) < joint w μ C h (Function.update x j t) i := by
      refine Filter.eventually_all.2 fun i => ?_
      have hc := (hasDerivAt_joint hm x i j).continuousAt
      refine hc.eventually_const_lt ?_
      simpa only [Function.update_eq_self] using hl i
    have hev2 : ∀ᶠ t in nhds (x j), Gmx.epsilon < ∑ i, joint w μ C h (Function.update x j t) i := by
      have h2 : HasDerivAt (fun t => ∑ i, joint w μ C h (Function.update x j t) i)
          (∑ i, -(scoreOf μ C h x i j * joint w μ C h x i)) (x j) :=
        HasDerivAt.fun_sum fun i _ => hasDerivAt_joint hm x i j
      refine h2.continuousAt.eventually_const_lt ?_
      simpa only [Function.update_eq_self] using hs
    refine (hasDerivAt_responsibility hm x k j).congr_of_eventuallyEq ?_
    filter_upwards [hev, hev2] with t h1 h2
    exact (C55_responsibilities_partial hm _ h1 h2.le).1 k

/-! ## Broadcasting -/

theorem coIdx_self {a i : ℕ} (hi : i < a) : coIdx a i = i := by
  unfold coIdx
  split_ifs with h1
  · omega
  · rfl

theorem coIdx_one (i : ℕ) : coIdx 1 i = 0 := rfl

theorem coDim_self (a : ℕ) : coDim a a = .ok a := by simp [coDim]

theorem coDim_one_left (b : ℕ) : coDim 1 b = .ok b := by
  unfold coDim
  by_cases h1 : 1 = b
  · rw [if_pos h1, h1]
  · rw [if_neg h1, if_pos rfl]

theorem coDim_one_right (a : ℕ) : coDim a 1 = .ok a := by
  unfold coDim
  by_cases h1 : a = 1
  · rw [if_pos h1]
  · rw [if_neg h1, if_neg h1, if_pos rfl]

theorem mat_v (p : Fin n → Fin d → ℝ) (i : Fin n) (j : Fin d) : (Arr.mat p).v i j = p i j := by
  simp [Arr.mat]

theorem col_v (p : Fin n → ℝ) (i : Fin n) : (Arr.col p).v i 0 = p i := by
  simp [Arr.col]

theorem vec_v (p : Fin n → ℝ) (i : Fin n) : (Arr.vec p).v 0 i = p i := by
  simp [Arr.vec]

/-- What `predict_gradients_smooth` returns. -/
theorem predictGradientsSmooth_eq (g : GpMixture n d) (x : Fin d → ℝ) :
    g.predictGradientsSmooth x = .ok fun j => (∑ i, (g.experts i).predictGradients x j * g.gmx.probas x i) +
      ∑ i, g.gmx.probasDerivatives x i j * (g.experts i).predict x := by
  unfold GpMixture.predictGradientsSmooth
  have h1 : (Arr.mat (g.gmx.probasDerivatives x)).mul (Arr.col fun i => (g.experts i).predict x)
      = .ok ⟨n, d, fun i j => (Arr.mat (g.gmx.probasDerivatives x)).v (coIdx n i) (coIdx d j) *
          (Arr.col fun i => (g.experts i).predict x).v (coIdx n i) (coIdx 1 j)⟩ := by
    simp only [Arr.mul, Arr.zip, Arr.mat, Arr.col, coDim_self, coDim_one_right]
    rfl
  simp only [h1, Arr.add, Arr.zip, Arr.sumAxis0, bind, Except.bind]
  simp only [show (Arr.mat fun i j => (g.experts i).predictGradients x j * g.gmx.probas x i).c = d from rfl,
    show (Arr.mat fun i j => (g.experts i).predictGradients x j * g.gmx.probas x i).r = n from rfl, coDim_self]
  show Arr.assign d _ = _
  rw [Arr.assign, if_pos rfl]
  congr 1
  funext j
  simp only [coIdx_self j.isLt, coIdx_one, Finset.sum_range]
  congr 1
  · exact Finset.sum_congr rfl fun i _ => mat_v _ i j
  · refine Finset.sum_congr rfl fun i _ => ?_
    simp only [coIdx_self i.isLt, mat_v, col_v]

/-- **C57.** At regular points, the gradient of the smooth prediction is its vector of partial derivatives, for
all numbers of clusters and all dimensions. -/
theorem C57_value_partial (g : GpMixture n d) (hm : IsMixture g.gmx w μ C h) (x : Fin d → ℝ)
    (hr : Regular w μ C h x)
    (hg : ∀ i, IsGradient (g.experts i).predict ((g.experts i).predictGradients x) x) :
    ∃ v, g.predictGradientsSmooth x = .ok v ∧ IsGradient g.predictSmooth v x := by
  refine ⟨_, predictGradientsSmooth_eq g x, fun j => ?_⟩
  have h1 : HasDerivAt (fun t => ∑ i, (g.experts i).predict (Function.update x j t) *
      g.gmx.probas (Function.update x j t) i) (∑ i, ((g.experts i).predictGradients x j * g.gmx.probas x i +
        (g.experts i).predict x * g.gmx.probasDerivatives x i j)) (x j) := by
    refine HasDerivAt.fun_sum fun i _ => ?_
    have := (hg i j).fun_mul (C57_probas_partial hm x hr i j)
    simpa only [Function.update_eq_self] using this
  refine h1.congr_deriv ?_
  rw [← Finset.sum_add_distrib]
  exact Finset.sum_congr rfl fun i _ => by ring

/-! ## C57: variance -/

/-- **C57 refuted.** With two clusters or more, and a dimension different from the number of clusters, the
gradient of the variance panics at every point. -/
theorem C57_refuted_variance_panics (g : GpMixture n d) (hn : 2 ≤ n) (hnd : n ≠ d) (x : Fin d → ℝ) :
    g.predictVarGradientsSmooth x = .error .shape := by
  unfold GpMixture.predictVarGradientsSmooth
  by_cases hd : d = 1
  · subst hd
    have hn1 : n ≠ 1 := hnd
    have hn2 : ¬ (1 = n) := fun h => hn1 h.symm
    simp [Arr.mul, Arr.zip, Arr.vec, Arr.mat, Arr.col, Arr.add, Arr.sumAxis0, Arr.assign, coDim_self, coDim_one_left,
      coDim_one_right, bind, Except.bind, hn1]
  · have : coDim n d = .error .shape := by
      unfold coDim
      rw [if_neg hnd, if_neg (by omega), if_neg hd]
    simp [Arr.mul, Arr.zip, Arr.vec, Arr.mat, coDim_one_left, this, bind, Except.bind]

/-- What `predict_var_gradients_smooth` returns with as many clusters as components. -/
theorem predictVarGradientsSmooth_square (g : GpMixture d d) (x : Fin d → ℝ) :
    g.predictVarGradientsSmooth x = .ok fun j =>
      (∑ i, (g.experts i).predictVarGradients x j * g.gmx.probas x i * g.gmx.probas x i) +
      ∑ i, 2 * (g.gmx.probas x j * g.gmx.probasDerivatives x i j * (g.experts i).predictVar x) := by
  unfold GpMixture.predictVarGradientsSmooth
  have h1 : (Arr.vec (g.gmx.probas x)).mul (Arr.mat (g.gmx.probasDerivatives x))
      = .ok ⟨d, d, fun i j => (Arr.vec (g.gmx.probas x)).v (coIdx 1 i) (coIdx d j) *
          (Arr.mat (g.gmx.probasDerivatives x)).v (coIdx d i) (coIdx d j)⟩ := by
    simp only [Arr.mul, Arr.zip, Arr.mat, Arr.vec, coDim_self, coDim_one_left]
    rfl
  have h2 : ∀ f : ℕ → ℕ → ℝ, (⟨d, d, f⟩ : Arr).mul (Arr.col fun i => (g.experts i).predictVar x)
      = .ok ⟨d, d, fun i j => f (coIdx d i) (coIdx d j) *
          (Arr.col fun i => (g.experts i).predictVar x).v (coIdx d i) (coIdx 1 j)⟩ := by
    intro f
    simp only [Arr.mul, Arr.zip, Arr.col, coDim_self, coDim_one_right]
    rfl
  simp only [h1, bind, Except.bind]
  rw [h2]
  simp only [Arr.add, Arr.zip, Arr.sumAxis0]
  simp only [show ∀ f : Fin d → Fin d → ℝ, (Arr.mat f).c = d from fun _ => rfl,
    show ∀ f : Fin d → Fin d → ℝ, (Arr.mat f).r = d from fun _ => rfl, coDim_self]
  show Arr.assign d _ = _
  rw [Arr.assign, if_pos rfl]
  congr 1
  funext j
  simp only [coIdx_self j.isLt, coIdx_one, Finset.sum_range]
  congr 1
  · exact Finset.sum_congr rfl fun i _ => mat_v _ i j
  · refine Finset.sum_congr rfl fun i _ => ?_
    simp only [coIdx_self i.isLt, mat_v, col_v, vec_v]

/-- What `predict_var_gradients_smooth` returns with one cluster. -/
theorem predictVarGradientsSmooth_single (g : GpMixture 1 d) (x : Fin d → ℝ) :
    g.predictVarGradientsSmooth x = .ok fun j =>
      (g.experts 0).predictVarGradients x j * g.gmx.probas x 0 * g.gmx.probas x 0 +
      2 * (g.gmx.probas x 0 * g.gmx.probasDerivatives x 0 j * (g.experts 0).predictVar x) := by
  unfold GpMixture.predictVarGradientsSmooth
  have h1 : (Arr.vec (g.gmx.probas x)).mul (Arr.mat (g.gmx.probasDerivatives x))
      = .ok ⟨1, d, fun i j => (Arr.vec (g.gmx.probas x)).v (coIdx 1 i) (coIdx 1 j) *
          (Arr.mat (g.gmx.probasDerivatives x)).v (coIdx 1 i) (coIdx d j)⟩ := by
    simp only [Arr.mul, Arr.zip, Arr.mat, Arr.vec, coDim_self, coDim_one_left]
    rfl
  have h2 : ∀ f : ℕ → ℕ → ℝ, (⟨1, d, f⟩ : Arr).mul (Arr.col fun i => (g.experts i).predictVar x)
      = .ok ⟨1, d, fun i j => f (coIdx 1 i) (coIdx d j) *
          (Arr.col fun i => (g.experts i).predictVar x).v (coIdx 1 i) (coIdx 1 j)⟩ := by
    intro f
    simp only [Arr.mul, Arr.zip, Arr.col, coDim_self, coDim_one_right]
    rfl
  simp only [h1, bind, Except.bind]
  rw [h2]
  simp only [Arr.add, Arr.zip, Arr.sumAxis0]
  simp only [show ∀ f : Fin 1 → Fin d → ℝ, (Arr.mat f).c = d from fun _ => rfl,
    show ∀ f : Fin 1 → Fin d → ℝ, (Arr.mat f).r = 1 from fun _ => rfl, coDim_self]
  show Arr.assign d _ = _
  rw [Arr.assign, if_pos rfl]
  congr 1
  funext j
  simp only [coIdx_self j.isLt, coIdx_one, Finset.sum_range_one]
  have e1 := mat_v (n := 1) (fun i j => (g.experts i).predictVarGradients x j * g.gmx.probas x i * g.gmx.probas x i) 0 j
  have e2 := mat_v (n := 1) (g.gmx.probasDerivatives x) 0 j
  have e3 := col_v (n := 1) (fun i => (g.experts i).predictVar x) 0
  have e4 := vec_v (n := 1) (g.gmx.probas x) 0
  simp only [Fin.val_zero] at e1 e2 e3 e4
  rw [e1, e2, e3, e4]

/-- **C57.** With one cluster, the gradients of value and variance are right at every point. -/
theorem C57_single (g : GpMixture 1 d) {w : Fin 1 → ℝ} {μ : Fin 1 → Fin d → ℝ}
    {C : Fin 1 → Matrix (Fin d) (Fin d) ℝ} (hm : IsMixture g.gmx w μ C h) (x : Fin d → ℝ)
    (hg : IsGradient (g.experts 0).predict ((g.experts 0).predictGradients x) x)
    (hv : IsGradient (g.experts 0).predictVar ((g.experts 0).predictVarGradients x) x) :
    (∃ v, g.predictGradientsSmooth x = .ok v ∧ IsGradient g.predictSmooth v x) ∧
      ∃ v, g.predictVarGradientsSmooth x = .ok v ∧ IsGradient g.predictVarSmooth v x := by
  refine ⟨C57_value_partial g hm x (Or.inl rfl) fun i => by rw [Subsingleton.elim i 0]; exact hg, ?_⟩
  refine ⟨_, predictVarGradientsSmooth_single g x, fun j => ?_⟩
  have e : g.predictVarSmooth = (g.experts 0).predictVar := by
    funext z
    simp [GpMixture.predictVarSmooth, Gmx.probas]
  rw [e]
  refine (hv j).congr_deriv ?_
  rw [single_derivatives hm]
  simp [Gmx.probas]

/-- **C56.** With one cluster, smooth recombination gives the predictions of the expert. -/
theorem C56_single (g : GpMixture 1 d) {w : Fin 1 → ℝ} {μ : Fin 1 → Fin d → ℝ}
    {C : Fin 1 → Matrix (Fin d) (Fin d) ℝ} (hm : IsMixture g.gmx w μ C h) (x : Fin d → ℝ) :
    g.predict x = .ok ((g.experts 0).predict x) ∧ g.predictVar x = .ok ((g.experts 0).predictVar x) ∧
      g.predictGradients x = .ok ((g.experts 0).predictGradients x) ∧
      g.predictVarGradients x = .ok ((g.experts 0).predictVarGradients x) := by
  cases hr : g.recombination with
  | hard =>
    obtain ⟨k, _, hk⟩ := C56_hard g hm one_ne_zero hr x
    rwa [Subsingleton.elim k 0] at hk
  | smooth f =>
    simp only [GpMixture.predict, GpMixture.predictVar, GpMixture.predictGradients, GpMixture.predictVarGradients, hr,
      predictVarGradientsSmooth_single, predictGradientsSmooth_eq, single_derivatives hm]
    simp [GpMixture.predictSmooth, GpMixture.predictVarSmooth, Gmx.probas]

/-- The right derivative of the smooth variance. -/
theorem hasDerivAt_variance (g : GpMixture n d) (hm : IsMixture g.gmx w μ C h) (x : Fin d → ℝ)
    (hr : Regular w μ C h x)
    (hv : ∀ i, IsGradient (g.experts i).predictVar ((g.experts i).predictVarGradients x) x) (j : Fin d) :
    HasDerivAt (fun t => g.predictVarSmooth (Function.update x j t))
      ((∑ i, (g.experts i).predictVarGradients x j * g.gmx.probas x i * g.gmx.probas x i) +
        ∑ i, 2 * (g.gmx.probas x i * g.gmx.probasDerivatives x i j * (g.experts i).predictVar x)) (x j) := by
  have h1 : HasDerivAt (fun t => ∑ i, (g.experts i).predictVar (Function.update x j t) *
      g.gmx.probas (Function.update x j t) i * g.gmx.probas (Function.update x j t) i)
      (∑ i, (((g.experts i).predictVarGradients x j * g.gmx.probas x i +
        (g.experts i).predictVar x * g.gmx.probasDerivatives x i j) * g.gmx.probas x i +
        (g.experts i).predictVar x * g.gmx.probas x i * g.gmx.probasDerivatives x i j)) (x j) := by
    refine HasDerivAt.fun_sum fun i _ => ?_
    have hp := C57_probas_partial hm x hr i j
    have := ((hv i j).fun_mul hp).fun_mul hp
    simpa only [Function.update_eq_self] using this
  refine h1.congr_deriv ?_
  rw [← Finset.sum_add_distrib]
  exact Finset.sum_congr rfl fun i _ => by ring

/-- **C57.** With as many clusters as components, a vector is returned; it is the gradient of the smooth variance
exactly when `∑ i, (p_i - p_j) p'_ij v_i = 0` for all components `j`, where `p` are the responsibilities, `p'` their
derivatives and `v` the variances of the experts. -/
theorem C57_variance_square_iff (g : GpMixture d d) {w : Fin d → ℝ} {μ : Fin d → Fin d → ℝ}
    {C : Fin d → Matrix (Fin d) (Fin d) ℝ} (hm : IsMixture g.gmx w μ C h) (x : Fin d → ℝ)
    (hr : Regular w μ C h x)
    (hv : ∀ i, IsGradient (g.experts i).predictVar ((g.experts i).predictVarGradients x) x) :
    ∃ v, g.predictVarGradientsSmooth x = .ok v ∧ (IsGradient g.predictVarSmooth v x ↔
      ∀ j, ∑ i, (g.gmx.probas x i - g.gmx.probas x j) * g.gmx.probasDerivatives x i j *
        (g.experts i).predictVar x = 0) := by
  refine ⟨_, predictVarGradientsSmooth_square g x, ?_⟩
  have key : ∀ j, ((∑ i, (g.experts i).predictVarGradients x j * g.gmx.probas x i * g.gmx.probas x i) +
        ∑ i, 2 * (g.gmx.probas x i * g.gmx.probasDerivatives x i j * (g.experts i).predictVar x)) -
      ((∑ i, (g.experts i).predictVarGradients x j * g.gmx.probas x i * g.gmx.probas x i) +
        ∑ i, 2 * (g.gmx.probas x j * g.gmx.probasDerivatives x i j * (g.experts i).predictVar x)) =
      2 * ∑ i, (g.gmx.probas x i - g.gmx.probas x j) * g.gmx.probasDerivatives x i j *
        (g.experts i).predictVar x := by
    intro j
    rw [add_sub_add_left_eq_sub, ← Finset.sum_sub_distrib, Finset.mul_sum]
    exact Finset.sum_congr rfl fun i _ => by ring
  constructor
  · intro hg j
    have := (hasDerivAt_variance g hm x hr hv j).unique (hg j)
    have h2 := key j
    rw [this, sub_self] at h2
    linarith
  · intro h0 j
    refine (hasDerivAt_variance g hm x hr hv j).congr_deriv ?_
    have h2 := key j
    rw [h0 j, mul_zero] at h2
    linarith

/-- **C57 refuted.** Two clusters in dimension two, experts with variance 1 everywhere: the vector returned is not the
gradient of the smooth variance. -/
theorem C57_refuted_variance_square : ∃ (g : GpMixture 2 2) (w : Fin 2 → ℝ) (μ : Fin 2 → Fin 2 → ℝ)
    (C : Fin 2 → Matrix (Fin 2) (Fin 2) ℝ) (h : ℝ) (x : Fin 2 → ℝ) (v : Fin 2 → ℝ),
    IsMixture g.gmx w μ C h ∧ Regular w μ C h x ∧
      (∀ i z, (g.experts i).predictVar z = 1 ∧ (g.experts i).predictVarGradients z = 0) ∧
      g.predictVarGradientsSmooth x = .ok v ∧ ¬ IsGradient g.predictVarSmooth v x := by
  obtain ⟨m, hm⟩ := exists_unit (n := 2) (d := 2) (by decide) ![![0, 0], ![1, 0]]
  set μ : Fin 2 → Fin 2 → ℝ := ![![0, 0], ![1, 0]] with hμ
  set E : Expert 2 := ⟨fun _ => 0, fun _ => 1, fun _ => 0, fun _ => 0⟩ with hE
  have hpi := Real.pi_pos
  have hdens : ∀ y : Fin 2 → ℝ, density y ((1 : ℝ) • (1 : Matrix (Fin 2) (Fin 2) ℝ)) 0 =
      Real.exp (-(y 0 * y 0 + y 1 * y 1) / 2) / (2 * Real.pi) := by
    intro y
    unfold density
    rw [one_smul, inv_one, Matrix.one_mulVec, Matrix.det_one, mul_one, Real.sqrt_sq (by positivity)]
    simp [dotProduct, Fin.sum_univ_two]
  have hJ0 : joint (fun _ => ((2 : ℕ) : ℝ)⁻¹) μ (fun _ => 1) 1 0 0 = 2⁻¹ * (1 / (2 * Real.pi)) := by
    unfold joint
    rw [hdens]
    simp [hμ]
  have hJ1 : joint (fun _ => ((2 : ℕ) : ℝ)⁻¹) μ (fun _ => 1) 1 0 1 = 2⁻¹ * (Real.exp (-1 / 2) / (2 * Real.pi)) := by
    unfold joint
    rw [hdens]
    simp [hμ]
  have he : Real.exp (-1 / 2) < 1 := by rw [Real.exp_lt_one_iff]; norm_num
  have he2 : 1 / 2 ≤ Real.exp (-1 / 2) := by
    have := Real.add_one_le_exp (-1 / 2 : ℝ); linarith
  have hpi4 := Real.pi_le_four
  have hlt : joint (fun _ => ((2 : ℕ) : ℝ)⁻¹) μ (fun _ => 1) 1 0 1 <
      joint (fun _ => ((2 : ℕ) : ℝ)⁻¹) μ (fun _ => 1) 1 0 0 := by
    rw [hJ0, hJ1]
    have : Real.exp (-1 / 2) / (2 * Real.pi) < 1 / (2 * Real.pi) := by
      apply div_lt_div_of_pos_right he (by positivity)
    linarith
  have hlow : 1 / 32 ≤ joint (fun _ => ((2 : ℕ) : ℝ)⁻¹) μ (fun _ => 1) 1 0 1 := by
    rw [hJ1]
    have : 1 / 16 ≤ Real.exp (-1 / 2) / (2 * Real.pi) := by
      rw [le_div_iff₀ (by positivity)]
      linarith
    linarith
  have hexp : Real.exp (-307) < 1 / 32 := by
    have h1 := exp_bound
    have h2 : (2⁻¹ : ℝ) ^ 307 ≤ 2⁻¹ ^ 6 := pow_le_pow_of_le_one (by norm_num) (by norm_num) (by norm_num)
    have h3 : (2⁻¹ : ℝ) ^ 6 < 1 / 32 := by norm_num
    exact lt_of_le_of_lt (h1.trans h2) h3
  have heps : Gmx.epsilon < 1 / 32 := by unfold Gmx.epsilon; norm_num
  have hreg : Regular (fun _ => ((2 : ℕ) : ℝ)⁻¹) μ (fun _ => 1) 1 (0 : Fin 2 → ℝ) := by
    right
    constructor
    · intro k
      fin_cases k
      · exact lt_trans hexp (lt_of_le_of_lt hlow hlt)
      · exact lt_of_lt_of_le hexp hlow
    · rw [Fin.sum_univ_two]
      linarith
  obtain ⟨v, h1, h2⟩ := C57_variance_square_iff (⟨.smooth none, fun _ => E, m⟩ : GpMixture 2 2) hm 0 hreg (by
    intro i j
    exact hasDerivAt_const _ _)
  refine ⟨⟨.smooth none, fun _ => E, m⟩, _, μ, _, 1, 0, v, hm, hreg, fun _ _ => ⟨rfl, rfl⟩, h1, ?_⟩
  rw [h2]
  intro hall
  have h0 := hall 0
  rw [Fin.sum_univ_two] at h0
  simp only [sub_self, zero_mul, zero_add, hE, mul_one] at h0
  rcases mul_eq_zero.1 h0 with ha | hb
  · have hres := (C55_responsibilities_partial hm 0 (by rcases hreg with h | h; exact absurd h (by decide); exact h.1)
      (by rcases hreg with h | h; exact absurd h (by decide); exact h.2.le)).1
    rw [hres, hres, responsibility, responsibility, ← sub_div, div_eq_zero_iff] at ha
    rcases ha with ha | ha
    · linarith
    · rw [Fin.sum_univ_two] at ha
      linarith
  · rw [probasDerivatives_eq hm] at hb
    have hs0 : scoreOf μ (fun _ => (1 : Matrix (Fin 2) (Fin 2) ℝ)) 1 0 0 0 = 0 := by
      unfold scoreOf
      rw [one_smul, inv_one, Matrix.one_mulVec]
      simp [hμ]
    have hs1 : scoreOf μ (fun _ => (1 : Matrix (Fin 2) (Fin 2) ℝ)) 1 0 1 0 = -1 := by
      unfold scoreOf
      rw [one_smul, inv_one, Matrix.one_mulVec]
      simp [hμ]
    simp only [Fin.sum_univ_two, hs0, hs1] at hb
    generalize joint (fun _ => ((2 : ℕ) : ℝ)⁻¹) μ (fun _ => 1) 1 0 0 = J0 at *
    generalize joint (fun _ => ((2 : ℕ) : ℝ)⁻¹) μ (fun _ => 1) 1 0 1 = J1 at *
    have hp0 : 0 < J0 := by linarith
    have hp1 : 0 < J1 := by linarith
    rcases div_eq_zero_iff.1 hb with hc | hc
    · nlinarith
    · nlinarith

/-- **C57 refuted.** In floating point the derivatives of the responsibilities are not numbers far away, for every
mixture, even with one cluster: `v * v` underflows. `round` is any rounding which gives 0 below `2^-1100`. -/
theorem C57_refuted_underflow (hm : IsMixture m w μ C h) (hd : 0 < d) (hn : 0 < n) (round : ℝ → ℝ)
    (hround : ∀ y, |y| ≤ 2⁻¹ ^ 1100 → round y = 0) : ∃ x, m.probasDerivativesF64 round x = none := by
  have hnp : (0 : ℝ) < n := by exact_mod_cast hn
  obtain ⟨x, hx⟩ := far_away hm hd (2⁻¹ ^ 550 / n) (by positivity)
  refine ⟨x, ?_⟩
  have hv : m.mixtureDensity x = ∑ k, joint w μ C h x k := by
    unfold Gmx.mixtureDensity
    refine Finset.sum_congr rfl fun k _ => ?_
    rw [(facts hm).weights, pdfs_eq hm]
    rfl
  have hpos : 0 ≤ m.mixtureDensity x := by
    rw [hv]
    exact Finset.sum_nonneg fun k _ => (joint_pos hm x k).le
  have hle : m.mixtureDensity x ≤ 2⁻¹ ^ 550 := by
    rw [hv]
    calc ∑ k, joint w μ C h x k ≤ ∑ _k : Fin n, (2⁻¹ : ℝ) ^ 550 / n := Finset.sum_le_sum fun k _ => (hx k).le
      _ = 2⁻¹ ^ 550 := by
        rw [Finset.sum_const, Finset.card_univ, Fintype.card_fin, nsmul_eq_mul]
        generalize (2⁻¹ : ℝ) ^ 550 = a
        field_simp
  unfold Gmx.probasDerivativesF64
  rw [if_pos]
  apply hround
  rw [abs_of_nonneg (mul_nonneg hpos hpos), show 1100 = 550 + 550 from rfl, pow_add]
  exact mul_le_mul hle hle hpos (by positivity)

/-! ## C83 -/

/-- **C83.** A mixture trained on its own clustering with a smooth recombination of given factor uses this factor:
responsibilities are made from covariances multiplied by it. -/
theorem C83_trained_partial (la : Gp.LinAlg) (w : Fin n → ℝ) (μ : Fin n → Fin d → ℝ)
    (C : Fin n → Matrix (Fin d) (Fin d) ℝ) (experts : Fin n → Expert d) (f : ℝ) (hf : 0 < f) (hw : ∀ k, 0 < w k)
    (hC : ∀ k, (C k).PosDef) :
    ∃ g, GpMixture.train la none (.smooth (some f)) w μ C experts = some g ∧
      g.recombination = .smooth (some f) ∧ ∀ x k, g.gmx.pdfs x k = density (μ k) (f • C k) x := by
  obtain ⟨m0, h0⟩ := C82_new_succeeds la w μ C hC
  refine ⟨⟨.smooth (some f), experts, m0.setFactor f⟩, ?_, rfl, ?_⟩
  · simp [GpMixture.train, GpMixture.trainGmx, h0, GpMixture.trainFactor]
  · intro x k
    exact pdfs_eq ⟨hw, hf, hC, la, m0, h0, rfl⟩ x k

/-- **C83.** `set_recombination` selects how the experts are combined, and without a factor the factor reported
is one. -/
theorem C83_set_recombination (g : GpMixture n d) (f : Option ℝ) (x : Fin d → ℝ) :
    (g.setRecombination .hard).predict x = g.predictHard x ∧
    (g.setRecombination .hard).predictVar x = g.predictVarHard x ∧
    (g.setRecombination (.smooth f)).predict x = .ok (g.predictSmooth x) ∧
    (g.setRecombination (.smooth f)).predictVar x = .ok (g.predictVarSmooth x) ∧
    (g.setRecombination (.smooth none)).recombination = .smooth (some 1) := by
  cases f <;> exact ⟨rfl, rfl, rfl, rfl, rfl⟩

/-- **C83 refuted.** `set_recombination` with another factor changes no prediction. -/
theorem C83_refuted_set_recombination (g : GpMixture n d) (f f' : ℝ) (x : Fin d → ℝ) :
    (g.setRecombination (.smooth (some f))).predict x = (g.setRecombination (.smooth (some f'))).predict x ∧
    (g.setRecombination (.smooth (some f))).predictVar x = (g.setRecombination (.smooth (some f'))).predictVar x ∧
    (g.setRecombination (.smooth (some f))).recombination = .smooth (some f) := ⟨rfl, rfl, rfl⟩

/-- **C83 refuted.** `set_gmx` keeps the recombination of the mixture but forgets its factor: densities are those
of factor one. -/
theorem C83_refuted_set_gmx (g : GpMixture n d) (la : Gp.LinAlg) (w : Fin n → ℝ) (μ : Fin n → Fin d → ℝ)
    (C : Fin n → Matrix (Fin d) (Fin d) ℝ) (hw : ∀ k, 0 < w k) (hC : ∀ k, (C k).PosDef) :
    ∃ g', g.setGmx la w μ C = some g' ∧ g'.recombination = g.recombination ∧
      ∀ x k, g'.gmx.pdfs x k = density (μ k) (C k) x := by
  obtain ⟨m0, h0⟩ := C82_new_succeeds la w μ C hC
  refine ⟨{ g with gmx := m0 }, by simp [GpMixture.setGmx, h0], rfl, ?_⟩
  intro x k
  have hm0 : m0 = m0.setFactor 1 := by
    unfold new at h0
    split_ifs at h0
    simp only [Option.some.injEq] at h0
    rw [← h0]
    rfl
  have := pdfs_eq (m := m0) (w := w) (h := 1) ⟨hw, one_pos, hC, la, m0, h0, hm0⟩ x k
  rwa [one_smul] at this

/-- **C83 refuted.** Training with a given mixture and a smooth recombination of factor `f` does not use `f`: the
densities are those of factor one while `recombination` reports `f`. -/
theorem C83_refuted_given (la : Gp.LinAlg) (w : Fin n → ℝ) (μ : Fin n → Fin d → ℝ)
    (C : Fin n → Matrix (Fin d) (Fin d) ℝ) (hw : ∀ k, 0 < w k) (hC : ∀ k, (C k).PosDef) (experts : Fin n → Expert d)
    (f : ℝ) (w' : Fin n → ℝ) (μ' : Fin n → Fin d → ℝ) (C' : Fin n → Matrix (Fin d) (Fin d) ℝ) :
    ∃ m0 g, new la w μ C = some m0 ∧
      GpMixture.train la (some m0) (.smooth (some f)) w' μ' C' experts = some g ∧
      g.recombination = .smooth (some f) ∧ ∀ x k, g.gmx.pdfs x k = density (μ k) (C k) x := by
  obtain ⟨m0, h0⟩ := C82_new_succeeds la w μ C hC
  refine ⟨m0, ⟨.smooth (some f), experts, m0⟩, h0, rfl, rfl, ?_⟩
  intro x k
  have hm0 : m0 = m0.setFactor 1 := by
    unfold new at h0
    split_ifs at h0
    simp only [Option.some.injEq] at h0
    rw [← h0]
    rfl
  have := pdfs_eq (m := m0) (w := w) (h := 1) ⟨hw, one_pos, hC, la, m0, h0, hm0⟩ x k
  rwa [one_smul] at this

/-- The factor matters: densities with factors 1 and 4 differ at the mean. -/
example : density (d := 1) 0 ((4 : ℝ) • 1) 0 ≠ density (d := 1) 0 ((1 : ℝ) • 1) 0 := by
  have h4 : ((4 : ℝ) • (1 : Matrix (Fin 1) (Fin 1) ℝ)).det = 4 := by simp
  have h1 : ((1 : ℝ) • (1 : Matrix (Fin 1) (Fin 1) ℝ)).det = 1 := by simp
  have hpi := Real.pi_pos
  unfold density
  rw [h4, h1]
  simp only [sub_zero, Matrix.mulVec_zero, dotProduct_zero, neg_zero, zero_div, Real.exp_zero, pow_one, mul_one]
  intro he
  have ha : 0 < √(2 * Real.pi * 4) := Real.sqrt_pos.2 (by positivity)
  have hb : 0 < √(2 * Real.pi) := Real.sqrt_pos.2 (by positivity)
  rw [div_eq_div_iff ha.ne' hb.ne', one_mul, one_mul, Real.sqrt_inj (by positivity) (by positivity)] at he
  linarith

end Verif.Props
