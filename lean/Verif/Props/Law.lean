import Verif.Model.Sample
import Verif.Spec.Law
import Verif.Props.GpPsd
import Verif.Props.GpEquiv
import Verif.Props.GpStrict
import Verif.Props.Criteria
import Verif.Props.Sparse
import Mathlib.Probability.Independence.InfinitePi
import Mathlib.Probability.Distributions.Gaussian.CharFun
import Mathlib.Probability.Distributions.Gaussian.Fernique

/-!
# C130: the law of sampled trajectories
-/

set_option autoImplicit false

namespace Verif.Props

open Matrix MeasureTheory ProbabilityTheory WithLp Gp Spec Kernels
open scoped RealInnerProductSpace

section Vectors

variable {Ω : Type} [MeasurableSpace Ω] {P : Measure Ω} {m t : ℕ}

theorem mul_transpose_psd (c : Matrix (Fin m) (Fin m) ℝ) : (c * cᵀ).PosSemidef := by
  have := Matrix.posSemidef_self_mul_conjTranspose c
  rwa [Matrix.conjTranspose_eq_transpose_of_trivial] at this

/-- A linear image of the standard Gaussian vector. -/
theorem map_stdGaussian (μ : Fin m → ℝ) (c : Matrix (Fin m) (Fin m) ℝ) :
    (stdGaussian (EuclideanSpace ℝ (Fin m))).map
      (fun x => toLp 2 μ + toEuclideanCLM (𝕜 := ℝ) c x) = multivariateGaussian (toLp 2 μ) (c * cᵀ) := by
  have h : (fun x => toLp 2 μ + x) ∘ (toEuclideanCLM (𝕜 := ℝ) c) =
    (fun x => toLp 2 μ + (toEuclideanCLM (𝕜 := ℝ) c) x) := rfl
  apply Measure.ext_of_charFun
  ext s
  rw [charFun_multivariateGaussian (mul_transpose_psd c)]
  rw [← h, ← Measure.map_map (measurable_const_add _) (by fun_prop), charFun_map_const_add]
  have e : charFun ((stdGaussian (EuclideanSpace ℝ (Fin m))).map (toEuclideanCLM (𝕜 := ℝ) c)) s =
      charFun (stdGaussian (EuclideanSpace ℝ (Fin m))) (toEuclideanCLM (𝕜 := ℝ) cᵀ s) := by
    rw [charFun_apply, charFun_apply, integral_map (by fun_prop) (by fun_prop)]
    congr 1
    funext x
    congr 3
    have : toEuclideanCLM (𝕜 := ℝ) cᵀ = (toEuclideanCLM (𝕜 := ℝ) c).adjoint := by
      rw [← Matrix.conjTranspose_eq_transpose_of_trivial, ← ContinuousLinearMap.star_eq_adjoint, ← map_star]
      rfl
    rw [this, ContinuousLinearMap.adjoint_inner_right]
  rw [e, charFun_stdGaussian, ← Complex.exp_add]
  congr 1
  have e2 : ‖toEuclideanCLM (𝕜 := ℝ) cᵀ s‖ ^ 2 = s ⬝ᵥ (c * cᵀ) *ᵥ s := by
    rw [← real_inner_self_eq_norm_sq]
    have h3 : ofLp (toEuclideanCLM (𝕜 := ℝ) cᵀ s) = cᵀ *ᵥ ofLp s := rfl
    rw [EuclideanSpace.inner_eq_star_dotProduct, h3, star_trivial, ← Matrix.mulVec_mulVec, Matrix.dotProduct_mulVec,
      ← Matrix.mulVec_transpose, Matrix.transpose_transpose, dotProduct_comm]
  rw [← Complex.ofReal_pow, e2, real_inner_comm]
  push_cast
  ring

theorem draws_col {Z : Ω → Matrix (Fin m) (Fin t) ℝ} (hZ : Draws P Z) (j : Fin t) :
    HasLaw (fun ω => toLp 2 fun i => Z ω i j) (stdGaussian (EuclideanSpace ℝ (Fin m))) P := by
  have h1 : iIndepFun (fun (i : Fin m) ω => Z ω i j) P :=
    hZ.indep.precomp (g := fun i : Fin m => (i, j)) fun a b h => (Prod.mk.inj h).1
  have hm : ∀ i, AEMeasurable (fun ω => Z ω i j) P := fun i => (hZ.law i j).aemeasurable
  have h2 := h1.map_fun_eq_pi_map hm
  simp only [(hZ.law _ j).map_eq] at h2
  have ham : AEMeasurable (fun ω (i : Fin m) => Z ω i j) P := aemeasurable_pi_lambda _ hm
  refine ⟨by fun_prop, ?_⟩
  rw [← map_pi_eq_stdGaussian, ← h2, AEMeasurable.map_map_of_aemeasurable (by fun_prop) ham]
  rfl

theorem draws_cols_indep {Z : Ω → Matrix (Fin m) (Fin t) ℝ} (hZ : Draws P Z) :
    iIndepFun (fun (j : Fin t) ω (i : Fin m) => Z ω i j) P := by
  have hm : ∀ i j, AEMeasurable (fun ω => Z ω i j) P := fun i j => (hZ.law i j).aemeasurable
  have hP := hZ.indep.isProbabilityMeasure
  have h1 : iIndepFun (fun (p : Fin t × Fin m) ω => Z ω p.2 p.1) P :=
    hZ.indep.precomp (g := fun p : Fin t × Fin m => (p.2, p.1)) fun a b h => by
      obtain ⟨h1, h2⟩ := Prod.mk.inj h
      exact Prod.ext h2 h1
  have h2 := h1.hasLaw_infinitePi (μ := fun _ => gaussianReal 0 1) (fun p : Fin t × Fin m => hZ.law p.2 p.1)
    (aemeasurable_pi_lambda _ fun p : Fin t × Fin m => hm p.2 p.1)
  have h3 : HasLaw (fun ω (j : Fin t) (i : Fin m) => Z ω i j)
      (Measure.infinitePi fun _ : Fin t => Measure.infinitePi fun _ : Fin m => gaussianReal 0 1) P := by
    refine ⟨aemeasurable_pi_lambda _ fun j => aemeasurable_pi_lambda _ fun i => hm i j, ?_⟩
    rw [← Measure.infinitePi_map_curry (fun (_ : Fin t) (_ : Fin m) => gaussianReal 0 1), ← h2.map_eq,
      AEMeasurable.map_map_of_aemeasurable (by fun_prop) h2.aemeasurable]
    rfl
  refine (iIndepFun_iff_hasLaw_Pi_infinitePi
    (μ := fun _ : Fin t => Measure.infinitePi fun _ : Fin m => gaussianReal 0 1) (fun j => ?_) h3.aemeasurable).2 h3
  have h4 : iIndepFun (fun (i : Fin m) ω => Z ω i j) P :=
    hZ.indep.precomp (g := fun i : Fin m => (i, j)) fun a b h => (Prod.mk.inj h).1
  exact h4.hasLaw_infinitePi (fun i => hZ.law i j) (aemeasurable_pi_lambda _ fun i => hm i j)

theorem sample_law {Z : Ω → Matrix (Fin m) (Fin t) ℝ} (hZ : Draws P Z) (μ : Fin m → ℝ)
    (c : Matrix (Fin m) (Fin m) ℝ) : GaussianColumns P (fun ω => sample μ c (Z ω)) μ (c * cᵀ) := by
  have hcol : ∀ ω j, (toLp 2 fun i => sample μ c (Z ω) i j) = toLp 2 μ +
      toEuclideanCLM (𝕜 := ℝ) c (toLp 2 fun i => Z ω i j) := by
    intro ω j
    ext i
    rfl
  constructor
  · intro j
    have h := draws_col hZ j
    have ham := h.aemeasurable
    simp only [hcol]
    refine ⟨by fun_prop, ?_⟩
    rw [← map_stdGaussian, ← h.map_eq, AEMeasurable.map_map_of_aemeasurable (by fun_prop) ham]
    rfl
  · have h := (draws_cols_indep hZ).comp (fun _ z i => μ i + ∑ l, c i l * z l) fun j => by fun_prop
    exact h

/-- Values at one point. -/
theorem columns_marginal {S : Ω → Matrix (Fin m) (Fin t) ℝ} {μ : Fin m → ℝ} {C : Matrix (Fin m) (Fin m) ℝ}
    (hS : GaussianColumns P S μ C) (hC : C.PosSemidef) (i : Fin m) (j : Fin t) :
    HasLaw (fun ω => S ω i j) (gaussianReal (μ i) (C i i).toNNReal) P := by
  have h := hS.law j
  have h2 := measurePreserving_eval_multivariateGaussian (μ := toLp 2 μ) hC (i := i)
  have ham := h.aemeasurable
  refine ⟨(h2.measurable.comp_aemeasurable ham : _), ?_⟩
  rw [← h2.map_eq, ← h.map_eq, AEMeasurable.map_map_of_aemeasurable h2.measurable.aemeasurable ham]
  rfl

end Vectors

section Process

variable {n d h : ℕ} {la : LinAlg} {kernel : Kernels.Kernel} {mean : Means.Mean} {nugget : ℝ} {theta : Fin h → ℝ}
  {w : Fin d → Fin h → ℝ} {x : Fin n → Fin d → ℝ} {y : Fin n → ℝ} {g : Gp.Model n d h}
variable {Ω : Type} [MeasurableSpace Ω] {P : Measure Ω} {m t : ℕ}

theorem trajectories_chol {la' : LinAlg} {eg : Eigen} {xs : Fin m → Fin d → ℝ} {C : Matrix (Fin m) (Fin m) ℝ}
    (hC : g.covariance la' xs = some C) (z : Matrix (Fin m) (Fin t) ℝ) :
    g.trajectories la' eg .cholesky xs z = (la'.chol C).map fun c => sample (fun a => g.predict (xs a)) c z := by
  simp only [Model.trajectories, hC, factor, factorChol]
  show (la'.chol C >>= fun c => some (sample (fun a => g.predict (xs a)) c z)) = _
  cases la'.chol C <;> rfl

theorem trajectories_eig {la' : LinAlg} {eg : Eigen} {xs : Fin m → Fin d → ℝ} {C : Matrix (Fin m) (Fin m) ℝ}
    (hC : g.covariance la' xs = some C) (z : Matrix (Fin m) (Fin t) ℝ) :
    g.trajectories la' eg .eigenvalues xs z =
      some (sample (fun a => g.predict (xs a)) (factorEig (eg.eigh C).1 (eg.eigh C).2) z) := by
  simp only [Model.trajectories, hC, factor]
  rfl

/-- Trajectories drawn with the Cholesky method are independent Gaussian vectors, their mean is the prediction and
their covariance the predicted covariance. In particular at each point a trajectory is normal with the predicted value
as mean and the predicted variance as variance. The method succeeds when the covariance is positive definite. -/
theorem C130_cholesky (hg : fitWith la kernel mean nugget theta w x y = some g) (hθ : ∀ l, 0 ≤ theta l)
    (hn : 0 ≤ nugget) (la' : LinAlg) (eg : Eigen) (xs : Fin m → Fin d → ℝ) (Z : Ω → Matrix (Fin m) (Fin t) ℝ)
    (hZ : Draws P Z) :
    ∃ C, g.covariance la' xs = some C ∧ (C.PosDef → ∀ z : Matrix (Fin m) (Fin t) ℝ,
        ∃ S, g.trajectories la' eg .cholesky xs z = some S) ∧
      ∀ S, (∀ ω, g.trajectories la' eg .cholesky xs (Z ω) = some (S ω)) →
        GaussianColumns P S (fun a => g.predict (xs a)) C ∧
        ∀ a v, g.predictVar la' (xs a) = some v → 0 ≤ v ∧
          ∀ j, HasLaw (fun ω => S ω a j) (gaussianReal (g.predict (xs a)) v.toNNReal) P := by
  obtain ⟨C, h1, h2, h3⟩ := C91_covariance hg hθ hn la' xs
  have hsymm : Cᵀ = C := by
    have := h2.isHermitian.eq
    rwa [Matrix.conjTranspose_eq_transpose_of_trivial] at this
  refine ⟨C, h1, fun hpd z => ?_, fun S hS => ?_⟩
  · obtain ⟨c, hc⟩ := la'.chol_total C hpd
    exact ⟨_, by rw [trajectories_chol h1, hc]; rfl⟩
  · simp only [trajectories_chol h1] at hS
    have hP := hZ.indep.isProbabilityMeasure
    obtain ⟨ω0⟩ : Nonempty Ω := nonempty_of_isProbabilityMeasure P
    cases hc : la'.chol C with
    | none => simpa [hc] using hS ω0
    | some c =>
      simp only [hc, Option.map_some, Option.some.injEq] at hS
      obtain rfl : (fun ω => sample (fun a => g.predict (xs a)) c (Z ω)) = S := funext hS
      have hcc := (la'.chol_spec _ _ hsymm hc).1
      have h4 := sample_law hZ (fun a => g.predict (xs a)) c
      rw [hcc] at h4
      refine ⟨h4, fun a v hv => ?_⟩
      rw [h3 a, Option.some.injEq] at hv
      subst hv
      exact ⟨h2.diag_nonneg, fun j => columns_marginal h4 h2 a j⟩

/-- Trajectories drawn with the default method are independent Gaussian vectors, for all points; their mean is the
prediction and their covariance is the predicted one up to `1e-9`: it is smaller, and the difference of the variances
of any combination `q` of values is at most `1e-9 |q|²`. It is exact if no eigenvalue of the covariance is between
zero and `1e-9`. -/
theorem C130_default_partial (hg : fitWith la kernel mean nugget theta w x y = some g) (hθ : ∀ l, 0 ≤ theta l)
    (hn : 0 ≤ nugget) (la' : LinAlg) (eg : Eigen) (xs : Fin m → Fin d → ℝ) (Z : Ω → Matrix (Fin m) (Fin t) ℝ)
    (hZ : Draws P Z) :
    ∃ C C' S, g.covariance la' xs = some C ∧ (∀ ω, g.sampled la' eg xs (Z ω) = some (S ω)) ∧
      GaussianColumns P S (fun a => g.predict (xs a)) C' ∧ C'.PosSemidef ∧
      (∀ q : Fin m → ℝ, q ⬝ᵥ C *ᵥ q - 1e-9 * (q ⬝ᵥ q) ≤ q ⬝ᵥ C' *ᵥ q ∧ q ⬝ᵥ C' *ᵥ q ≤ q ⬝ᵥ C *ᵥ q) ∧
      ((∀ (e : ℝ) (q : Fin m → ℝ), q ≠ 0 → C *ᵥ q = e • q → e = 0 ∨ 1e-9 ≤ e) → C' = C) ∧
      ∀ a v, g.predictVar la' (xs a) = some v → ∃ v', v - 1e-9 ≤ v' ∧ v' ≤ v ∧ 0 ≤ v' ∧
        ∀ j, HasLaw (fun ω => S ω a j) (gaussianReal (g.predict (xs a)) v'.toNNReal) P := by
  obtain ⟨C, h1, h2, h3⟩ := C91_covariance hg hθ hn la' xs
  have hsymm : Cᵀ = C := by
    have := h2.isHermitian.eq
    rwa [Matrix.conjTranspose_eq_transpose_of_trivial] at this
  set v := (eg.eigh C).1 with hvdef
  set q := (eg.eigh C).2 with hqdef
  have horth : qᵀ * q = 1 := eg.orthogonal C hsymm
  have hspec : q * Matrix.diagonal v * qᵀ = C := eg.spec C hsymm
  set c := factorEig v q with hc
  have h4 := sample_law hZ (fun a => g.predict (xs a)) c
  have hb : ∀ z : Fin m → ℝ, z ⬝ᵥ C *ᵥ z - 1e-9 * (z ⬝ᵥ z) ≤ z ⬝ᵥ (c * cᵀ) *ᵥ z ∧
      z ⬝ᵥ (c * cᵀ) *ᵥ z ≤ z ⬝ᵥ C *ᵥ z := by
    intro z
    have := C91_trajectories hg hθ hn la' xs q v horth C h1 hspec z
    simp only [Matrix.sub_mulVec, dotProduct_sub] at this
    constructor <;> linarith [this.1, this.2]
  refine ⟨C, c * cᵀ, fun ω => sample (fun a => g.predict (xs a)) c (Z ω), h1, fun ω => ?_, h4, mul_transpose_psd c, hb,
    fun hev => ?_, fun a v' hv' => ?_⟩
  · rw [Model.sampled, trajectories_eig h1]
  · have hvev : ∀ i, v i = 0 ∨ 1e-9 ≤ v i := by
      intro i
      refine hev (v i) (fun a => q a i) ?_ ?_
      · intro h0
        have := congrFun (congrFun horth i) i
        rw [Matrix.mul_apply] at this
        simp only [Matrix.transpose_apply, Matrix.one_apply_eq] at this
        have h5 : ∀ a, q a i = 0 := fun a => congrFun h0 a
        simp [h5] at this
      · have h5 : C * q = q * Matrix.diagonal v := by
          rw [← hspec, Matrix.mul_assoc, horth, Matrix.mul_one]
        funext a
        have := congrFun (congrFun h5 a) i
        rw [Matrix.mul_apply, Matrix.mul_diagonal] at this
        simp only [Matrix.mulVec, dotProduct, Pi.smul_apply, smul_eq_mul]
        rw [this, mul_comm]
    have h6 : ∀ i, (if v i < 1e-9 then 0 else √(v i)) * (if v i < 1e-9 then 0 else √(v i)) = v i := by
      intro i
      rcases hvev i with h | h
      · rw [if_pos (by rw [h]; norm_num), h, mul_zero]
      · rw [if_neg (not_lt.2 h), Real.mul_self_sqrt (le_trans (by norm_num) h)]
    rw [hc, factorEig, Matrix.transpose_mul, Matrix.diagonal_transpose, Matrix.mul_assoc q,
      ← Matrix.mul_assoc (Matrix.diagonal _) (Matrix.diagonal _), Matrix.diagonal_mul_diagonal, ← Matrix.mul_assoc]
    simp only [h6]
    exact hspec
  · rw [h3 a, Option.some.injEq] at hv'
    subst hv'
    have := hb (Pi.single a 1)
    simp only [Matrix.mulVec_single, MulOpposite.op_one, one_smul, single_one_dotProduct, Matrix.col_apply,
      Pi.single_eq_same, mul_one] at this
    exact ⟨(c * cᵀ) a a, this.1, this.2, (mul_transpose_psd c).diag_nonneg,
      fun j => columns_marginal h4 (mul_transpose_psd c) a j⟩

/-- Without nugget all the trajectories go through the training data, with both methods. -/
theorem C130_interpolation (hg : fitWith la kernel mean 0 theta w x y = some g) (hθ : ∀ l, 0 ≤ theta l)
    (la' : LinAlg) (eg : Eigen) (method : SamplingMethod) (xs : Fin m → Fin d → ℝ) (Z : Ω → Matrix (Fin m) (Fin t) ℝ)
    (hZ : Draws P Z) (S : Ω → Matrix (Fin m) (Fin t) ℝ)
    (hS : ∀ ω, g.trajectories la' eg method xs (Z ω) = some (S ω)) (a : Fin m) (i : Fin n) (ha : xs a = x i)
    (j : Fin t) : ∀ᵐ ω ∂P, S ω a j = y i := by
  have hp : g.predict (xs a) = y i := by rw [ha, C45_interpolation hg]
  have hv : g.predictVar la' (xs a) = some 0 := by rw [ha, C45_variance_at_data hg]
  have key : HasLaw (fun ω => S ω a j) (gaussianReal (y i) 0) P := by
    cases method with
    | cholesky =>
      obtain ⟨C, _, _, h3⟩ := C130_cholesky hg hθ le_rfl la' eg xs Z hZ
      have := ((h3 S hS).2 a 0 hv).2 j
      rwa [hp, Real.toNNReal_zero] at this
    | eigenvalues =>
      obtain ⟨C, C', S', _, h2, _, _, _, _, h7⟩ := C130_default_partial hg hθ le_rfl la' eg xs Z hZ
      obtain rfl : S = S' := by
        funext ω
        have := (hS ω).symm.trans (h2 ω)
        exact Option.some.inj this
      obtain ⟨v', _, h8, h9, h10⟩ := h7 a 0 hv
      obtain rfl : v' = 0 := le_antisymm h8 h9
      have := h10 j
      rwa [hp, Real.toNNReal_zero] at this
  have h := key.map_eq
  rw [gaussianReal_zero_var] at h
  have h2 : ∀ᵐ r ∂(P.map fun ω => S ω a j), r = y i := by
    rw [h]
    exact (ae_dirac_iff (p := fun r => r = y i) (measurableSet_singleton (y i))).2 rfl
  exact ae_of_ae_map key.aemeasurable h2

/-- The threshold of the default method is absolute: if the predicted variances sum up to less than `1e-9`, all the
trajectories are the prediction, whatever the draws. -/
theorem C130_degenerate (hg : fitWith la kernel mean nugget theta w x y = some g) (hθ : ∀ l, 0 ≤ theta l)
    (hn : 0 ≤ nugget) (la' : LinAlg) (eg : Eigen) (xs : Fin m → Fin d → ℝ) (v : Fin m → ℝ)
    (hv : ∀ a, g.predictVar la' (xs a) = some (v a)) (hsum : ∑ a, v a < 1e-9) (z : Matrix (Fin m) (Fin t) ℝ) :
    g.sampled la' eg xs z = some (Matrix.of fun a _ => g.predict (xs a)) := by
  obtain ⟨C, h1, h2, h3⟩ := C91_covariance hg hθ hn la' xs
  have hsymm : Cᵀ = C := by
    have := h2.isHermitian.eq
    rwa [Matrix.conjTranspose_eq_transpose_of_trivial] at this
  rw [Model.sampled, trajectories_eig h1]
  set e := (eg.eigh C).1 with hedef
  set q := (eg.eigh C).2 with hqdef
  have horth : qᵀ * q = 1 := eg.orthogonal C hsymm
  have hspec : q * Matrix.diagonal e * qᵀ = C := eg.spec C hsymm
  have hdiag : Matrix.diagonal e = qᵀ * C * q := by
    rw [← hspec, Matrix.mul_assoc, Matrix.mul_assoc, horth, Matrix.mul_one, ← Matrix.mul_assoc, horth, Matrix.one_mul]
  have hpos : ∀ i, 0 ≤ e i := by
    intro i
    have h4 := h2.conjTranspose_mul_mul_same q
    rw [Matrix.conjTranspose_eq_transpose_of_trivial, ← hdiag] at h4
    have := h4.diag_nonneg (i := i)
    simpa using this
  have htr : ∑ i, e i = ∑ a, v a := by
    have h4 : (Matrix.diagonal e).trace = C.trace := by
      rw [hdiag, Matrix.trace_mul_comm, ← Matrix.mul_assoc, mul_eq_one_comm.1 horth, Matrix.one_mul]
    rw [Matrix.trace_diagonal] at h4
    rw [h4, Matrix.trace]
    refine Finset.sum_congr rfl fun a _ => ?_
    have := (h3 a).symm.trans (hv a)
    exact Option.some.inj this
  have hlt : ∀ i, e i < 1e-9 := fun i =>
    lt_of_le_of_lt (Finset.single_le_sum (f := e) (fun j _ => hpos j) (Finset.mem_univ i)) (by rwa [htr])
  have h0 : factorEig e q = 0 := by
    rw [factorEig]
    simp only [hlt, if_true]
    have : (Matrix.diagonal fun _ : Fin m => (0 : ℝ)) = 0 := Matrix.diagonal_zero
    rw [this, Matrix.mul_zero]
  rw [h0, sample, Matrix.zero_mul, add_zero]

/-- C130 fails for the default method, for any training data and points at which some variance is predicted: in small
enough units of the outputs, the trajectories do not vary though the predicted variance is positive. -/
theorem C130_refuted_units (hg : fitWith la kernel mean nugget theta w x y = some g) (hθ : ∀ l, 0 ≤ theta l)
    (hn : 0 ≤ nugget) (la' : LinAlg) (xs : Fin m → Fin d → ℝ) (a : Fin m)
    (ha : ∃ v, g.predictVar la' (xs a) = some v ∧ 0 < v) :
    ∃ s > 0, ∃ g', fitWith la kernel mean nugget theta w x (fun i => s * y i) = some g' ∧
      (∃ v, g'.predictVar la' (xs a) = some v ∧ 0 < v) ∧
      ∀ (eg : Eigen) (t : ℕ) (z : Matrix (Fin m) (Fin t) ℝ),
        g'.sampled la' eg xs z = some (Matrix.of fun b _ => g'.predict (xs b)) := by
  obtain ⟨C, h1, h2, h3⟩ := C91_covariance hg hθ hn la' xs
  obtain ⟨va, hva, hva0⟩ := ha
  have hC0 : ∀ b, 0 ≤ C b b := fun b => h2.diag_nonneg
  set T := ∑ b, C b b with hT
  have hT0 : 0 ≤ T := Finset.sum_nonneg fun b _ => hC0 b
  set s : ℝ := 1 / (100000 * (1 + T)) with hs
  have hspos : 0 < s := by positivity
  obtain ⟨g', hg'⟩ := C104_success hg (fun i => s * y i)
  have hu := fun b => (C104_units (la := la) (g := g') s 0 hg (by simpa using hg') la' la' (xs b)).2
  refine ⟨s, hspos, g', hg', ⟨s ^ 2 * va, by rw [hu a, hva]; rfl, by positivity⟩, fun eg t z => ?_⟩
  refine C130_degenerate hg' hθ hn la' eg xs (fun b => s ^ 2 * C b b) (fun b => ?_) ?_ z
  · rw [hu b, h3 b]; rfl
  · rw [← Finset.mul_sum, ← hT]
    have h5 : s * (1 + T) = 1 / 100000 := by rw [hs]; field_simp
    have h6 : s ≤ 1 / 100000 := by nlinarith
    nlinarith [mul_nonneg hspos.le hT0]

/-- The expected improvement is the mean over the trajectories (Cholesky method) of the improvement. -/
theorem C130_expected_improvement (hg : fitWith la kernel mean nugget theta w x y = some g) (hθ : ∀ l, 0 ≤ theta l)
    (hn : 0 ≤ nugget) (la' : LinAlg) (eg : Eigen) (xs : Fin m → Fin d → ℝ) (Z : Ω → Matrix (Fin m) (Fin t) ℝ)
    (hZ : Draws P Z) (S : Ω → Matrix (Fin m) (Fin t) ℝ)
    (hS : ∀ ω, g.trajectories la' eg .cholesky xs (Z ω) = some (S ω)) (a : Fin m) (j : Fin t)
    (s : Criteria.Surrogate d) (v fmin : ℝ) (hv : g.predictVar la' (xs a) = some v)
    (hs : s.valvar (xs a) = some (g.predict (xs a), v)) (heps : 2⁻¹ ^ 52 ≤ v) :
    Criteria.eiValue (xs a) s fmin none = ∫ ω, max (fmin - S ω a j) 0 ∂P := by
  obtain ⟨C, _, _, h3⟩ := C130_cholesky hg hθ hn la' eg xs Z hZ
  obtain ⟨h0, h4⟩ := (h3 S hS).2 a v hv
  have h5 := h4 j
  rw [C36_is_expectation (xs a) s fmin (g.predict (xs a)) v none hs heps (by norm_num) v.toNNReal
    (by rw [Real.coe_toNNReal _ h0]; simp), expectedImprovement, ← h5.map_eq]
  rw [integral_map h5.aemeasurable (by fun_prop)]

/-! ### When the Cholesky method succeeds -/

theorem covariance_closed (hg : fitWith la kernel mean nugget theta w x y = some g) (la' : LinAlg)
    (xs : Fin m → Fin d → ℝ) :
    let R := corrMatrix kernel theta w nugget (xnData x)
    let F := meanMat mean (xnData x)
    let r : Matrix (Fin n) (Fin m) ℝ := Matrix.of fun i a => kernel.value theta w (xnPoint x (xs a) - xnData x i)
    let f : Matrix (Fin (basis mean d)) (Fin m) ℝ := Matrix.of fun l a => (mean.value (xnPoint x (xs a))).getD l 0
    let K : Matrix (Fin m) (Fin m) ℝ := Matrix.of fun a b =>
      kernel.value theta w (xnPoint x (xs a) - xnPoint x (xs b))
    g.covariance la' xs = some (g.inner.sigma2 •
      (K - rᵀ * R⁻¹ * r + (f - Fᵀ * R⁻¹ * r)ᵀ * (Fᵀ * R⁻¹ * F)⁻¹ * (f - Fᵀ * R⁻¹ * r))) := by
  intro R F r f K
  obtain ⟨C, h1, _, _, h4⟩ := C78_covariance hg la' xs
  have ok := fitWith_ok hg
  have hx : g.xtData = xnData x := by
    funext i j
    rw [ok.xdata, ok.xmean, ok.xstdOf, xnData]
  have hp : ∀ x', g.xnorm x' = xnPoint x x' := by
    intro x'
    funext j
    rw [Model.xnorm, ok.xmean, ok.xstdOf, xnPoint]
  simp only [hx, hp] at h4
  rw [h1]
  congr 1
  funext a b
  have h5 : ∀ c : Fin m, (Matrix.of fun i (_ : Fin 1) => (f - Fᵀ * R⁻¹ * r) i c) =
      (Matrix.of fun (l : Fin (basis mean d)) (_ : Fin 1) => (mean.value (xnPoint x (xs c))).getD l 0) - Fᵀ * R⁻¹ *
        Matrix.of fun i (_ : Fin 1) => kernel.value theta w (xnPoint x (xs c) - xnData x i) := by
    intro c
    funext i k
    rw [Matrix.of_apply, Matrix.sub_apply, Matrix.sub_apply, Matrix.mul_apply, Matrix.mul_apply (N := Matrix.of _)]
    rfl
  rw [h4 a b, Matrix.smul_apply, Matrix.add_apply, Matrix.sub_apply, entry_quad, entry_quad, smul_eq_mul, krigCov, h5,
    h5]
  rfl

/-- The simple kriging part of the covariance is definite at points apart from each other, and from the training inputs
when there is no nugget. -/
theorem schur_pd (k : Kernels.Kernel) (θ : Fin h → ℝ) (hθ : ∀ l, 0 ≤ θ l) (w : Fin d → Fin h → ℝ) (nugget : ℝ)
    (hn : 0 ≤ nugget) (x : Fin n → Fin d → ℝ) (xs : Fin m → Fin d → ℝ) (hR : (corrMatrix k θ w nugget x).PosDef)
    (h1 : ∀ a b, a ≠ b → Apart θ w (xs a) (xs b))
    (h2 : nugget = 0 → (∀ i j, i ≠ j → Apart θ w (x i) (x j)) ∧ ∀ a i, Apart θ w (xs a) (x i)) :
    ((Matrix.of fun a b => k.value θ w (xs a - xs b) : Matrix (Fin m) (Fin m) ℝ) -
      (Matrix.of fun i a => k.value θ w (xs a - x i) : Matrix (Fin n) (Fin m) ℝ)ᵀ * (corrMatrix k θ w nugget x)⁻¹ *
        (Matrix.of fun i a => k.value θ w (xs a - x i) : Matrix (Fin n) (Fin m) ℝ)).PosDef := by
  have hinv : Invertible (corrMatrix k θ w nugget x) := hR.isUnit.invertible
  have hjoint : (Matrix.fromBlocks (corrMatrix k θ w nugget x) (Matrix.of fun i a => k.value θ w (xs a - x i))
        (Matrix.of fun i a => k.value θ w (xs a - x i) : Matrix (Fin n) (Fin m) ℝ)ᴴ
        (Matrix.of fun a b => k.value θ w (xs a - xs b))).PosDef := by
    rw [← joint_blocks]
    by_cases h0 : nugget = 0
    · obtain ⟨h3, h4⟩ := h2 h0
      subst h0
      have e : Matrix.fromBlocks ((0 : ℝ) • (1 : Matrix (Fin n) (Fin n) ℝ)) 0 0 (0 : Matrix (Fin m) (Fin m) ℝ) = 0 := by
        rw [zero_smul, Matrix.fromBlocks_zero]
      rw [e, add_zero, posDef_kernel_iff k θ hθ]
      rintro (i | a) (j | b) hij
      · exact h3 i j fun e => hij (by rw [e])
      · obtain ⟨c, l, h5, h6, h7⟩ := h4 b i
        exact ⟨c, l, h5, h6, fun e => h7 e.symm⟩
      · exact h4 a j
      · exact h1 a b fun e => hij (by rw [e])
    · have hpos : 0 < nugget := lt_of_le_of_ne hn (Ne.symm h0)
      set z : Fin n ⊕ Fin m → Fin d → ℝ := Sum.elim x xs with hz
      have hpsd := psd_kernel k θ hθ w z
      have hpdm : (Matrix.of fun a b => k.value θ w (xs a - xs b) : Matrix (Fin m) (Fin m) ℝ).PosDef :=
        (posDef_kernel_iff k θ hθ w xs).2 h1
      refine Matrix.PosDef.of_dotProduct_mulVec_pos (hpsd.isHermitian.add ?_) fun v hv => ?_
      · rw [Matrix.IsHermitian, Matrix.fromBlocks_conjTranspose]
        simp
      · rw [Matrix.add_mulVec, dotProduct_add, star_trivial]
        have hq : v ⬝ᵥ (Matrix.fromBlocks (nugget • (1 : Matrix (Fin n) (Fin n) ℝ)) 0 0
            (0 : Matrix (Fin m) (Fin m) ℝ)) *ᵥ v = nugget * ∑ i, v (Sum.inl i) ^ 2 := by
          rw [Matrix.fromBlocks_mulVec]
          simp only [dotProduct, Fintype.sum_sum_type, Sum.elim_inl, Sum.elim_inr, Matrix.zero_mulVec, add_zero,
            Pi.zero_apply, mul_zero, Finset.sum_const_zero, Matrix.smul_mulVec, Matrix.one_mulVec, Pi.smul_apply,
            Function.comp_apply, smul_eq_mul, Finset.mul_sum]
          exact Finset.sum_congr rfl fun i _ => by ring
        rw [hq]
        have hge := hpsd.dotProduct_mulVec_nonneg v
        rw [star_trivial] at hge
        by_cases hv1 : ∀ i, v (Sum.inl i) = 0
        · have hv2 : (fun a => v (Sum.inr a)) ≠ 0 := by
            intro e
            refine hv (funext fun o => ?_)
            cases o with
            | inl i => exact hv1 i
            | inr a => exact congrFun e a
          have := hpdm.dotProduct_mulVec_pos hv2
          rw [star_trivial] at this
          have e : v ⬝ᵥ (Matrix.of fun i j => k.value θ w (z i - z j) : Matrix _ _ ℝ) *ᵥ v =
              (fun a => v (Sum.inr a)) ⬝ᵥ (Matrix.of fun a b => k.value θ w (xs a - xs b) : Matrix (Fin m) (Fin m) ℝ) *ᵥ
                (fun a => v (Sum.inr a)) := by
            simp [dotProduct, Matrix.mulVec, Fintype.sum_sum_type, hv1, hz]
          rw [e]
          have : 0 ≤ nugget * ∑ i, v (Sum.inl i) ^ 2 := mul_nonneg hn (Finset.sum_nonneg fun i _ => sq_nonneg _)
          linarith
        · push Not at hv1
          obtain ⟨i, hi⟩ := hv1
          have : 0 < ∑ i, v (Sum.inl i) ^ 2 :=
            Finset.sum_pos' (fun i _ => sq_nonneg _) ⟨i, Finset.mem_univ _, by positivity⟩
          have := mul_pos hpos this
          linarith
  rw [← Matrix.conjTranspose_eq_transpose_of_trivial]
  refine ((Matrix.PosDef.fromBlocks₁₁ _ _ hR).1 hjoint.posSemidef).posDef_iff_det_ne_zero.2 fun hdet => ?_
  have h5 := hjoint.posSemidef.posDef_iff_det_ne_zero.1 hjoint
  rw [Matrix.det_fromBlocks₁₁, Matrix.invOf_eq_nonsing_inv, hdet, mul_zero] at h5
  exact h5 rfl

/-- When each variable counts, the Cholesky method succeeds if and only if the outputs are not those of a trend, the
points are distinct and, without nugget, none of them is a training input; it panics otherwise. -/
theorem C130_cholesky_iff (hg : fitWith la kernel mean nugget theta w x y = some g) (hθ : ∀ l, 0 ≤ theta l)
    (hn : 0 ≤ nugget) (hw : ∀ a, ∃ l, theta l ≠ 0 ∧ w a l ≠ 0) (la' : LinAlg) (eg : Eigen) (hm : 0 < m)
    (xs : Fin m → Fin d → ℝ) (z : Matrix (Fin m) (Fin t) ℝ) :
    (∃ S, g.trajectories la' eg .cholesky xs z = some S) ↔
      (¬ ∃ t, IsTrend mean t ∧ ∀ i, y i = t (x i)) ∧ Function.Injective xs ∧ (nugget = 0 → ∀ a i, xs a ≠ x i) := by
  obtain ⟨C, h1, h2, h3⟩ := C91_covariance hg hθ hn la' xs
  have hsymm : Cᵀ = C := by
    have := h2.isHermitian.eq
    rwa [Matrix.conjTranspose_eq_transpose_of_trivial] at this
  have hapart : ∀ u v : Fin d → ℝ, u ≠ v → Apart theta w u v := by
    intro u v huv
    obtain ⟨a, ha⟩ : ∃ a, u a ≠ v a := by
      by_contra hc
      push Not at hc
      exact huv (funext hc)
    obtain ⟨l, h5, h6⟩ := hw a
    exact ⟨a, l, h5, h6, ha⟩
  constructor
  · rintro ⟨S, hS⟩
    rw [trajectories_chol h1] at hS
    have hpd : C.PosDef := by
      cases hc : la'.chol C with
      | none => simp [hc] at hS
      | some c =>
        obtain ⟨h4, h5, h6⟩ := la'.chol_spec _ _ hsymm hc
        refine h2.posDef_iff_det_ne_zero.2 ?_
        rw [← h4, Matrix.det_mul, Matrix.det_transpose, Matrix.det_of_isLowerTriangular c fun i j hij => h5 i j hij]
        have : (∏ i, c i i) ≠ 0 := Finset.prod_ne_zero_iff.2 fun i _ => (h6 i).ne'
        exact mul_ne_zero this this
    have hdiag : ∀ a, g.predictVar la' (xs a) ≠ some 0 := by
      intro a e
      rw [h3 a, Option.some.injEq] at e
      exact hpd.diag_pos.ne' e
    refine ⟨fun ht => ?_, fun a b hab => ?_, fun h0 a i e => ?_⟩
    · exact hdiag ⟨0, hm⟩ ((C119_zero_iff hg hθ hn hw la' _).2 (Or.inl ht))
    · by_contra hne
      obtain ⟨C', h1', _, _, h4'⟩ := C78_covariance hg la' xs
      obtain rfl : C = C' := Option.some.inj (h1.symm.trans h1')
      have h5 : ∀ c, C a c = C b c := fun c => by rw [h4', h4', hab]
      have h6 := hpd.dotProduct_mulVec_pos (x := Pi.single a 1 - Pi.single b 1) (by
        intro e
        have := congrFun e a
        simp [hne] at this)
      rw [star_trivial, sub_dotProduct, single_one_dotProduct, single_one_dotProduct] at h6
      have h7 : (C *ᵥ (Pi.single a 1 - Pi.single b 1)) a = (C *ᵥ (Pi.single a 1 - Pi.single b 1)) b := by
        simp only [Matrix.mulVec, dotProduct, h5]
      rw [h7, sub_self] at h6
      exact lt_irrefl _ h6
    · exact hdiag a ((C119_zero_iff hg hθ hn hw la' _).2 (Or.inr ⟨h0, i, e⟩))
  · rintro ⟨ht, hinj, hx⟩
    obtain ⟨hR, hRu, hB, hsig⟩ := fit_matrices hg
    have hs : 0 < g.inner.sigma2 := lt_of_le_of_ne (fit_sigma2_nonneg hg) fun e => ht ((C107_trend hg).2.1 e.symm)
    have h4 := covariance_closed hg la' xs
    simp only [] at h4
    have hpd : C.PosDef := by
      have hCe := Option.some.inj (h1.symm.trans h4)
      rw [hCe]
      refine Matrix.PosDef.smul (Matrix.PosDef.add_posSemidef ?_ ?_) hs
      · refine schur_pd kernel theta hθ w nugget hn (xnData x) (fun a => xnPoint x (xs a)) hR
          (fun a b hab => apart_norm.2 (hapart _ _ fun e => hab (hinj e))) fun h0 => ⟨?_, fun a i => ?_⟩
        · intro i j hij
          subst h0
          have := (corrMatrix_zero_iff hθ).1 hR i j hij
          rw [← xnPoint_data, ← xnPoint_data, apart_norm]
          exact this
        · rw [← xnPoint_data, apart_norm]
          exact hapart _ _ (hx h0 a i)
      · have hBp : ((meanMat mean (xnData x))ᵀ * (corrMatrix kernel theta w nugget (xnData x))⁻¹ *
            meanMat mean (xnData x)).PosSemidef := by
          have := hR.posSemidef.inv.conjTranspose_mul_mul_same (meanMat mean (xnData x))
          rwa [Matrix.conjTranspose_eq_transpose_of_trivial] at this
        rw [← Matrix.conjTranspose_eq_transpose_of_trivial]
        exact hBp.inv.conjTranspose_mul_mul_same _
    obtain ⟨c, hc⟩ := la'.chol_total C hpd
    exact ⟨_, by rw [trajectories_chol h1, hc]; rfl⟩

end Process

section SparseProcess

variable {n k d h : ℕ} {la : LinAlg} {kernel : Kernels.Kernel} {s noise nugget : ℝ} {θ : Fin h → ℝ}
  {w : Fin d → Fin h → ℝ} {x : Fin n → Fin d → ℝ} {y : Fin n → ℝ} {z : Fin k → Fin d → ℝ}
  {method : Sparse.Method} {g : Sparse.Model n k d h}
variable {Ω : Type} [MeasurableSpace Ω] {P : Measure Ω} {m t : ℕ}

/-- C93: trajectories of a sparse process drawn with the Cholesky method follow the Gaussian law with the predictions
as means and the covariance of the prior: at each point the variance is `s` whatever the data. -/
theorem C93_law_partial (hg : Sparse.fitWith la method kernel θ s noise w x y z nugget = some g) (hθ : ∀ l, 0 ≤ θ l)
    (hs : 0 ≤ s) (la' : LinAlg) (eg : Eigen) (xs : Fin m → Fin d → ℝ) (Z : Ω → Matrix (Fin m) (Fin t) ℝ)
    (hZ : Draws P Z) (S : Ω → Matrix (Fin m) (Fin t) ℝ)
    (hS : ∀ ω, g.trajectories la' eg .cholesky xs (Z ω) = some (S ω)) :
    GaussianColumns P S (fun a => g.predict (xs a)) (crossCov kernel θ w s xs xs) ∧
      ∀ a j, HasLaw (fun ω => S ω a j) (gaussianReal (g.predict (xs a)) s.toNNReal) P := by
  obtain ⟨h1, h2, h3⟩ := C93_prior_covariance_partial hg hθ hs xs
  have hsymm : (g.sampleCovariance xs)ᵀ = g.sampleCovariance xs := by
    have := h2.isHermitian.eq
    rwa [Matrix.conjTranspose_eq_transpose_of_trivial] at this
  have hP := hZ.indep.isProbabilityMeasure
  obtain ⟨ω0⟩ : Nonempty Ω := nonempty_of_isProbabilityMeasure P
  simp only [Sparse.Model.trajectories, factor, factorChol] at hS
  cases hc : la'.chol (g.sampleCovariance xs) with
  | none => simpa [hc] using hS ω0
  | some c =>
    simp only [hc, Option.map_some, Option.some.injEq] at hS
    obtain rfl : (fun ω => sample (fun a => g.predict (xs a)) c (Z ω)) = S := funext hS
    have hcc := (la'.chol_spec _ _ hsymm hc).1
    have h4 := sample_law hZ (fun a => g.predict (xs a)) c
    rw [hcc] at h4
    refine ⟨h1 ▸ h4, fun a j => ?_⟩
    have := columns_marginal h4 h2 a j
    rwa [h3 a] at this

/-- C93: the law of the trajectories of a VFE model is at no point the predicted one (noise excluded). -/
theorem C93_refuted_law (hg : Sparse.fitWith la .vfe kernel θ s noise w x y z nugget = some g) (hθ : ∀ l, 0 ≤ θ l)
    (hs : 1e-15 < s) (hk : 0 < k) (la' : LinAlg) (eg : Eigen) (xs : Fin m → Fin d → ℝ)
    (Z : Ω → Matrix (Fin m) (Fin t) ℝ) (hZ : Draws P Z) (S : Ω → Matrix (Fin m) (Fin t) ℝ)
    (hS : ∀ ω, g.trajectories la' eg .cholesky xs (Z ω) = some (S ω)) (a : Fin m) (j : Fin t) :
    ¬ HasLaw (fun ω => S ω a j) (gaussianReal (g.predict (xs a)) (g.predictVar (xs a) - noise).toNNReal) P := by
  intro hlaw
  have hs0 : 0 < s := lt_trans (by norm_num) hs
  have h1 := (C93_law_partial hg hθ hs0.le la' eg xs Z hZ S hS).2 a j
  have h2 := h1.map_eq.symm.trans hlaw.map_eq
  have h3 := congrArg (fun μ => Var[id; μ]) h2
  simp only [variance_id_gaussianReal] at h3
  have h4 := C93_refuted_vfe hg hθ hs hk xs a
  rw [(C93_prior_covariance_partial hg hθ hs0.le xs).2.2 a] at h4
  rw [Real.coe_toNNReal _ hs0.le] at h3
  have h5 := Real.coe_toNNReal' (g.predictVar (xs a) - noise)
  rw [← h3] at h5
  rcases max_cases (g.predictVar (xs a) - noise) 0 with h | h <;> rw [h.1] at h5 <;> linarith

end SparseProcess

/-! ### The contracts and hypotheses can be met -/

/-- Eigenvalues of real symmetric matrices exist. -/
noncomputable def exactEigen : Eigen where
  eigh {m} C := if hC : Cᵀ = C then
      have h : C.IsHermitian := by rw [Matrix.IsHermitian, Matrix.conjTranspose_eq_transpose_of_trivial]; exact hC
      (h.eigenvalues, (h.eigenvectorUnitary : Matrix (Fin m) (Fin m) ℝ))
    else (0, 0)
  orthogonal {m} C hC := by
    have h : C.IsHermitian := by rw [Matrix.IsHermitian, Matrix.conjTranspose_eq_transpose_of_trivial]; exact hC
    rw [dif_pos hC]
    have := (Matrix.mem_unitaryGroup_iff' (A := (h.eigenvectorUnitary : Matrix (Fin m) (Fin m) ℝ))).1
      h.eigenvectorUnitary.2
    rwa [Matrix.star_eq_conjTranspose, Matrix.conjTranspose_eq_transpose_of_trivial] at this
  spec {m} C hC := by
    have h : C.IsHermitian := by rw [Matrix.IsHermitian, Matrix.conjTranspose_eq_transpose_of_trivial]; exact hC
    rw [dif_pos hC]
    have := h.spectral_theorem
    rw [Unitary.conjStarAlgAut_apply] at this
    refine Eq.trans ?_ this.symm
    have e : ((star h.eigenvectorUnitary : Matrix.unitaryGroup (Fin m) ℝ) : Matrix (Fin m) (Fin m) ℝ) =
        (h.eigenvectorUnitary : Matrix (Fin m) (Fin m) ℝ)ᵀ := by
      rw [Unitary.coe_star, Matrix.star_eq_conjTranspose, Matrix.conjTranspose_eq_transpose_of_trivial]
    exact congrArg (fun A => (h.eigenvectorUnitary : Matrix (Fin m) (Fin m) ℝ) * Matrix.diagonal h.eigenvalues * A) e.symm

/-- Independent standard normal draws exist. -/
theorem draws_exist (m t : ℕ) : Draws (Measure.pi fun _ : Fin m × Fin t => gaussianReal 0 1)
    (fun ω => Matrix.of fun i j => ω (i, j)) where
  law i j := by
    refine ⟨(measurable_pi_apply (i, j)).aemeasurable, ?_⟩
    have := (measurePreserving_eval (fun _ : Fin m × Fin t => gaussianReal 0 1) (i, j)).map_eq
    exact this
  indep := by
    have := iIndepFun_pi (μ := fun _ : Fin m × Fin t => gaussianReal 0 1) (X := fun _ r => r) fun _ => by fun_prop
    exact this

/-- Two points in dimension one: seven trajectories at three points, with the default method. -/
example : ∃ g, fitWith Gp.exact .squaredExponential .constant 0 (fun _ : Fin 1 => 2) (fun (_ : Fin 1) (_ : Fin 1) => 1)
    (fun (i : Fin 2) (_ : Fin 1) => (i : ℝ)) (fun i => (i : ℝ)) = some g ∧ ∃ C' S,
      (∀ ω, g.sampled Gp.exact exactEigen (fun (i : Fin 3) _ => (i : ℝ))
        (Matrix.of fun (i : Fin 3) (j : Fin 7) => ω (i, j)) = some (S ω)) ∧
      GaussianColumns (Measure.pi fun _ : Fin 3 × Fin 7 => gaussianReal 0 1) S (fun a => g.predict fun _ => (a : ℝ)) C' := by
  obtain ⟨g, hg⟩ := fit_two_points 2 two_pos (fun i => (i : ℝ))
  obtain ⟨C, C', S, _, h2, h3, _⟩ := C130_default_partial hg (fun _ => zero_le_two) le_rfl Gp.exact exactEigen
    (fun (i : Fin 3) _ => (i : ℝ)) _ (draws_exist 3 7)
  exact ⟨g, hg, C', S, h2, h3⟩

/-- Three points on a line without nugget, any kernel: the Cholesky method can be used at distinct points other than
the training inputs, and in small enough units the default method draws constant trajectories. -/
example (kernel : Kernel) (eg : Eigen) : ∃ g, fitWith Gp.exact kernel .constant 0 (fun _ : Fin 1 => 2)
    (fun (_ : Fin 1) (_ : Fin 1) => 1) (fun (i : Fin 3) (_ : Fin 1) => (i.val : ℝ)) (fun i => (i.val : ℝ) ^ 2) = some g ∧
    (∀ z : Matrix (Fin 2) (Fin 7) ℝ, ∃ S, g.trajectories Gp.exact eg .cholesky (fun a _ => a.val + 1 / 2) z = some S) ∧
    (∀ z : Matrix (Fin 2) (Fin 7) ℝ, ¬ ∃ S, g.trajectories Gp.exact eg .cholesky (fun a _ => a.val) z = some S) ∧
    ∃ v, g.predictVar Gp.exact (fun _ => 1 / 2) = some v ∧ 0 < v := by
  have hw : ∀ a : Fin 1, ∃ l, (fun _ : Fin 1 => (2 : ℝ)) l ≠ 0 ∧ (fun (_ : Fin 1) (_ : Fin 1) => (1 : ℝ)) a l ≠ 0 :=
    fun _ => ⟨0, by norm_num, by norm_num⟩
  obtain ⟨g, hg, _⟩ := C118_distinct kernel (fun _ => by norm_num) hw
    (x := fun (i : Fin 3) (_ : Fin 1) => (i.val : ℝ))
    (fun i j hij => Fin.ext (Nat.cast_injective (R := ℝ) (congrFun hij 0))) (fun i => (i.val : ℝ) ^ 2) (by norm_num)
  have ht : ¬ ∃ t, IsTrend .constant t ∧ ∀ i : Fin 3, ((i.val : ℝ)) ^ 2 = t fun _ : Fin 1 => (i.val : ℝ) := by
    rintro ⟨t, ⟨c, hc⟩, hy⟩
    have h0 := hy 0
    have h1 := hy 1
    rw [hc] at h0 h1
    simp at h0 h1
    linarith
  have hne : ∀ (a : ℕ) (i : Fin 3), (a : ℝ) + 1 / 2 ≠ (i.val : ℝ) := by
    intro a i e
    have : 2 * (a : ℝ) + 1 = 2 * (i.val : ℝ) := by linarith
    have : 2 * a + 1 = 2 * i.val := by exact_mod_cast this
    omega
  refine ⟨g, hg, fun z => ?_, fun z => ?_, ?_⟩
  · refine (C130_cholesky_iff hg (fun _ => by norm_num) le_rfl hw Gp.exact eg (by norm_num) _ z).2
      ⟨ht, fun a b hab => ?_, fun _ a i e => hne a.val i (congrFun e 0)⟩
    have := congrFun hab 0
    simp only [add_left_inj, Nat.cast_inj] at this
    exact Fin.ext this
  · rw [C130_cholesky_iff hg (fun _ => by norm_num) le_rfl hw Gp.exact eg (by norm_num) _ z]
    rintro ⟨_, _, h⟩
    exact h rfl 0 0 (by simp)
  · refine C119_positive hg (fun _ => by norm_num) le_rfl ht Gp.exact _ (Or.inr fun i => ⟨0, 0, by norm_num, by norm_num, ?_⟩)
    have := hne 0 i
    simpa using this

/-- With those seven trajectories the hypotheses on the draws are met: each one is Gaussian at the two points. -/
example (kernel : Kernel) : ∃ g, fitWith Gp.exact kernel .constant 0 (fun _ : Fin 1 => 2)
    (fun (_ : Fin 1) (_ : Fin 1) => 1) (fun (i : Fin 3) (_ : Fin 1) => (i.val : ℝ)) (fun i => (i.val : ℝ) ^ 2) = some g ∧
    ∀ S : (Fin 4 × Fin 7 → ℝ) → Matrix (Fin 4) (Fin 7) ℝ,
      (∀ ω, g.trajectories Gp.exact exactEigen .eigenvalues (fun (a : Fin 4) _ => (a.val : ℝ))
        (Matrix.of fun (i : Fin 4) (j : Fin 7) => ω (i, j)) = some (S ω)) →
      ∀ᵐ ω ∂(Measure.pi fun _ : Fin 4 × Fin 7 => gaussianReal 0 1), S ω 2 5 = 4 := by
  have hw : ∀ a : Fin 1, ∃ l, (fun _ : Fin 1 => (2 : ℝ)) l ≠ 0 ∧ (fun (_ : Fin 1) (_ : Fin 1) => (1 : ℝ)) a l ≠ 0 :=
    fun _ => ⟨0, by norm_num, by norm_num⟩
  obtain ⟨g, hg, _⟩ := C118_distinct kernel (fun _ => by norm_num) hw
    (x := fun (i : Fin 3) (_ : Fin 1) => (i.val : ℝ))
    (fun i j hij => Fin.ext (Nat.cast_injective (R := ℝ) (congrFun hij 0))) (fun i => (i.val : ℝ) ^ 2) (by norm_num)
  refine ⟨g, hg, fun S hS => ?_⟩
  have := C130_interpolation hg (fun _ => by norm_num) Gp.exact exactEigen .eigenvalues _ _ (draws_exist 4 7) S hS 2 2
    (by funext; rfl) 5
  filter_upwards [this] with ω h
  rw [h]; norm_num

end Verif.Props
