import Verif.Props.GpPsd
import Verif.Props.MixtureGrad
import Verif.Props.Criteria
import Mathlib.Analysis.Calculus.ContDiff.Deriv
import Mathlib.Analysis.Calculus.FDeriv.Extend
import Mathlib.Analysis.SpecialFunctions.ExpDeriv
import Mathlib.Topology.Order.IntermediateValue

/-!
# C136: predictions vary continuously
-/

set_option autoImplicit false

namespace Verif.Props

open Verif Matrix Spec Topology

/-! ## Kernels and means -/

section Gp

open Verif.Gp Verif.Kernels Verif.Means

variable {n d h : ℕ} {la : LinAlg} {kernel : Kernel} {mean : Mean} {nugget : ℝ} {theta : Fin h → ℝ}
  {w : Fin d → Fin h → ℝ} {x : Fin n → Fin d → ℝ} {y : Fin n → ℝ} {g : Model n d h}

/-- How many times predictions with a kernel can be differentiated: always, never, twice, four times. -/
noncomputable def smoothness : Kernel → WithTop ℕ∞
  | .squaredExponential => ((⊤ : ℕ∞) : WithTop ℕ∞)
  | .absoluteExponential => 0
  | .matern32 => 2
  | .matern52 => 4

theorem smoothness_le (k : Kernel) : smoothness k ≤ ((⊤ : ℕ∞) : WithTop ℕ∞) := by
  cases k
  · exact le_rfl
  · exact zero_le
  · exact WithTop.coe_le_coe.2 le_top
  · exact WithTop.coe_le_coe.2 le_top

/-- `(c₀ + c₁ |t| + c₂ t²) exp(-a |t|)`. -/
noncomputable def evenOne (a c₀ c₁ c₂ t : ℝ) : ℝ := (c₀ + c₁ * |t| + c₂ * t ^ 2) * Real.exp (-(a * |t|))

/-- `(c₀ t + c₁ t |t|) exp(-a |t|)`. -/
noncomputable def oddOne (a c₀ c₁ t : ℝ) : ℝ := (c₀ * t + c₁ * (t * |t|)) * Real.exp (-(a * |t|))

theorem sign_facts {s : ℝ} (hs : s ≠ 0) :
    ∃ σ : ℝ, HasDerivAt (fun t : ℝ => |t|) σ s ∧ σ * σ = 1 ∧ s = σ * |s| := by
  refine ⟨_, hasDerivAt_abs hs, ?_, (sign_mul_abs s).symm⟩
  rcases lt_or_gt_of_ne hs with h | h
  · simp [sign_neg h]
  · simp [sign_pos h]

theorem hasDerivAt_evenOne (a c₀ c₂ t : ℝ) :
    HasDerivAt (evenOne a c₀ (a * c₀) c₂) (oddOne a (2 * c₂ - a ^ 2 * c₀) (-a * c₂) t) t := by
  have key : ∀ s : ℝ, s ≠ 0 →
      HasDerivAt (evenOne a c₀ (a * c₀) c₂) (oddOne a (2 * c₂ - a ^ 2 * c₀) (-a * c₂) s) s := by
    intro s hs
    obtain ⟨σ, h1, h3, h4⟩ := sign_facts hs
    have h0 : HasDerivAt (fun s : ℝ => c₂ * s ^ 2) (c₂ * (2 * s)) s := by
      simpa using (hasDerivAt_pow 2 s).const_mul c₂
    have h2 := (((h1.const_mul (a * c₀)).const_add c₀).add h0).mul (h1.const_mul a).neg.exp
    refine h2.congr_deriv ?_
    unfold oddOne
    simp only [Pi.neg_apply, Pi.add_apply]
    generalize Real.exp (-(a * |s|)) = E
    generalize |s| = u at h4
    subst h4
    linear_combination (-a * c₂ * u ^ 2 * σ * E) * h3
  by_cases ht : t = 0
  · subst ht
    refine hasDerivAt_of_hasDerivAt_of_ne (g := oddOne a (2 * c₂ - a ^ 2 * c₀) (-a * c₂)) (fun s hs => key s hs) ?_ ?_
    · exact Continuous.continuousAt (by unfold evenOne; fun_prop)
    · exact Continuous.continuousAt (by unfold oddOne; fun_prop)
  · exact key t ht

theorem hasDerivAt_oddOne (a c₀ c₁ t : ℝ) :
    HasDerivAt (oddOne a c₀ c₁) (evenOne a c₀ (2 * c₁ - a * c₀) (-a * c₁) t) t := by
  have key : ∀ s : ℝ, s ≠ 0 → HasDerivAt (oddOne a c₀ c₁) (evenOne a c₀ (2 * c₁ - a * c₀) (-a * c₁) s) s := by
    intro s hs
    obtain ⟨σ, h1, h3, h4⟩ := sign_facts hs
    have h2 := (((hasDerivAt_id s).const_mul c₀).add (((hasDerivAt_id s).mul h1).const_mul c₁)).mul
      (h1.const_mul a).neg.exp
    refine h2.congr_deriv ?_
    unfold evenOne
    simp only [Pi.neg_apply, Pi.add_apply, Pi.mul_apply, id]
    generalize Real.exp (-(a * |s|)) = E
    generalize |s| = u at h4
    subst h4
    linear_combination ((c₁ - a * c₀) * u * E) * h3
  by_cases ht : t = 0
  · subst ht
    refine hasDerivAt_of_hasDerivAt_of_ne (g := evenOne a c₀ (2 * c₁ - a * c₀) (-a * c₁)) (fun s hs => key s hs) ?_ ?_
    · exact Continuous.continuousAt (by unfold oddOne; fun_prop)
    · exact Continuous.continuousAt (by unfold evenOne; fun_prop)
  · exact key t ht

theorem contDiff_step {N : ℕ} {f f' : ℝ → ℝ} (hd : ∀ t, HasDerivAt f (f' t) t) (hc : ContDiff ℝ N f') :
    ContDiff ℝ ((N + 1 : ℕ) : WithTop ℕ∞) f := by
  rw [Nat.cast_add, Nat.cast_one, contDiff_succ_iff_deriv]
  refine ⟨fun t => (hd t).differentiableAt, fun h => absurd h (by simp), ?_⟩
  rwa [show deriv f = f' from funext fun t => (hd t).deriv]

theorem contDiff_even0 (a c₀ c₁ c₂ : ℝ) : ContDiff ℝ ((0 : ℕ) : WithTop ℕ∞) (evenOne a c₀ c₁ c₂) := by
  rw [Nat.cast_zero, contDiff_zero]
  unfold evenOne
  fun_prop

theorem contDiff_odd1 (a c₀ c₁ : ℝ) : ContDiff ℝ ((1 : ℕ) : WithTop ℕ∞) (oddOne a c₀ c₁) :=
  contDiff_step (hasDerivAt_oddOne a c₀ c₁) (contDiff_even0 _ _ _ _)

theorem contDiff_m32One (a : ℝ) : ContDiff ℝ 2 (evenOne a 1 a 0) := by
  have := contDiff_step (hasDerivAt_evenOne a 1 0) (contDiff_odd1 _ _ _)
  simpa using this

theorem contDiff_m52One (a : ℝ) : ContDiff ℝ 4 (evenOne a 1 a (a ^ 2 / 3)) := by
  have h2 : ContDiff ℝ ((2 : ℕ) : WithTop ℕ∞) (evenOne a (-a ^ 2 / 3) (a * (-a ^ 2 / 3)) (a ^ 4 / 3)) :=
    contDiff_step (hasDerivAt_evenOne a _ _) (contDiff_odd1 _ _ _)
  have h3 : ContDiff ℝ ((3 : ℕ) : WithTop ℕ∞) (oddOne a (2 * (a ^ 2 / 3) - a ^ 2 * 1) (-a * (a ^ 2 / 3))) := by
    refine contDiff_step (hasDerivAt_oddOne a _ _) ?_
    have e : ∀ c₀ c₁ c₂ c₀' c₁' c₂' : ℝ, c₀ = c₀' → c₁ = c₁' → c₂ = c₂' →
        evenOne a c₀ c₁ c₂ = evenOne a c₀' c₁' c₂' := by
      rintro _ _ _ _ _ _ rfl rfl rfl; rfl
    rw [e _ _ _ (-a ^ 2 / 3) (a * (-a ^ 2 / 3)) (a ^ 4 / 3) (by ring) (by ring) (by ring)]
    exact h2
  have := contDiff_step (hasDerivAt_evenOne a 1 (a ^ 2 / 3)) h3
  simpa using this

theorem m32Value_prod (θ : Fin h → ℝ) (w : Fin d → Fin h → ℝ) (v : Fin d → ℝ) :
    m32Value θ w v = ∏ j, ∏ l, evenOne (√3 * thetaW θ w j l) 1 (√3 * thetaW θ w j l) 0 (v j) := by
  unfold m32Value m32A m32B evenOne
  simp only [zero_mul, add_zero, Finset.prod_mul_distrib, ← Real.exp_sum]
  congr 2
  rw [Finset.sum_comm, Finset.mul_sum]
  refine Finset.sum_congr rfl fun j _ => ?_
  rw [Finset.mul_sum]
  exact Finset.sum_congr rfl fun l _ => by ring

theorem m52Value_prod (θ : Fin h → ℝ) (w : Fin d → Fin h → ℝ) (v : Fin d → ℝ) :
    m52Value θ w v = ∏ j, ∏ l, evenOne (√5 * thetaW θ w j l) 1 (√5 * thetaW θ w j l) ((√5 * thetaW θ w j l) ^ 2 / 3) (v j) := by
  unfold m52Value m52A m52B evenOne
  simp only [Finset.prod_mul_distrib, ← Real.exp_sum]
  congr 1
  · refine Finset.prod_congr rfl fun j _ => Finset.prod_congr rfl fun l _ => ?_
    rw [mul_pow √5, Real.sq_sqrt (by norm_num)]
    ring
  · congr 1
    rw [Finset.sum_comm, Finset.mul_sum]
    refine Finset.sum_congr rfl fun j _ => ?_
    rw [Finset.mul_sum]
    exact Finset.sum_congr rfl fun l _ => by ring

theorem contDiff_kernel (k : Kernel) (θ : Fin h → ℝ) (w : Fin d → Fin h → ℝ) :
    ContDiff ℝ (smoothness k) (k.value θ w) := by
  have hp : ∀ {N : WithTop ℕ∞} (j : Fin d), ContDiff ℝ N fun v : Fin d → ℝ => v j := fun j => contDiff_apply ℝ ℝ j
  cases k
  · show ContDiff ℝ _ (seValue θ w)
    unfold seValue
    exact (contDiff_const.mul (ContDiff.sum fun j _ => ((hp j).pow 2).mul contDiff_const)).exp
  · show ContDiff ℝ 0 (absValue θ w)
    rw [contDiff_zero]
    unfold absValue
    fun_prop
  · show ContDiff ℝ 2 (m32Value θ w)
    rw [show m32Value θ w = fun v => ∏ j, ∏ l, evenOne (√3 * thetaW θ w j l) 1 (√3 * thetaW θ w j l) 0 (v j) from
      funext fun v => m32Value_prod θ w v]
    exact contDiff_prod fun j _ => contDiff_prod fun l _ => (contDiff_m32One _).comp (hp j)
  · show ContDiff ℝ 4 (m52Value θ w)
    rw [show m52Value θ w = fun v => ∏ j, ∏ l, evenOne (√5 * thetaW θ w j l) 1 (√5 * thetaW θ w j l) ((√5 * thetaW θ w j l) ^ 2 / 3) (v j) from
      funext fun v => m52Value_prod θ w v]
    exact contDiff_prod fun j _ => contDiff_prod fun l _ => (contDiff_m52One _).comp (hp j)

/-- A list of smooth functions. -/
def SmoothList (v : (Fin d → ℝ) → List ℝ) : Prop :=
  ∃ fs : List ((Fin d → ℝ) → ℝ), (∀ f ∈ fs, ContDiff ℝ ((⊤ : ℕ∞) : WithTop ℕ∞) f) ∧ ∀ x, v x = fs.map (· x)

theorem SmoothList.append {u v : (Fin d → ℝ) → List ℝ} (hu : SmoothList u) (hv : SmoothList v) :
    SmoothList fun x => u x ++ v x := by
  obtain ⟨fs, h1, h2⟩ := hu
  obtain ⟨gs, h3, h4⟩ := hv
  refine ⟨fs ++ gs, fun f hf => ?_, fun x => by simp [h2, h4]⟩
  rcases List.mem_append.1 hf with hf | hf
  · exact h1 f hf
  · exact h3 f hf

theorem SmoothList.getD {v : (Fin d → ℝ) → List ℝ} (hv : SmoothList v) (a : ℕ) :
    ContDiff ℝ ((⊤ : ℕ∞) : WithTop ℕ∞) fun x => (v x).getD a 0 := by
  obtain ⟨fs, h1, h2⟩ := hv
  simp only [h2]
  by_cases ha : a < fs.length
  · have e : (fun x : Fin d → ℝ => (fs.map (· x)).getD a 0) = fs[a] := by
      funext x
      simp [List.getD, ha]
    rw [e]
    exact h1 _ (List.getElem_mem ha)
  · have e : (fun x : Fin d → ℝ => (fs.map (· x)).getD a 0) = fun _ => 0 := by
      funext x
      simp [List.getD, ha]
    rw [e]
    exact contDiff_const

theorem smoothList_one : SmoothList fun _ : Fin d → ℝ => [1] :=
  ⟨[fun _ => 1], by simp [contDiff_const], fun _ => rfl⟩

theorem smoothList_id : SmoothList fun x : Fin d → ℝ => List.ofFn x := by
  refine ⟨List.ofFn fun j x => x j, ?_, fun x => ?_⟩
  · intro f hf
    obtain ⟨j, rfl⟩ := (List.mem_ofFn' _ _).1 hf
    exact contDiff_apply ℝ ℝ j
  · rw [List.map_ofFn]
    rfl

theorem smoothList_quadPart (k : Fin d) : SmoothList fun x : Fin d → ℝ => quadPart x k := by
  refine ⟨((List.finRange d).drop k).map fun c x => x c * x k, ?_, fun x => ?_⟩
  · intro f hf
    obtain ⟨c, _, rfl⟩ := List.mem_map.1 hf
    exact (contDiff_apply ℝ ℝ c).mul (contDiff_apply ℝ ℝ k)
  · rw [List.map_map]
    rfl

theorem smoothList_foldl (l : List (Fin d)) (v : (Fin d → ℝ) → List ℝ) (hv : SmoothList v) :
    SmoothList fun x => l.foldl (fun res k => res ++ quadPart x k) (v x) := by
  induction l generalizing v with
  | nil => exact hv
  | cons k t ih => exact ih _ (hv.append (smoothList_quadPart k))

theorem contDiff_mean (mean : Mean) (a : ℕ) :
    ContDiff ℝ ((⊤ : ℕ∞) : WithTop ℕ∞) fun x : Fin d → ℝ => (mean.value x).getD a 0 := by
  refine SmoothList.getD ?_ a
  cases mean
  · exact smoothList_one
  · exact smoothList_one.append smoothList_id
  · exact smoothList_foldl _ _ (smoothList_one.append smoothList_id)

theorem contDiff_xnorm (g : Model n d h) {N : WithTop ℕ∞} : ContDiff ℝ N g.xnorm :=
  contDiff_pi.2 fun j => ((contDiff_apply ℝ ℝ j).sub contDiff_const).div_const _

/-- **C136.** Predictions of a Gaussian process are smooth functions of the point, for every kernel and mean:
continuous with the absolute exponential kernel, twice continuously differentiable with Matern 3/2, four times with Matern
5/2, infinitely often with the squared exponential kernel. -/
theorem C136_predictions (g : Model n d h) : ContDiff ℝ (smoothness g.kernel) g.predict := by
  unfold Model.predict
  refine ((ContDiff.add (ContDiff.sum fun a _ => ?_) (ContDiff.sum fun i _ => ?_)).mul contDiff_const).add
    contDiff_const
  · exact (((contDiff_mean g.mean a).of_le (smoothness_le _)).comp (contDiff_xnorm g)).mul contDiff_const
  · exact ((contDiff_kernel g.kernel g.theta g.w).comp ((contDiff_xnorm g).sub contDiff_const)).mul contDiff_const

theorem contDiff_entry {N : WithTop ℕ∞} {p q r : ℕ} {A : (Fin d → ℝ) → Matrix (Fin p) (Fin q) ℝ}
    {B : (Fin d → ℝ) → Matrix (Fin q) (Fin r) ℝ} (hA : ∀ i j, ContDiff ℝ N fun x => A x i j)
    (hB : ∀ i j, ContDiff ℝ N fun x => B x i j) (i : Fin p) (j : Fin r) :
    ContDiff ℝ N fun x => (A x * B x) i j := by
  simp only [Matrix.mul_apply]
  exact ContDiff.sum fun l _ => (hA i l).mul (hB l j)

theorem contDiff_krigVar {N : WithTop ℕ∞} {p : ℕ} (R : Matrix (Fin n) (Fin n) ℝ) (F : Matrix (Fin n) (Fin p) ℝ)
    {r : (Fin d → ℝ) → Matrix (Fin n) (Fin 1) ℝ} {f : (Fin d → ℝ) → Matrix (Fin p) (Fin 1) ℝ}
    (hr : ∀ i j, ContDiff ℝ N fun x => r x i j) (hf : ∀ i j, ContDiff ℝ N fun x => f x i j) :
    ContDiff ℝ N fun x => krigVar R F (r x) (f x) := by
  have hc : ∀ {a b : ℕ} (M : Matrix (Fin a) (Fin b) ℝ) (i : Fin a) (j : Fin b), ContDiff ℝ N fun _ : Fin d → ℝ => M i j :=
    fun M i j => contDiff_const
  have h1 : ∀ i j, ContDiff ℝ N fun x => (f x - Fᵀ * R⁻¹ * r x) i j := fun i j =>
    (hf i j).sub (contDiff_entry (fun i j => hc (Fᵀ * R⁻¹) i j) hr i j)
  unfold krigVar
  refine (contDiff_const.sub ?_).add ?_
  · exact contDiff_entry (contDiff_entry (fun i j => hr j i) fun i j => hc R⁻¹ i j) hr 0 0
  · exact contDiff_entry (contDiff_entry (fun i j => h1 j i) fun i j => hc _ i j) h1 0 0

/-- **C136.** So are the variances of a fitted model. -/
theorem C136_variances (hg : fitWith la kernel mean nugget theta w x y = some g) (hθ : ∀ l, 0 ≤ theta l)
    (hn : 0 ≤ nugget) (la' : LinAlg) :
    ∃ v : (Fin d → ℝ) → ℝ, ContDiff ℝ (smoothness kernel) v ∧ ∀ x', g.predictVar la' x' = some (v x') := by
  refine ⟨_, ?_, fun x' => C91_variance hg hθ hn la' x'⟩
  refine contDiff_const.mul (contDiff_krigVar _ _ (fun i _ => ?_) fun a _ => ?_)
  · exact (contDiff_kernel kernel theta w).comp ((contDiff_xnorm g).sub contDiff_const)
  · exact ((contDiff_mean mean a).of_le (smoothness_le _)).comp (contDiff_xnorm g)

/-- Case: two training points. -/
example : ∃ g, fitWith Gp.exact .squaredExponential .constant 0 (fun _ : Fin 1 => 2) (fun (_ : Fin 1) (_ : Fin 1) => 1)
    (fun (i : Fin 2) (_ : Fin 1) => (i : ℝ)) (fun i => (i : ℝ)) = some g ∧ Continuous g.predict ∧
      ∃ v : (Fin 1 → ℝ) → ℝ, Continuous v ∧ ∀ x', g.predictVar Gp.exact x' = some (v x') := by
  obtain ⟨g, hg⟩ := fit_two_points 2 two_pos (fun i => (i : ℝ))
  obtain ⟨v, h1, h2⟩ := C136_variances hg (fun _ => zero_le_two) le_rfl Gp.exact
  exact ⟨g, hg, (C136_predictions g).continuous, v, h1.continuous, h2⟩

end Gp

/-! ## Mixtures of experts -/

section Mixture

open Verif.Mixture

variable {n d : ℕ} {m : Gmx n d} {w : Fin n → ℝ} {μ : Fin n → Fin d → ℝ} {C : Fin n → Matrix (Fin d) (Fin d) ℝ}
  {h : ℝ}

theorem continuous_joint (w : Fin n → ℝ) (μ : Fin n → Fin d → ℝ) (C : Fin n → Matrix (Fin d) (Fin d) ℝ) (h : ℝ)
    (k : Fin n) : Continuous fun x => joint w μ C h x k := by
  unfold joint density
  refine continuous_const.mul ((Real.continuous_exp.comp ?_).div_const _)
  simp only [dotProduct, mulVec, Pi.sub_apply]
  fun_prop

/-- The points where nothing is at the limit of a truncation: no weighted density is exactly `e^-307`, their sum (of those
which are larger) is not exactly the machine precision. -/
def NoThreshold (w : Fin n → ℝ) (μ : Fin n → Fin d → ℝ) (C : Fin n → Matrix (Fin d) (Fin d) ℝ) (h : ℝ)
    (x : Fin d → ℝ) : Prop :=
  (∀ k, joint w μ C h x k ≠ Real.exp (-307)) ∧
    (∑ k, if joint w μ C h x k ≤ Real.exp (-307) then 0 else joint w μ C h x k) ≠ Gmx.epsilon

/-- **C136.** Responsibilities are continuous at such points. -/
theorem C136_responsibilities_partial (hm : IsMixture m w μ C h) (x : Fin d → ℝ) (hx : n = 1 ∨ NoThreshold w μ C h x)
    (k : Fin n) : ContinuousAt (fun z => m.probas z k) x := by
  rcases hx with rfl | ⟨h1, h2⟩
  · simp only [Gmx.probas, if_true]
    exact continuousAt_const
  by_cases hn : n = 1
  · subst hn
    simp only [Gmx.probas, if_true]
    exact continuousAt_const
  have hS : ContinuousAt (fun z => m.probSum z) x := by
    have e : (fun z => m.probSum z) =
        fun z => ∑ k, if joint w μ C h z k ≤ Real.exp (-307) then 0 else joint w μ C h z k :=
      funext fun z => probSum_eq hm z
    rw [e]
    refine tendsto_finsetSum _ fun i _ => ?_
    have hc := (continuous_joint w μ C h i).continuousAt (x := x)
    rcases lt_or_gt_of_ne (h1 i) with hlt | hgt
    · rw [if_pos hlt.le]
      refine tendsto_const_nhds.congr' ?_
      filter_upwards [hc.eventually_lt_const hlt] with z hz
      rw [if_pos hz.le]
    · rw [if_neg (not_le.2 hgt)]
      refine hc.tendsto.congr' ?_
      filter_upwards [hc.eventually_const_lt hgt] with z hz
      rw [if_neg (not_le.2 hz)]
  rw [← probSum_eq hm] at h2
  have e : (fun z => m.probas z k) =
      fun z => joint w μ C h z k / if m.probSum z < Gmx.epsilon then 1 else m.probSum z :=
    funext fun z => probas_eq hm hn z k
  rw [e]
  refine (continuous_joint w μ C h k).continuousAt.div ?_ ?_
  · rcases lt_or_gt_of_ne h2 with hlt | hgt
    · refine (continuousAt_const (y := (1 : ℝ))).congr ?_
      filter_upwards [hS.eventually_lt_const hlt] with z hz
      rw [if_pos hz]
    · refine hS.congr ?_
      filter_upwards [hS.eventually_const_lt hgt] with z hz
      rw [if_neg (not_lt.2 hz.le)]
  · split_ifs with hlt
    · exact one_ne_zero
    · exact (lt_of_lt_of_le epsilon_pos (not_lt.1 hlt)).ne'

/-- **C136.** With smooth recombination, predictions and variances are continuous at such points when those of the experts
are. -/
theorem C136_smooth_partial (g : GpMixture n d) (hm : IsMixture g.gmx w μ C h) (x : Fin d → ℝ)
    (hx : n = 1 ∨ NoThreshold w μ C h x) (hp : ∀ k, ContinuousAt (g.experts k).predict x)
    (hv : ∀ k, ContinuousAt (g.experts k).predictVar x) :
    ContinuousAt g.predictSmooth x ∧ ContinuousAt g.predictVarSmooth x := by
  have hr := C136_responsibilities_partial hm x hx
  constructor
  · exact tendsto_finsetSum _ fun k _ => (hp k).mul (hr k)
  · exact tendsto_finsetSum _ fun k _ => ((hv k).mul (hr k)).mul (hr k)

theorem sum_probas_gap (hm : IsMixture m w μ C h) (hn : 2 ≤ n) (hn' : n ≤ 2 ^ 100) (x : Fin d → ℝ) :
    ∑ k, m.probas x k < 1 / 2 ∨ 1 ≤ ∑ k, m.probas x k := by
  rw [sum_probas hm (by omega)]
  have hlo := left_out hm x
  have hcb := count_bound hn'
  by_cases hlt : m.probSum x < Gmx.epsilon
  · left
    rw [if_pos hlt, div_one]
    have he : Gmx.epsilon ≤ 1 / 8 := by unfold Gmx.epsilon; norm_num
    have : (2⁻¹ : ℝ) ^ 200 ≤ 1 / 8 := by norm_num
    linarith
  · right
    rw [if_neg hlt, le_div_iff₀ (lt_of_lt_of_le epsilon_pos (not_lt.1 hlt)), one_mul]
    exact hlo.1

/-- **C136 refuted.** With smooth recombination and two clusters or more, predictions always jump somewhere, even when
all experts predict 1 everywhere, as soon as the density of the mixture is somewhere above twice the machine precision:
the responsibilities jump from (nearly) normalized to not normalized at all. -/
theorem C136_refuted_smooth (g : GpMixture n d) (hm : IsMixture g.gmx w μ C h) (hd : 0 < d) (hn : 2 ≤ n)
    (hn' : n ≤ 2 ^ 100) (hone : ∀ k x, (g.experts k).predict x = 1) (x₀ : Fin d → ℝ)
    (hx₀ : 2 * Gmx.epsilon ≤ ∑ k, joint w μ C h x₀ k) : ∃ x, ¬ ContinuousAt g.predictSmooth x := by
  by_contra hcon
  push Not at hcon
  have hS : g.predictSmooth = fun x => ∑ k, g.gmx.probas x k := by
    funext x
    simp [GpMixture.predictSmooth, hone]
  have hc : Continuous fun x => ∑ k, g.gmx.probas x k := by
    rw [← hS]
    exact continuous_iff_continuousAt.2 hcon
  obtain ⟨x₁, hx₁⟩ := C55_refuted_far hm hd hn (1 / 2) (by norm_num)
  obtain ⟨x, hx⟩ := mem_range_of_exists_le_of_exists_ge hc ⟨x₁, hx₁.le⟩
    ⟨x₀, le_trans (by norm_num) (C55_nearly_one hm hn' x₀ hx₀).1⟩
  have := sum_probas_gap hm hn hn' x
  simp only at hx
  rw [hx] at this
  rcases this with h | h <;> norm_num at h

/-- **C136.** With hard recombination, predictions and variances are continuous at points where a single cluster has the
largest weighted density. -/
theorem C136_hard_partial (g : GpMixture n d) (hm : IsMixture g.gmx w μ C h) (hr : g.recombination = .hard)
    (x : Fin d → ℝ) (k : Fin n) (hk : ∀ i, i ≠ k → joint w μ C h x i < joint w μ C h x k)
    (hp : ContinuousAt (g.experts k).predict x) (hv : ContinuousAt (g.experts k).predictVar x) :
    ∃ p v : (Fin d → ℝ) → ℝ, ContinuousAt p x ∧ ContinuousAt v x ∧ (∀ z, g.predict z = .ok (p z)) ∧
      ∀ z, g.predictVar z = .ok (v z) := by
  have hn : n ≠ 0 := by rintro rfl; exact k.elim0
  have hev : ∀ᶠ z in 𝓝 x, ∀ i, i ≠ k → joint w μ C h z i < joint w μ C h z k := by
    refine Filter.eventually_all.2 fun i => ?_
    by_cases hi : i = k
    · exact Filter.Eventually.of_forall fun z hz => absurd hi hz
    · filter_upwards [((continuous_joint w μ C h i).continuousAt (x := x)).eventually_lt
        (continuous_joint w μ C h k).continuousAt (hk i hi)] with z hz _
      exact hz
  choose c hc using fun z => C56_hard g hm hn hr z
  have hck : ∀ᶠ z in 𝓝 x, c z = k := by
    filter_upwards [hev] with z hz
    by_contra hne
    have := (hc z).1.1 k
    exact absurd (hz _ hne) (not_lt.2 this)
  refine ⟨fun z => (g.experts (c z)).predict z, fun z => (g.experts (c z)).predictVar z, ?_, ?_,
    fun z => (hc z).2.1, fun z => (hc z).2.2.1⟩
  · refine hp.congr ?_
    filter_upwards [hck] with z hz
    rw [hz]
  · refine hv.congr ?_
    filter_upwards [hck] with z hz
    rw [hz]

/-- An expert which predicts a constant. -/
def constExpert (d : ℕ) (c : ℝ) : Expert d := ⟨fun _ => c, fun _ => 0, fun _ _ => 0, fun _ _ => 0⟩

/-- Case: two unit clusters at 0 and 1, experts which predict 1. -/
example : ∃ g : GpMixture 2 1, (∀ k x, (g.experts k).predict x = 1) ∧ ∃ x, ¬ ContinuousAt g.predictSmooth x := by
  obtain ⟨m, hm⟩ := exists_unit (n := 2) (d := 1) (by decide) fun k _ => (k : ℕ)
  refine ⟨⟨.smooth none, fun _ => constExpert 1 1, m⟩, fun _ _ => rfl, ?_⟩
  refine C136_refuted_smooth _ hm one_pos le_rfl (by norm_num) (fun _ _ => rfl) (fun _ => 0) ?_
  have h1 : joint (fun _ : Fin 2 => ((2 : ℕ) : ℝ)⁻¹) (fun k (_ : Fin 1) => ((k : ℕ) : ℝ)) (fun _ => 1) 1 (fun _ => 0) 0
      = 2⁻¹ * (√(2 * Real.pi))⁻¹ := by
    simp [joint, density]
  have h2 : (√(2 * Real.pi))⁻¹ ≥ 1 / 3 := by
    rw [ge_iff_le, one_div]
    refine inv_anti₀ (by have := Real.pi_pos; positivity) ?_
    rw [show (3 : ℝ) = √9 by rw [show (9 : ℝ) = 3 ^ 2 by norm_num]; exact (Real.sqrt_sq (by norm_num)).symm]
    exact Real.sqrt_le_sqrt (by have := Real.pi_lt_four; linarith)
  have h3 := joint_pos hm (fun _ => 0) 1
  rw [Fin.sum_univ_two]
  have he : Gmx.epsilon ≤ 1 / 100 := by unfold Gmx.epsilon; norm_num
  rw [h1]
  linarith

end Mixture

/-! ## Criteria -/

section Criteria

open Verif.Criteria

variable {d : ℕ}

theorem eventually_ge_of_ne {v : Pt d → ℝ} {x : Pt d} (hv : ContinuousAt v x) (hx : v x ≠ eps) :
    (v x < eps ∧ ∀ᶠ z in 𝓝 x, v z < eps) ∨ (eps < v x ∧ ∀ᶠ z in 𝓝 x, eps ≤ v z) := by
  rcases lt_or_gt_of_ne hx with h | h
  · exact .inl ⟨h, hv.eventually_lt_const h⟩
  · exact .inr ⟨h, (hv.eventually_const_lt h).mono fun z hz => le_of_lt hz⟩

/-- A function which is zero where the variance is negligible, and positive and continuous elsewhere. -/
theorem continuousAt_cut_iff {v F : Pt d → ℝ} {x : Pt d} (hv : ContinuousAt v x)
    (hF : eps ≤ v x → ContinuousAt F x ∧ 0 < F x) :
    ContinuousAt (fun z => if v z < eps then 0 else F z) x ↔ v x ≠ eps ∨ ∀ᶠ z in 𝓝 x, eps ≤ v z := by
  constructor
  · intro hc
    by_contra hcon
    push Not at hcon
    obtain ⟨h1, h2⟩ := hcon
    have hx0 : ¬ v x < eps := by rw [h1]; exact lt_irrefl _
    have hpos := (hF h1.ge).2
    have hev : ∀ᶠ z in 𝓝 x, 0 < (fun z => if v z < eps then 0 else F z) z :=
      hc.eventually_const_lt (by simpa only [if_neg hx0] using hpos)
    refine h2 (hev.mono fun z hz hlt => ?_)
    simp only [if_pos hlt, lt_irrefl] at hz
  · intro hor
    have hor' : (v x < eps ∧ ∀ᶠ z in 𝓝 x, v z < eps) ∨ (eps ≤ v x ∧ ∀ᶠ z in 𝓝 x, eps ≤ v z) := by
      rcases hor with h | h
      · rcases eventually_ge_of_ne hv h with h' | h'
        · exact .inl h'
        · exact .inr ⟨h'.1.le, h'.2⟩
      · exact .inr ⟨h.self_of_nhds, h⟩
    rcases hor' with ⟨_, h⟩ | ⟨h0, h⟩
    · refine (continuousAt_const (y := (0 : ℝ))).congr ?_
      filter_upwards [h] with z hz
      rw [if_pos hz]
    · refine (hF h0).1.congr ?_
      filter_upwards [h] with z hz
      rw [if_neg (not_lt.2 hz)]

/-- **C136.** Where prediction and variance are continuous, the expected improvement is continuous except exactly at the
points where the variance is the machine precision and takes smaller values nearby: there it jumps from a positive value
to zero. -/
theorem C136_ei_iff_partial (s : Surrogate d) (m v : Pt d → ℝ) (hs : ∀ z, s.valvar z = some (m z, v z)) (fmin : ℝ)
    (k : Option ℝ) (hk : 0 < k.getD 1) (x : Pt d) (hm : ContinuousAt m x) (hv : ContinuousAt v x) :
    ContinuousAt (fun z => eiValue z s fmin k) x ↔ v x ≠ eps ∨ ∀ᶠ z in 𝓝 x, eps ≤ v z := by
  have e : (fun z => eiValue z s fmin k) = fun z => if v z < eps then 0 else
      k.getD 1 * √(v z) * Gauss.h ((fmin - m z) / (k.getD 1 * √(v z))) := by
    funext z
    simp only [eiValue, hs]
    rfl
  rw [e]
  refine continuousAt_cut_iff hv fun hx => ?_
  have h0 := sqrt_pos_of_eps hx
  have hsig : ContinuousAt (fun z => k.getD 1 * √(v z)) x := continuousAt_const.mul hv.sqrt
  constructor
  · refine hsig.mul (ContinuousAt.comp (f := fun z => (fmin - m z) / (k.getD 1 * √(v z)))
      (Gauss.hasDerivAt_h _).continuousAt ?_)
    exact (continuousAt_const.sub hm).div hsig (by positivity)
  · have := Gauss.h_pos ((fmin - m x) / (k.getD 1 * √(v x)))
    positivity

/-- **C136.** Same for the probability of feasibility. -/
theorem C136_pof_iff_partial (s : Surrogate d) (m v : Pt d → ℝ) (hs : ∀ z, s.valvar z = some (m z, v z)) (tol : ℝ)
    (x : Pt d) (hm : ContinuousAt m x) (hv : ContinuousAt v x) :
    ContinuousAt (fun z => pof z s tol) x ↔ v x ≠ eps ∨ ∀ᶠ z in 𝓝 x, eps ≤ v z := by
  have e : (fun z => pof z s tol) = fun z => if v z < eps then 0 else normCdf ((tol - m z) / √(v z)) := by
    funext z
    simp only [pof, hs]
    rfl
  rw [e]
  refine continuousAt_cut_iff hv fun hx => ?_
  have h0 := sqrt_pos_of_eps hx
  constructor
  · refine ContinuousAt.comp (f := fun z => (tol - m z) / √(v z)) (Gauss.hasDerivAt_normCdf _).continuousAt ?_
    exact (continuousAt_const.sub hm).div hv.sqrt h0.ne'
  · exact Gauss.normCdf_pos _

/-- **C136.** The logarithm of the expected improvement is continuous where the variance is not the machine precision,
except possibly where the computation switches to the asymptotic expansion. -/
theorem C136_log_ei_partial (s : Surrogate d) (m v : Pt d → ℝ) (hs : ∀ z, s.valvar z = some (m z, v z)) (fmin : ℝ)
    (x : Pt d) (hm : ContinuousAt m x) (hv : ContinuousAt v x) (hx : v x ≠ eps)
    (hu : eps < v x → (fmin - m x) / √(v x) ≠ -10 ^ 6) :
    ContinuousAt (fun z => logEiValue z s fmin) x := by
  have e : (fun z => logEiValue z s fmin) = fun z => if v z < eps then fmin64 else
      logEiHelper ((fmin - m z) / √(v z)) + Real.log √(v z) := by
    funext z
    simp only [logEiValue, hs]
    rfl
  rw [e]
  rcases eventually_ge_of_ne hv hx with ⟨_, h⟩ | ⟨h0, h⟩
  · refine (continuousAt_const (y := fmin64)).congr ?_
    filter_upwards [h] with z hz
    rw [if_pos hz]
  · have h1 := sqrt_pos_of_eps h0.le
    have hc : ContinuousAt (fun z => logEiHelper ((fmin - m z) / √(v z)) + Real.log √(v z)) x := by
      refine ContinuousAt.add (ContinuousAt.comp (f := fun z => (fmin - m z) / √(v z))
        (Gauss.hasDerivAt_logEiHelper (hu h0)).continuousAt ?_) (hv.sqrt.log h1.ne')
      exact (continuousAt_const.sub hm).div hv.sqrt h1.ne'
    refine hc.congr ?_
    filter_upwards [h] with z hz
    rw [if_neg (not_lt.2 hz)]

/-- **C136 refuted.** With continuous predictions, the expected improvement jumps somewhere as soon as the variance is
negligible at some point and not at another. -/
theorem C136_refuted_ei (s : Surrogate d) (m v : Pt d → ℝ) (hs : ∀ z, s.valvar z = some (m z, v z)) (fmin : ℝ)
    (k : Option ℝ) (hk : 0 < k.getD 1) (hm : Continuous m) (hv : Continuous v) (x₀ x₁ : Pt d) (h₀ : v x₀ < eps)
    (h₁ : eps ≤ v x₁) : ∃ x, ¬ ContinuousAt (fun z => eiValue z s fmin k) x := by
  by_contra hcon
  push Not at hcon
  have hall := fun x => (C136_ei_iff_partial s m v hs fmin k hk x hm.continuousAt hv.continuousAt).1 (hcon x)
  have hcl : IsClopen {z | eps ≤ v z} := by
    refine ⟨isClosed_le continuous_const hv, isOpen_iff_mem_nhds.2 fun z (hz : eps ≤ v z) => ?_⟩
    rcases hall z with h | h
    · exact (hv.continuousAt.eventually_const_lt (lt_of_le_of_ne hz (Ne.symm h))).mono fun y hy => le_of_lt hy
    · exact h
  have huniv := hcl.eq_univ ⟨x₁, h₁⟩
  have : x₀ ∈ {z | eps ≤ v z} := by rw [huniv]; trivial
  exact absurd h₀ (not_lt.2 this)

/-- Case: variance `x²`, the prediction is 0 everywhere. -/
example : ∃ s : Surrogate 1, ∃ x, ¬ ContinuousAt (fun z => eiValue z s 0 none) x := by
  refine ⟨⟨fun _ => some 0, fun _ => none, fun x => some (0, x 0 ^ 2), fun _ => none⟩, ?_⟩
  refine C136_refuted_ei _ (fun _ => 0) (fun x => x 0 ^ 2) (fun _ => rfl) 0 none (by norm_num) continuous_const
    (by fun_prop) (fun _ => 0) (fun _ => 1) ?_ ?_
  · have := eps_pos; simpa using this
  · simpa using eps_lt_one.le

end Criteria

end Verif.Props
