import Verif.Props.GpFar
import Mathlib.Algebra.MvPolynomial.Funext

/-!
# C117: training inputs for which a Gaussian process can be trained
-/

set_option autoImplicit false

namespace Verif.Props

open Matrix Kernels Means GpUtils Spec Gp

variable {n d h p : ℕ} {la : LinAlg} {kernel : Kernel} {mean : Mean} {nugget : ℝ} {theta : Fin h → ℝ}
  {w : Fin d → Fin h → ℝ} {x : Fin n → Fin d → ℝ} {y : Fin n → ℝ} {g : Model n d h}

/-- Exponents of the basis functions of a mean model. -/
noncomputable def exps : Mean → (d : ℕ) → List (Fin d →₀ ℕ)
  | .constant, _ => [0]
  | .linear, _ => 0 :: List.ofFn fun j => Finsupp.single j 1
  | .quadratic, d => (0 :: List.ofFn fun j => Finsupp.single j 1) ++
      (List.finRange d).flatMap fun i => ((List.finRange d).filter fun j => i ≤ j).map fun j =>
        Finsupp.single i 1 + Finsupp.single j 1

theorem monos_exps (mean : Mean) (d : ℕ) :
    monos mean d = (exps mean d).map fun e u => MvPolynomial.eval u (MvPolynomial.monomial e (1 : ℝ)) := by
  have h1 : (fun u : Fin d → ℝ => MvPolynomial.eval u (MvPolynomial.monomial 0 (1 : ℝ))) = fun _ => 1 := by
    funext u; simp
  have h2 : ∀ j : Fin d, (fun u : Fin d → ℝ => MvPolynomial.eval u (MvPolynomial.monomial (Finsupp.single j 1) (1 : ℝ))) =
      fun u => u j := by
    intro j; funext u; simp [MvPolynomial.eval_monomial]
  have h3 : ∀ i j : Fin d, (fun u : Fin d → ℝ => MvPolynomial.eval u
      (MvPolynomial.monomial (Finsupp.single i 1 + Finsupp.single j 1) (1 : ℝ))) = fun u => u i * u j := by
    intro i j; funext u
    have e : (MvPolynomial.monomial (Finsupp.single i 1 + Finsupp.single j 1) (1 : ℝ) : MvPolynomial (Fin d) ℝ) =
        MvPolynomial.X i * MvPolynomial.X j := by
      rw [MvPolynomial.X, MvPolynomial.X, MvPolynomial.monomial_mul, mul_one]
    rw [e, map_mul, MvPolynomial.eval_X, MvPolynomial.eval_X]
  cases mean with
  | constant => simp only [monos, exps, List.map_cons, List.map_nil, h1]
  | linear =>
    simp only [monos, exps, List.map_cons, h1, List.map_ofFn]
    congr 2
    funext j
    exact (h2 j).symm
  | quadratic =>
    simp only [monos, exps, List.map_cons, h1, List.map_ofFn, List.map_append, List.map_flatMap, List.map_map]
    congr 1
    · congr 2
      funext j
      exact (h2 j).symm
    · congr 1
      funext i
      congr 1
      funext j
      exact (h3 i j).symm

theorem exps_nodup (mean : Mean) (d : ℕ) : (exps mean d).Nodup := by
  have hlin : (0 :: List.ofFn fun j : Fin d => Finsupp.single j 1).Nodup := by
    rw [List.nodup_cons]
    constructor
    · intro h
      obtain ⟨j, hj⟩ := List.mem_ofFn.1 h
      simp at hj
    · exact List.nodup_ofFn.2 fun a b hab => (Finsupp.single_left_inj one_ne_zero).1 hab
  cases mean with
  | constant => simp [exps]
  | linear => exact hlin
  | quadratic =>
    rw [exps, List.nodup_append]
    refine ⟨hlin, ?_, ?_⟩
    · rw [List.nodup_flatMap]
      constructor
      · intro i _
        refine List.Nodup.map ?_ ((List.nodup_finRange d).filter _)
        intro a b hab
        exact (Finsupp.single_left_inj one_ne_zero).1 (add_left_cancel hab)
      · refine List.Pairwise.imp_of_mem ?_ (List.nodup_finRange d)
        intro a b _ _ hab
        rw [Function.onFun, List.disjoint_left]
        intro e h1 h2
        obtain ⟨j, hj, rfl⟩ := List.mem_map.1 h1
        obtain ⟨k, hk, hjk⟩ := List.mem_map.1 h2
        rw [List.mem_filter] at hj hk
        have hj' : a ≤ j := by simpa using hj.2
        have hk' : b ≤ k := by simpa using hk.2
        rcases (Finsupp.single_add_single_eq_single_add_single one_ne_zero one_ne_zero).1 hjk with h | h | h
        · exact hab h.1.symm
        · obtain ⟨-, rfl, rfl⟩ := h
          exact hab (le_antisymm hj' hk')
        · exact absurd h.1 (by norm_num)
    · intro a ha b hb hab
      subst hab
      simp only [List.mem_flatMap, List.mem_map] at hb
      obtain ⟨i, _, j, _, rfl⟩ := hb
      have hdeg : ∀ e ∈ (0 :: List.ofFn fun j : Fin d => Finsupp.single j 1), e.degree ≤ 1 := by
        intro e he
        rw [List.mem_cons, List.mem_ofFn] at he
        rcases he with rfl | ⟨k, rfl⟩
        · simp
        · simp
      have := hdeg _ ha
      simp at this

/-- The basis functions are independent: a combination vanishing everywhere has zero coefficients. -/
theorem feat_independent (b : Fin (basis mean d) → ℝ) (hb : ∀ z, ∑ a, b a * feat mean x a z = 0) : b = 0 := by
  have hlen : (exps mean d).length = basis mean d := by
    rw [← monos_length mean d, monos_exps, List.length_map]
  set e : Fin (basis mean d) → Fin d →₀ ℕ := fun a => (exps mean d)[a.val]'(by rw [hlen]; exact a.2) with he
  have hinj : Function.Injective e := by
    intro a c hac
    exact Fin.ext ((exps_nodup mean d).getElem_inj_iff.1 hac)
  have hfeat : ∀ a z, feat mean x a z = MvPolynomial.eval (xnPoint x z) (MvPolynomial.monomial (e a) (1 : ℝ)) := by
    intro a z
    have ha : a.val < (exps mean d).length := by rw [hlen]; exact a.2
    rw [feat, value_monos, monos_exps, List.map_map, List.getD_eq_getElem?_getD, List.getElem?_map,
      List.getElem?_eq_getElem ha]
    rfl
  have hzero : (∑ a, MvPolynomial.monomial (e a) (b a) : MvPolynomial (Fin d) ℝ) = 0 := by
    refine MvPolynomial.funext fun u => ?_
    set z : Fin d → ℝ := fun j => u j * (stdOf fun i => x i j) + colMean fun i => x i j with hz
    have hu : xnPoint x z = u := by
      funext j
      rw [xnPoint, hz]
      have := (stdOf_pos fun i => x i j).ne'
      field_simp
      ring
    have := hb z
    simp only [hfeat, hu] at this
    rw [map_zero, map_sum, ← this]
    refine Finset.sum_congr rfl fun a _ => ?_
    simp [MvPolynomial.eval_monomial]
  funext a
  have := congrArg (MvPolynomial.coeff (e a)) hzero
  rw [MvPolynomial.coeff_sum, MvPolynomial.coeff_zero] at this
  simp only [MvPolynomial.coeff_monomial] at this
  rw [Finset.sum_eq_single a] at this
  · simpa using this
  · intro c _ hca
    rw [if_neg fun h => hca (hinj h)]
  · simp

/-- The training inputs determine the trend: no other trend than zero vanishes at all of them. -/
def Determines (mean : Mean) (x : Fin n → Fin d → ℝ) : Prop :=
  ∀ t, IsTrend mean t → (∀ i, t (x i) = 0) → ∀ z, t z = 0

theorem determines_iff : Determines mean x ↔ Function.Injective (meanMat mean (xnData x)).mulVec := by
  have hval : ∀ (b : Fin (basis mean d) → ℝ) i, (meanMat mean (xnData x)).mulVec b i = ∑ a, b a * feat mean x a (x i) := by
    intro b i
    rw [Matrix.mulVec, dotProduct]
    exact Finset.sum_congr rfl fun a _ => by rw [mul_comm]; rfl
  have hcomb : ∀ (b : Fin (basis mean d) → ℝ) z, (∑ a, b a • feat mean x a) z = ∑ a, b a * feat mean x a z := by
    intro b z
    simp [Finset.sum_apply]
  constructor
  · intro hD
    rw [← Matrix.coe_mulVecLin, ← LinearMap.ker_eq_bot, LinearMap.ker_eq_bot']
    intro b hb
    refine feat_independent (mean := mean) (x := x) b fun z => ?_
    rw [← hcomb]
    refine hD _ ?_ (fun i => ?_) z
    · rw [trend_iff (x := x), Submodule.mem_span_range_iff_exists_fun]
      exact ⟨_, rfl⟩
    · rw [hcomb, ← hval]
      exact congrFun hb i
  · intro hF t ht h0 z
    rw [trend_iff (x := x), Submodule.mem_span_range_iff_exists_fun] at ht
    obtain ⟨b, rfl⟩ := ht
    have : b = 0 := by
      refine hF ?_
      funext i
      rw [hval, ← hcomb, h0, Matrix.mulVec_zero, Pi.zero_apply]
    subst this
    simp

theorem unit_gram_injective {R : Matrix (Fin n) (Fin n) ℝ} {F : Matrix (Fin n) (Fin p) ℝ}
    (hB : IsUnit (Fᵀ * R⁻¹ * F).det) : Function.Injective F.mulVec := by
  intro a b hab
  have key : ∀ v, (Fᵀ * R⁻¹ * F) *ᵥ v = (Fᵀ * R⁻¹) *ᵥ (F *ᵥ v) := fun v => by rw [Matrix.mulVec_mulVec]
  have := (key a).trans ((congrArg _ hab).trans (key b).symm)
  exact (Matrix.mulVec_injective_of_isUnit ((Matrix.isUnit_iff_isUnit_det _).2 hB)) this

/-- Whatever the nugget, the hyperparameters and the linear algebra, inputs for which training succeeds determine the
trend. -/
theorem C117_necessary (hg : fitWith la kernel mean nugget theta w x y = some g) : Determines mean x :=
  determines_iff.2 (unit_gram_injective (fit_matrices hg).2.2.1)

/-- Training with a positive nugget succeeds if and only if the inputs determine the trend. -/
theorem C117_iff (kernel : Kernel) (mean : Mean) (hn : 0 < nugget) (hθ : ∀ l, 0 ≤ theta l) (w : Fin d → Fin h → ℝ)
    (x : Fin n → Fin d → ℝ) (y : Fin n → ℝ) (h2 : 2 ≤ n) :
    (∃ g, fitWith Gp.exact kernel mean nugget theta w x y = some g) ↔ Determines mean x :=
  ⟨fun ⟨_, hg⟩ => C117_necessary hg, fun hD =>
    fit_succeeds _ _ _ _ _ _ _ h2 (corrMatrix_posDef kernel theta hθ w nugget hn _) (determines_iff.1 hD)⟩

/-- Dimension of the space of trends in dimension `d`. -/
def trendDim : Mean → ℕ → ℕ
  | .constant, _ => 1
  | .linear, d => d + 1
  | .quadratic, d => (d + 1) * (d + 2) / 2

theorem basis_card (mean : Mean) (d : ℕ) : basis mean d = trendDim mean d := by
  cases mean with
  | constant => rfl
  | linear => exact Nat.add_comm _ _
  | quadratic =>
    rw [basis, trendDim, show (d + 1) * (d + 2) = d * (d + 1) + 2 * (d + 1) by ring, Nat.add_mul_div_left _ _ two_pos]
    ring

/-- At least as many training points as basis functions are needed. -/
theorem C117_count (hD : Determines mean x) : trendDim mean d ≤ n := by
  rw [← basis_card]
  have := LinearMap.finrank_le_finrank_of_injective (f := (meanMat mean (xnData x)).mulVecLin)
    (by rw [Matrix.coe_mulVecLin]; exact determines_iff.1 hD)
  simpa using this

/-- A constant trend is determined by any point, a linear one by inputs that are not in a hyperplane. -/
theorem C117_linear : (Determines .constant x ↔ 0 < n) ∧
    (Determines .linear x ↔ ∀ (c : ℝ) (b : Fin d → ℝ), (∀ i, ∑ j, b j * x i j = c) → b = 0 ∧ c = 0) := by
  constructor
  · constructor
    · exact C117_count
    · rintro hn t ⟨c, hc⟩ h0 z
      rw [hc, ← hc (x ⟨0, hn⟩), h0]
  · constructor
    · intro hD c b hb
      have h := hD (fun z => -c + ∑ j, b j * z j) ⟨-c, b, fun _ => rfl⟩ fun i => by rw [hb]; ring
      have hc : c = 0 := by simpa using h 0
      subst hc
      refine ⟨?_, rfl⟩
      funext j
      simpa [Pi.single_apply] using h (Pi.single j 1)
    · rintro hx t ⟨c, b, ht⟩ h0 z
      obtain ⟨rfl, hc⟩ := hx (-c) b fun i => by have := h0 i; rw [ht] at this; linarith
      rw [ht]
      simp at hc
      simp [hc]

/-- Along one variable, quadratic trends need three distinct values. -/
theorem quadratic_three {x : Fin n → Fin 1 → ℝ} {a b c : Fin n} (h1 : x a 0 ≠ x b 0) (h2 : x a 0 ≠ x c 0)
    (h3 : x b 0 ≠ x c 0) : Determines .quadratic x := by
  rintro t ⟨c0, b0, q0, ht⟩ h0 z
  simp only [Finset.univ_unique, Fin.default_eq_zero, Finset.sum_singleton] at ht
  have ea := h0 a
  have eb := h0 b
  have ec := h0 c
  rw [ht] at ea eb ec ⊢
  have e1 : b0 0 + q0 0 0 * (x a 0 + x b 0) = 0 := by
    have : (x a 0 - x b 0) * (b0 0 + q0 0 0 * (x a 0 + x b 0)) = 0 := by linarith
    exact (mul_eq_zero.1 this).resolve_left (sub_ne_zero.2 h1)
  have e2 : b0 0 + q0 0 0 * (x a 0 + x c 0) = 0 := by
    have : (x a 0 - x c 0) * (b0 0 + q0 0 0 * (x a 0 + x c 0)) = 0 := by linarith
    exact (mul_eq_zero.1 this).resolve_left (sub_ne_zero.2 h2)
  have e3 : q0 0 0 = 0 := by
    have : (x b 0 - x c 0) * q0 0 0 = 0 := by linarith
    exact (mul_eq_zero.1 this).resolve_left (sub_ne_zero.2 h3)
  rw [e3] at e1 ea ⊢
  have e4 : b0 0 = 0 := by linarith
  rw [e4] at ea ⊢
  linarith

/-- Three points on a line: training with a quadratic mean succeeds with any kernel and hyperparameters; with two of them
repeated it fails. -/
example (kernel : Kernel) (y : Fin 3 → ℝ) :
    (∃ g, fitWith Gp.exact kernel .quadratic 1e-10 (fun _ : Fin 1 => 2) (fun (_ : Fin 1) (_ : Fin 1) => 1)
      (fun (i : Fin 3) (_ : Fin 1) => (i : ℝ)) y = some g) ∧
    ¬ ∃ g, fitWith Gp.exact kernel .quadratic 1e-10 (fun _ : Fin 1 => 2) (fun (_ : Fin 1) (_ : Fin 1) => 1)
      (fun (i : Fin 3) (_ : Fin 1) => if i = 0 then 0 else 1) y = some g := by
  rw [C117_iff _ _ (by norm_num) (fun _ => by norm_num) _ _ _ (by norm_num),
    C117_iff _ _ (by norm_num) (fun _ => by norm_num) _ _ _ (by norm_num)]
  constructor
  · exact quadratic_three (a := 0) (b := 1) (c := 2) (by norm_num) (by norm_num) (by norm_num)
  · intro hD
    have := hD (fun z => z 0 * (z 0 - 1)) ⟨0, fun _ => -1, fun _ _ => 1, fun z => by simp; ring⟩
      (fun i => by fin_cases i <;> simp) (fun _ => 2)
    norm_num at this

/-- Case of `C116_extrapolation`: three points on a line, outputs that are not those of an affine function. -/
example : ∃ g, fitWith Gp.exact .matern52 .linear 1e-10 (fun _ : Fin 1 => 3) (fun (_ : Fin 1) (_ : Fin 1) => 1)
    (fun (i : Fin 3) (_ : Fin 1) => (i.val : ℝ)) (fun i => (i.val : ℝ) ^ 2) = some g ∧
    ∀ C, ∃ M, ∀ x', (∃ j, M < |x' j|) → ∃ v, g.predictVar exact x' = some v ∧ C < v := by
  obtain ⟨g, hg⟩ := (C117_iff .matern52 .linear (nugget := 1e-10) (theta := fun _ : Fin 1 => 3) (by norm_num)
    (fun _ => by norm_num) (fun (_ : Fin 1) (_ : Fin 1) => 1) (fun (i : Fin 3) (_ : Fin 1) => (i.val : ℝ))
    (fun i => (i.val : ℝ) ^ 2) (by norm_num)).2 (by
      rw [C117_linear.2]
      intro c b hb
      have h0 := hb 0
      have h1 := hb 1
      simp at h0 h1
      have hc : c = 0 := h0.symm
      refine ⟨?_, hc⟩
      funext j
      rw [Subsingleton.elim j 0, h1, hc]
      rfl)
  refine ⟨g, hg, fun C => C116_extrapolation hg (fun _ => by norm_num) (by simp) ?_ exact C⟩
  rintro ⟨t, ⟨c, b, ht⟩, hy⟩
  have h0 := hy 0
  have h1 := hy 1
  have h2 := hy 2
  rw [ht] at h0 h1 h2
  simp at h0 h1 h2
  linarith

end Verif.Props
