import Verif.Props.GpTrend
import Verif.Lemmas.KernelStrict

/-!
# C118, C119: Gaussian processes without nugget, points where the predicted variance is zero
-/

set_option autoImplicit false

namespace Verif.Props

open Matrix Kernels Means GpUtils Spec Gp

variable {n d h : ℕ} {la : LinAlg} {kernel : Kernel} {mean : Mean} {nugget : ℝ} {theta : Fin h → ℝ}
  {w : Fin d → Fin h → ℝ} {x : Fin n → Fin d → ℝ} {y : Fin n → ℝ} {g : Model n d h}

/-- Two points differ in a variable on which correlations depend. -/
def Apart (theta : Fin h → ℝ) (w : Fin d → Fin h → ℝ) (u v : Fin d → ℝ) : Prop :=
  ∃ a l, theta l ≠ 0 ∧ w a l ≠ 0 ∧ u a ≠ v a

theorem apart_norm {u v : Fin d → ℝ} : Apart theta w (xnPoint x u) (xnPoint x v) ↔ Apart theta w u v := by
  unfold Apart
  refine exists_congr fun a => exists_congr fun l => and_congr_right fun _ => and_congr_right fun _ => not_congr ?_
  rw [xnPoint, xnPoint, div_left_inj' (stdOf_pos _).ne', sub_left_inj]

theorem xnPoint_data (i : Fin n) : xnPoint x (x i) = xnData x i := rfl

/-! ## C118: training without nugget -/

theorem corrMatrix_zero_iff (hθ : ∀ l, 0 ≤ theta l) :
    (corrMatrix kernel theta w 0 (xnData x)).PosDef ↔ ∀ i j, i ≠ j → Apart theta w (x i) (x j) := by
  rw [corrMatrix_eq, zero_smul, add_zero, posDef_kernel_iff kernel theta hθ]
  refine forall_congr' fun i => forall_congr' fun j => imp_congr_right fun _ => ?_
  rw [← apart_norm (x := x)]
  rfl

/-- Without nugget, training succeeds if and only if the inputs determine the trend and differ two by two in some
variable on which correlations depend. -/
theorem C118_iff (kernel : Kernel) (mean : Mean) (hθ : ∀ l, 0 ≤ theta l) (w : Fin d → Fin h → ℝ)
    (x : Fin n → Fin d → ℝ) (y : Fin n → ℝ) (h2 : 2 ≤ n) :
    (∃ g, fitWith Gp.exact kernel mean 0 theta w x y = some g) ↔
      Determines mean x ∧ ∀ i j, i ≠ j → Apart theta w (x i) (x j) :=
  ⟨fun ⟨_, hg⟩ => ⟨C117_necessary hg, (corrMatrix_zero_iff hθ).1 (fit_matrices hg).1⟩, fun ⟨hD, hx⟩ =>
    fit_succeeds _ _ _ _ _ _ _ h2 ((corrMatrix_zero_iff hθ).2 hx) (determines_iff.1 hD)⟩

/-- With a correlation matrix that is not definite no linear algebra gives a model: training inputs that differ in no
variable on which correlations depend are refused without nugget. -/
theorem C118_repeated (hθ : ∀ l, 0 ≤ theta l) {i j : Fin n} (hij : i ≠ j) (hx : ¬ Apart theta w (x i) (x j)) :
    fitWith la kernel mean 0 theta w x y = none := by
  cases hg : fitWith la kernel mean 0 theta w x y with
  | none => rfl
  | some g => exact absurd ((corrMatrix_zero_iff hθ).1 (fit_matrices hg).1 i j hij) hx

/-- When each variable counts, distinct training inputs and a constant mean are always accepted without nugget, and the
model goes through the outputs with a zero variance at the training inputs. -/
theorem C118_distinct (kernel : Kernel) (hθ : ∀ l, 0 ≤ theta l) (hw : ∀ a, ∃ l, theta l ≠ 0 ∧ w a l ≠ 0)
    (hx : Function.Injective x) (y : Fin n → ℝ) (h2 : 2 ≤ n) :
    ∃ g, fitWith Gp.exact kernel .constant 0 theta w x y = some g ∧
      ∀ i, g.predict (x i) = y i ∧ g.predictVar Gp.exact (x i) = some 0 := by
  obtain ⟨g, hg⟩ := (C118_iff kernel .constant hθ w x y h2).2 ⟨C117_linear.1.2 (by omega), fun i j hij => by
    obtain ⟨a, ha⟩ : ∃ a, x i a ≠ x j a := by
      by_contra hc
      push Not at hc
      exact hij (hx (funext hc))
    obtain ⟨l, h3, h4⟩ := hw a
    exact ⟨a, l, h3, h4, ha⟩⟩
  exact ⟨g, hg, fun i => ⟨C45_interpolation hg i, C45_variance_at_data hg _ i⟩⟩

/-! ## C119: where the predicted variance is zero -/

theorem errVar_bordered (hθ : ∀ l, 0 ≤ theta l) (x : Fin n → Fin d → ℝ) (u : Fin d → ℝ) (l : Fin n → ℝ) :
    (0 ≤ errVar (Matrix.of fun i j => kernel.value theta w (x i - x j)) (fun i => kernel.value theta w (u - x i)) l) ∧
    ((∀ i j, i ≠ j → Apart theta w (x i) (x j)) → (∀ i, Apart theta w u (x i)) →
      0 < errVar (Matrix.of fun i j => kernel.value theta w (x i - x j)) (fun i => kernel.value theta w (u - x i)) l) := by
  set z : Option (Fin n) → Fin d → ℝ := fun o => o.elim u x with hz
  set c : Option (Fin n) → ℝ := fun o => o.elim (-1) l with hc
  set M : Matrix (Option (Fin n)) (Option (Fin n)) ℝ := Matrix.of fun i j => kernel.value theta w (z i - z j) with hM
  have hsym : ∀ i, kernel.value theta w (x i - u) = kernel.value theta w (u - x i) := fun i =>
    C40_symmetric _ _ _ _ _ fun j => by simp
  have key : c ⬝ᵥ (M *ᵥ c) = errVar (Matrix.of fun i j => kernel.value theta w (x i - x j))
      (fun i => kernel.value theta w (u - x i)) l := by
    simp only [dotProduct, Matrix.mulVec, Fintype.sum_option, hM, hc, hz, Matrix.of_apply, Option.elim, sub_self,
      C40_at_zero, hsym, errVar, mul_add, Finset.sum_add_distrib, Finset.mul_sum]
    have e1 : ∑ i, l i * (kernel.value theta w (u - x i) * -1) = -∑ i, l i * kernel.value theta w (u - x i) := by
      rw [← Finset.sum_neg_distrib]
      exact Finset.sum_congr rfl fun i _ => by ring
    have e2 : ∑ i, -1 * (kernel.value theta w (u - x i) * l i) = -∑ i, l i * kernel.value theta w (u - x i) := by
      rw [← Finset.sum_neg_distrib]
      exact Finset.sum_congr rfl fun i _ => by ring
    have e3 : ∑ i, ∑ j, l i * (kernel.value theta w (x i - x j) * l j) =
        ∑ i, ∑ j, l i * kernel.value theta w (x i - x j) * l j :=
      Finset.sum_congr rfl fun i _ => Finset.sum_congr rfl fun j _ => by ring
    have e4 : ∑ i, 2 * (l i * kernel.value theta w (u - x i)) = 2 * ∑ i, l i * kernel.value theta w (u - x i) := by
      rw [Finset.mul_sum]
    rw [e1, e2, e3, e4]
    ring
  rw [← key]
  constructor
  · simpa using (psd_kernel kernel theta hθ w z).dotProduct_mulVec_nonneg c
  · intro h1 h2
    have hpd : M.PosDef := (posDef_kernel_iff kernel theta hθ w z).2 fun i j hij => by
      cases i with
      | none => cases j with
        | none => exact absurd rfl hij
        | some j => exact h2 j
      | some i => cases j with
        | none =>
          obtain ⟨a, l, h3, h4, h5⟩ := h2 i
          exact ⟨a, l, h3, h4, fun e => h5 e.symm⟩
        | some j => exact h1 i j fun e => hij (by rw [e])
    have hne : c ≠ 0 := fun e => by
      have := congrFun e none
      simp [hc] at this
    simpa using hpd.dotProduct_mulVec_pos hne

theorem errVar_nugget (K : Matrix (Fin n) (Fin n) ℝ) (r l : Fin n → ℝ) :
    errVar (K + nugget • (1 : Matrix (Fin n) (Fin n) ℝ)) r l = errVar K r l + nugget * ∑ i, l i ^ 2 := by
  simp only [errVar, Matrix.add_apply, Matrix.smul_apply, Matrix.one_apply, smul_eq_mul, mul_add, add_mul,
    Finset.sum_add_distrib, Finset.mul_sum]
  have : ∑ i, ∑ j, l i * (nugget * if i = j then 1 else 0) * l j = ∑ i, nugget * l i ^ 2 :=
    Finset.sum_congr rfl fun i _ => by simp; ring
  rw [this]
  ring

theorem errVar_pos (hθ : ∀ l, 0 ≤ theta l) (hn : 0 ≤ nugget) (x : Fin n → Fin d → ℝ) (u : Fin d → ℝ) (l : Fin n → ℝ)
    (hx : 0 < nugget ∨ (∀ i j, i ≠ j → Apart theta w (x i) (x j)) ∧ ∀ i, Apart theta w u (x i)) :
    0 < errVar (corrMatrix kernel theta w nugget x) (fun i => kernel.value theta w (u - x i)) l := by
  rw [corrMatrix_eq, errVar_nugget]
  obtain ⟨h0, h1⟩ := errVar_bordered (kernel := kernel) (w := w) hθ x u l
  have hs : 0 ≤ ∑ i, l i ^ 2 := Finset.sum_nonneg fun i _ => sq_nonneg _
  obtain hx | ⟨hx, hu⟩ := hx
  · by_cases hl : l = 0
    · subst hl
      simp [errVar]
    · have : 0 < ∑ i, l i ^ 2 := by
        refine lt_of_le_of_ne hs fun e => hl ?_
        funext i
        have := (Finset.sum_eq_zero_iff_of_nonneg fun i _ => sq_nonneg (l i)).1 e.symm i (Finset.mem_univ _)
        exact pow_eq_zero_iff (two_ne_zero) |>.1 this
      have := mul_pos hx this
      linarith
  · have := h1 hx hu
    have := mul_nonneg hn hs
    linarith

/-- When the outputs are not those of a trend the variance is positive everywhere with a nugget, and without nugget at
the points that differ from each training input in a variable on which correlations depend. -/
theorem C119_positive (hg : fitWith la kernel mean nugget theta w x y = some g) (hθ : ∀ l, 0 ≤ theta l) (hn : 0 ≤ nugget)
    (hy : ¬ ∃ t, IsTrend mean t ∧ ∀ i, y i = t (x i)) (la' : LinAlg) (x' : Fin d → ℝ)
    (hx : 0 < nugget ∨ ∀ i, Apart theta w x' (x i)) : ∃ v, g.predictVar la' x' = some v ∧ 0 < v := by
  obtain ⟨hpd, hR, hB, hsig⟩ := fit_matrices hg
  have hs : (corrMatrix kernel theta w nugget (xnData x))⁻¹ᵀ = (corrMatrix kernel theta w nugget (xnData x))⁻¹ := by
    rw [Matrix.transpose_nonsing_inv, corrMatrix_symm]
  have h2 := (predict_closed hg la' x').2
  have hv := krigVar_eq_errVar (r := rAt kernel theta w x x') (f := fAt mean x x') hR hs hB
  have hsg : 0 < g.inner.sigma2 := lt_of_le_of_ne (fit_sigma2_nonneg hg) fun e => hy ((C107_trend hg).2.1 e.symm)
  have he := errVar_pos (kernel := kernel) (w := w) hθ hn (xnData x) (xnPoint x x')
    (fun i => krigW (corrMatrix kernel theta w nugget (xnData x)) (meanMat mean (xnData x))
      (rAt kernel theta w x x') (fAt mean x x') i 0) (by
      refine or_iff_not_imp_left.2 fun h0 => ⟨fun i j hij => ?_, fun i => ?_⟩
      · obtain rfl : nugget = 0 := le_antisymm (not_lt.1 h0) hn
        have := (corrMatrix_zero_iff hθ).1 hpd i j hij
        rw [← xnPoint_data, ← xnPoint_data, apart_norm]
        exact this
      · rw [← xnPoint_data, apart_norm]
        exact hx.resolve_left h0 i)
  have := mul_pos hsg (he.trans_eq hv.symm)
  rw [hsig] at this
  exact ⟨_, h2, lt_max_of_lt_right this⟩

/-- When each variable counts, the variance predicted at a point is zero exactly if the outputs are those of a trend, or
there is no nugget and the point is a training input. -/
theorem C119_zero_iff (hg : fitWith la kernel mean nugget theta w x y = some g) (hθ : ∀ l, 0 ≤ theta l) (hn : 0 ≤ nugget)
    (hw : ∀ a, ∃ l, theta l ≠ 0 ∧ w a l ≠ 0) (la' : LinAlg) (x' : Fin d → ℝ) :
    g.predictVar la' x' = some 0 ↔
      (∃ t, IsTrend mean t ∧ ∀ i, y i = t (x i)) ∨ (nugget = 0 ∧ ∃ i, x' = x i) := by
  constructor
  · intro h0
    by_contra hc
    rw [not_or] at hc
    obtain ⟨h1, h2⟩ := hc
    obtain ⟨v, hv, hpos⟩ := C119_positive hg hθ hn h1 la' x' (by
      refine or_iff_not_imp_left.2 fun h3 i => ?_
      have h4 : nugget = 0 := le_antisymm (not_lt.1 h3) hn
      obtain ⟨a, ha⟩ : ∃ a, x' a ≠ x i a := by
        by_contra hc
        push Not at hc
        exact h2 ⟨h4, i, funext hc⟩
      obtain ⟨l, h5, h6⟩ := hw a
      exact ⟨a, l, h5, h6, ha⟩)
    rw [h0, Option.some_inj] at hv
    exact hpos.ne hv
  · rintro (⟨t, ht, hy⟩ | ⟨rfl, i, rfl⟩)
    · exact ((C107_trend hg).1 t ht hy la' x').2
    · exact C45_variance_at_data hg la' i

/-- Three distinct points on a line without nugget: the variance is zero at those points only, whatever the kernel, if
the outputs are not all equal. -/
example (kernel : Kernel) : ∃ g, fitWith Gp.exact kernel .constant 0 (fun _ : Fin 1 => 2)
    (fun (_ : Fin 1) (_ : Fin 1) => 1) (fun (i : Fin 3) (_ : Fin 1) => (i.val : ℝ)) (fun i => (i.val : ℝ) ^ 2) = some g ∧
    ∀ x', g.predictVar Gp.exact (fun _ => x') = some 0 ↔ x' = 0 ∨ x' = 1 ∨ x' = 2 := by
  have hw : ∀ a : Fin 1, ∃ l, (fun _ : Fin 1 => (2 : ℝ)) l ≠ 0 ∧ (fun (_ : Fin 1) (_ : Fin 1) => (1 : ℝ)) a l ≠ 0 :=
    fun _ => ⟨0, by norm_num, by norm_num⟩
  obtain ⟨g, hg, _⟩ := C118_distinct kernel (fun _ => by norm_num) hw
    (x := fun (i : Fin 3) (_ : Fin 1) => (i.val : ℝ))
    (fun i j hij => Fin.ext (Nat.cast_injective (R := ℝ) (congrFun hij 0))) (fun i => (i.val : ℝ) ^ 2) (by norm_num)
  refine ⟨g, hg, fun x' => ?_⟩
  rw [C119_zero_iff hg (fun _ => by norm_num) le_rfl hw]
  constructor
  · rintro (⟨t, ⟨c, hc⟩, hy⟩ | ⟨_, i, hi⟩)
    · have h0 := hy 0
      have h1 := hy 1
      rw [hc] at h0 h1
      simp at h0 h1
      linarith
    · have := congrFun hi 0
      fin_cases i <;> simp at this <;> simp [this]
  · rintro (rfl | rfl | rfl)
    · exact Or.inr ⟨rfl, 0, by funext; simp⟩
    · exact Or.inr ⟨rfl, 1, by funext; simp⟩
    · exact Or.inr ⟨rfl, 2, by funext; simp⟩

/-- A repeated training input is refused without nugget. -/
example (la : LinAlg) (kernel : Kernel) (mean : Mean) (y : Fin 3 → ℝ) :
    fitWith la kernel mean 0 (fun _ : Fin 1 => 2) (fun (_ : Fin 1) (_ : Fin 1) => 1)
      (fun (i : Fin 3) (_ : Fin 1) => if i = 0 then 0 else 1) y = none :=
  C118_repeated (fun _ => by norm_num) (i := 1) (j := 2) (by decide) (by rintro ⟨_, _, _, _, h⟩; simp at h)

end Verif.Props
