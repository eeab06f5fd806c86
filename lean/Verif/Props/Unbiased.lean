import Verif.Props.Doe
import Mathlib.Probability.UniformOn
import Mathlib.Probability.ConditionalProbability
import Mathlib.MeasureTheory.Constructions.Pi
import Mathlib.MeasureTheory.Measure.Lebesgue.Basic
import Mathlib.MeasureTheory.Integral.Prod
import Mathlib.MeasureTheory.Integral.Pi
import Mathlib.MeasureTheory.Integral.IntervalAverage
import Mathlib.Analysis.SpecialFunctions.Integrals.Basic

/-!
# C147: averages over designs
-/

set_option autoImplicit false

namespace Verif.Spec

open MeasureTheory ProbabilityTheory

/-- The uniform law on an interval. -/
noncomputable def uniform (a b : ℝ) : Measure ℝ := volume[|Set.Ico a b]

/-- The uniform law on a box. -/
noncomputable def uniformBox {d : ℕ} (l u : Fin d → ℝ) : Measure (Fin d → ℝ) := Measure.pi fun j => uniform (l j) (u j)

instance (n : ℕ) : MeasurableSpace (Equiv.Perm (Fin n)) := ⊤

instance (n : ℕ) : DiscreteMeasurableSpace (Equiv.Perm (Fin n)) := ⟨fun _ => trivial⟩

/-- The random choices for a Latin hypercube: for each column a shuffle and a number per point. -/
abbrev Choices (n d : ℕ) := Fin d → Equiv.Perm (Fin n) × (Fin n → ℝ)

/-- Their law: all choices are independent, shuffles are equally likely and numbers are uniform between 0 and 1. -/
noncomputable def choicesLaw (n d : ℕ) : Measure (Choices n d) :=
  Measure.pi fun _ => (uniformOn Set.univ).prod (Measure.pi fun _ => uniform 0 1)

end Verif.Spec

namespace Verif.Props

open Verif Spec Doe MeasureTheory ProbabilityTheory

variable {n d : ℕ}

/-- The choices as the sampling method receives them. -/
def toDraw (ω : Choices n d) : Draw n d := ⟨fun i j => (ω j).2 i, fun j => (ω j).1⟩

theorem uniform_eq {a b : ℝ} : uniform a b = (ENNReal.ofReal (b - a))⁻¹ • volume.restrict (Set.Ico a b) := by
  unfold uniform ProbabilityTheory.cond
  rw [Real.volume_Ico]

theorem uniform_prob {a b : ℝ} (h : a < b) : IsProbabilityMeasure (uniform a b) := by
  unfold uniform
  exact cond_isProbabilityMeasure_of_finite (by rw [Real.volume_Ico]; simpa using h) (by rw [Real.volume_Ico]; simp)

instance : IsProbabilityMeasure (uniform 0 1) := uniform_prob one_pos

theorem perm_prob (n : ℕ) : IsProbabilityMeasure (uniformOn (Set.univ : Set (Equiv.Perm (Fin n)))) :=
  isProbabilityMeasure_uniformOn Set.finite_univ ⟨1, trivial⟩

instance (n : ℕ) : IsProbabilityMeasure (uniformOn (Set.univ : Set (Equiv.Perm (Fin n)))) := perm_prob n

instance (n d : ℕ) : IsProbabilityMeasure (choicesLaw n d) := by unfold choicesLaw; infer_instance

theorem lintegral_perm (F : Equiv.Perm (Fin n) → ENNReal) :
    ∫⁻ π, F π ∂(uniformOn Set.univ) = (n.factorial : ENNReal)⁻¹ * ∑ π, F π := by
  unfold uniformOn ProbabilityTheory.cond
  rw [Measure.restrict_univ, lintegral_smul_measure, lintegral_count, tsum_fintype, Measure.count_univ]
  simp [ENat.card_eq_coe_fintype_card, Fintype.card_perm]

/-- Every value is taken by a shuffle at a given place in the same number of cases. -/
theorem sum_perm (F : Fin n → ENNReal) (i : Fin n) :
    (n : ENNReal) * ∑ π : Equiv.Perm (Fin n), F (π i) = n.factorial * ∑ k, F k := by
  have h1 : ∀ i' : Fin n, ∑ π : Equiv.Perm (Fin n), F (π i') = ∑ π : Equiv.Perm (Fin n), F (π i) := fun i' =>
    Fintype.sum_equiv (Equiv.mulRight (Equiv.swap i i')) _ _ fun π => by simp
  calc (n : ENNReal) * ∑ π : Equiv.Perm (Fin n), F (π i)
      = ∑ i' : Fin n, ∑ π : Equiv.Perm (Fin n), F (π i') := by
        rw [Finset.sum_congr rfl fun i' _ => h1 i']; simp
    _ = ∑ π : Equiv.Perm (Fin n), ∑ i' : Fin n, F (π i') := Finset.sum_comm
    _ = ∑ _π : Equiv.Perm (Fin n), ∑ k, F k := Finset.sum_congr rfl fun π _ => Equiv.sum_comp π F
    _ = n.factorial * ∑ k, F k := by simp [Fintype.card_perm]

theorem sum_cells (l w : ℝ) (hw : 0 ≤ w) {s : Set ℝ} (hs : MeasurableSet s) (m : ℕ) :
    ∑ k ∈ Finset.range m, volume (Set.Ico (l + k * w) (l + (k + 1) * w) ∩ s) = volume (Set.Ico l (l + m * w) ∩ s) := by
  induction m with
  | zero => simp
  | succ m ih =>
    rw [Finset.sum_range_succ, ih, ← measure_union ?_ (measurableSet_Ico.inter hs), ← Set.union_inter_distrib_right,
      Set.Ico_union_Ico_eq_Ico]
    · push_cast; rfl
    · have : 0 ≤ (m : ℝ) * w := by positivity
      linarith
    · nlinarith
    · rw [Set.disjoint_left]
      rintro x ⟨h1, _⟩ ⟨h2, _⟩
      exact absurd h1.2 (not_lt.2 h2.1)

/-- A number drawn in a cell drawn at random is uniform. -/
theorem mean_cells {l u : ℝ} (hlu : l < u) (hn : 0 < n) {s : Set ℝ} (hs : MeasurableSet s) :
    ∑ k : Fin n, uniform 0 1 {t | (t * (cut n (k + 1) - cut n k) + cut n k) * (u - l) + l ∈ s} =
      n * uniform l u s := by
  have hn' : (0 : ℝ) < n := by exact_mod_cast hn
  have hw : 0 < (u - l) / n := by have : 0 < u - l := by linarith
                                  positivity
  have key : ∀ k : ℕ, uniform 0 1 {t | (t * (cut n (k + 1) - cut n k) + cut n k) * (u - l) + l ∈ s} =
      n * (ENNReal.ofReal (u - l))⁻¹ * volume (Set.Ico (l + k * ((u - l) / n)) (l + (k + 1) * ((u - l) / n)) ∩ s) := by
    intro k
    have e : ∀ t : ℝ, (t * (cut n (k + 1) - cut n k) + cut n k) * (u - l) + l =
        (l + k * ((u - l) / n)) + (u - l) / n * t := by
      intro t
      simp only [cut]
      push_cast
      field_simp
      ring
    rw [uniform_eq, sub_zero, ENNReal.ofReal_one, inv_one, one_smul, Measure.restrict_apply']
    · have e2 : {t | (t * (cut n (k + 1) - cut n k) + cut n k) * (u - l) + l ∈ s} ∩ Set.Ico 0 1 =
          (fun t => (u - l) / n * t) ⁻¹' ((fun t => (l + k * ((u - l) / n)) + t) ⁻¹'
            (Set.Ico (l + k * ((u - l) / n)) (l + (k + 1) * ((u - l) / n)) ∩ s)) := by
        ext t
        simp only [Set.mem_inter_iff, Set.mem_ofPred_eq, Set.mem_Ico, Set.mem_preimage, e]
        rw [and_comm]
        refine and_congr (and_congr ?_ ?_) Iff.rfl
        · constructor
          · intro h; have := mul_nonneg hw.le h; linarith
          · intro h; by_contra h'; have := mul_neg_of_pos_of_neg hw (not_le.1 h'); linarith
        · constructor
          · intro h; have := mul_lt_mul_of_pos_left h hw; linarith
          · intro h; by_contra h'; have := mul_le_mul_of_nonneg_left (not_lt.1 h') hw.le; linarith
      rw [e2, Real.volume_preimage_mul_left hw.ne', measure_preimage_add]
      congr 1
      rw [abs_of_pos (by positivity), inv_div, ENNReal.ofReal_div_of_pos (by linarith), ENNReal.ofReal_natCast]
      rfl
    · exact measurableSet_Ico
  rw [Fin.sum_univ_eq_sum_range fun k : ℕ =>
    uniform 0 1 {t | (t * (cut n (k + 1) - cut n k) + cut n k) * (u - l) + l ∈ s}, Finset.sum_congr rfl fun k _ => key k,
    ← Finset.mul_sum, sum_cells l _ hw.le hs, uniform_eq, Measure.smul_apply, Measure.restrict_apply' measurableSet_Ico,
    smul_eq_mul, mul_assoc, Set.inter_comm]
  rw [mul_div_cancel₀ _ hn'.ne', add_sub_cancel]

/-- Value of a point in a column. -/
noncomputable def columnValue (l u : ℝ) (i : Fin n) (c : Equiv.Perm (Fin n) × (Fin n → ℝ)) : ℝ :=
  (c.2 (c.1 i) * (cut n (c.1 i + 1) - cut n (c.1 i)) + cut n (c.1 i)) * (u - l) + l

theorem measurable_columnValue (l u : ℝ) (i : Fin n) : Measurable (columnValue l u i) := by
  refine measurable_from_prod_countable_right fun π => ?_
  show Measurable fun y : Fin n → ℝ => (y (π i) * (cut n (π i + 1) - cut n (π i)) + cut n (π i)) * (u - l) + l
  fun_prop

theorem column_law {l u : ℝ} (hlu : l < u) (i : Fin n) :
    ((uniformOn Set.univ).prod (Measure.pi fun _ : Fin n => uniform 0 1)).map (columnValue l u i) = uniform l u := by
  have hn : 0 < n := i.pos
  ext s hs
  rw [Measure.map_apply (measurable_columnValue l u i) hs, Measure.prod_apply (measurable_columnValue l u i hs),
    lintegral_perm]
  have key : ∀ π : Equiv.Perm (Fin n), (Measure.pi fun _ : Fin n => uniform 0 1) (Prod.mk π ⁻¹' (columnValue l u i ⁻¹' s)) =
      uniform 0 1 {t | (t * (cut n ((π i : ℕ) + 1) - cut n (π i)) + cut n (π i)) * (u - l) + l ∈ s} := by
    intro π
    have hm : MeasurableSet {t : ℝ | (t * (cut n ((π i : ℕ) + 1) - cut n (π i)) + cut n (π i)) * (u - l) + l ∈ s} := by
      refine (Measurable.comp (g := fun x => x) measurable_id ?_) hs
      fun_prop
    exact (measurePreserving_eval (fun _ : Fin n => uniform 0 1) (π i)).measure_preimage hm.nullMeasurableSet
  simp only [key]
  have h := sum_perm (fun k : Fin n =>
    uniform 0 1 {t | (t * (cut n ((k : ℕ) + 1) - cut n k) + cut n k) * (u - l) + l ∈ s}) i
  rw [mean_cells hlu hn hs] at h
  have h0 : (n : ENNReal) ≠ 0 := by exact_mod_cast hn.ne'
  have h1 : (n.factorial : ENNReal) ≠ 0 := by exact_mod_cast n.factorial_ne_zero
  rw [mul_left_comm, ENNReal.mul_right_inj h0 (ENNReal.natCast_ne_top n)] at h
  rw [h, ← mul_assoc, ENNReal.inv_mul_cancel h1 (ENNReal.natCast_ne_top _), one_mul]

theorem measurable_row (l u : Fin d → ℝ) (i : Fin n) :
    Measurable fun ω : Choices n d => sample l u (classic (toDraw ω)) i := by
  refine measurable_pi_lambda _ fun j => ?_
  exact (measurable_columnValue (l j) (u j) i).comp (measurable_pi_apply j)

/-- C147. Each point of a (classic) Latin hypercube is uniform in the box. -/
theorem C147_lhs_uniform (l u : Fin d → ℝ) (h : ∀ j, l j < u j) (i : Fin n) :
    (choicesLaw n d).map (fun ω => sample l u (classic (toDraw ω)) i) = uniformBox l u := by
  have := fun j => uniform_prob (h j)
  have e := Measure.pi_map_pi (μ := fun _ : Fin d => (uniformOn Set.univ).prod (Measure.pi fun _ : Fin n => uniform 0 1))
    (f := fun j => columnValue (l j) (u j) i) (hμ := fun j => by rw [column_law (h j)]; infer_instance)
    fun j => (measurable_columnValue (l j) (u j) i).aemeasurable
  simp only [column_law (h _)] at e
  exact e

/-- C147. The expected average over a Latin hypercube of any function is its mean over the box. -/
theorem C147_lhs_unbiased (l u : Fin d → ℝ) (h : ∀ j, l j < u j) (hn : 0 < n) (f : (Fin d → ℝ) → ℝ)
    (hf : Integrable f (uniformBox l u)) :
    ∫ ω, (∑ i, f (sample l u (classic (toDraw ω)) i)) / n ∂(choicesLaw n d) = ∫ x, f x ∂(uniformBox l u) := by
  have hi : ∀ i : Fin n, Integrable (fun ω => f (sample l u (classic (toDraw ω)) i)) (choicesLaw n d) := by
    intro i
    rw [← C147_lhs_uniform l u h i] at hf
    exact (integrable_map_measure hf.aestronglyMeasurable (measurable_row l u i).aemeasurable).1 hf
  have he : ∀ i : Fin n, ∫ ω, f (sample l u (classic (toDraw ω)) i) ∂(choicesLaw n d) = ∫ x, f x ∂(uniformBox l u) := by
    intro i
    rw [← C147_lhs_uniform l u h i] at hf ⊢
    exact (integral_map (measurable_row l u i).aemeasurable hf.aestronglyMeasurable).symm
  rw [integral_div, integral_finsetSum _ fun i _ => hi i, Finset.sum_congr rfl fun i _ => he i]
  have : (n : ℝ) ≠ 0 := by exact_mod_cast hn.ne'
  simp [this]

/-! ## Random sampling -/

theorem uniform_affine {l u : ℝ} (h : l < u) : (uniform 0 1).map (fun t => t * (u - l) + l) = uniform l u := by
  have hm : Measurable fun t : ℝ => t * (u - l) + l := by fun_prop
  ext s hs
  rw [Measure.map_apply hm hs]
  have := mean_cells (n := 1) h one_pos hs
  simp only [Finset.univ_unique, Fin.default_eq_zero, Fin.val_zero, Finset.sum_singleton, cut, Nat.cast_one, Nat.cast_zero,
    zero_add, sub_zero, div_one, mul_one, add_zero, one_mul] at this
  exact this

/-- C147. Random points are independent and uniform in the box. -/
theorem C147_random (l u : Fin d → ℝ) (h : ∀ j, l j < u j) :
    (Measure.pi fun _ : Fin n => Measure.pi fun _ : Fin d => uniform 0 1).map (fun rnd => sample l u (randomSample rnd)) =
      Measure.pi fun _ => uniformBox l u := by
  have := fun j => uniform_prob (h j)
  have hm : ∀ j, Measurable fun t : ℝ => t * (u j - l j) + l j := fun j => by fun_prop
  have e1 := Measure.pi_map_pi (μ := fun _ : Fin d => uniform 0 1) (f := fun j t => t * (u j - l j) + l j)
    (hμ := fun j => by rw [uniform_affine (h j)]; infer_instance) fun j => (hm j).aemeasurable
  simp only [uniform_affine (h _)] at e1
  have hrow : Measurable fun (x : Fin d → ℝ) (j : Fin d) => x j * (u j - l j) + l j := by fun_prop
  have e2 := Measure.pi_map_pi (μ := fun _ : Fin n => Measure.pi fun _ : Fin d => uniform 0 1)
    (f := fun _ (x : Fin d → ℝ) j => x j * (u j - l j) + l j)
    (hμ := fun i => by rw [e1]; infer_instance) fun i => hrow.aemeasurable
  simp only [e1] at e2
  exact e2

/-! ## Optimized Latin hypercubes -/

theorem eseInner_keeps (P : Design n d → Prop) (hP : ∀ x k i1 i2, P x → P (swapCell x k i1 i2)) {k : Fin d}
    {c : EseChoice n} {s : Ese n d} {m : ℕ × ℕ} {r : Ese n d × (ℕ × ℕ)} (h1 : P s.own) (h2 : P s.best)
    (h : eseInner 10 k c s m = .ok r) : P r.1.own ∧ P r.1.best := by
  unfold eseInner at h
  simp only [bind_ok] at h
  obtain ⟨kb, _, h⟩ := h
  split at h
  · simp at h
  · rename_i xT pT hget
    have hmem := List.mem_of_getElem? hget
    rw [List.mem_map] at hmem
    obtain ⟨q, _, hq⟩ := hmem
    have hx : P xT := by
      have : (phipSwap 10 s.own k s.phip q.1.1 q.1.2).1 = xT := congrArg Prod.fst hq
      rw [phipSwap_fst] at this
      rw [← this]
      exact hP _ _ _ _ h1
    split_ifs at h <;> simp only [Except.ok.injEq] at h <;> subst h
    · exact ⟨hx, hx⟩
    · exact ⟨hx, h2⟩
    · exact ⟨h1, h2⟩

theorem eseInnerLoop_keeps (P : Design n d → Prop) (hP : ∀ x k i1 i2, P x → P (swapCell x k i1 i2)) {hx : 0 < d}
    (cs : List (EseChoice n)) : ∀ {i : ℕ} {s : Ese n d} {m : ℕ × ℕ} {r : Ese n d × (ℕ × ℕ)}, P s.own → P s.best →
    eseInnerLoop 10 hx i s m cs = .ok r → P r.1.own ∧ P r.1.best := by
  induction cs with
  | nil =>
    intro i s m r h1 h2 h
    simp only [eseInnerLoop, Except.ok.injEq] at h
    subst h; exact ⟨h1, h2⟩
  | cons c cs ih =>
    intro i s m r h1 h2 h
    simp only [eseInnerLoop, bind_ok] at h
    obtain ⟨a, ha, h⟩ := h
    obtain ⟨h3, h4⟩ := eseInner_keeps P hP h1 h2 ha
    exact ih h3 h4 h

theorem eseOuterLoop_keeps (P : Design n d → Prop) (hP : ∀ x k i1 i2, P x → P (swapCell x k i1 i2)) {hx : 0 < d}
    (css : List (List (EseChoice n))) : ∀ {s s' : Ese n d}, P s.own → P s.best →
    eseOuterLoop 10 hx s css = .ok s' → P s'.own ∧ P s'.best := by
  induction css with
  | nil =>
    intro s s' h1 h2 h
    simp only [eseOuterLoop, Except.ok.injEq] at h
    subst h; exact ⟨h1, h2⟩
  | cons cs css ih =>
    intro s s' h1 h2 h
    simp only [eseOuterLoop, bind_ok] at h
    obtain ⟨a, ha, h⟩ := h
    obtain ⟨h3, h4⟩ := eseInnerLoop_keeps P hP cs h1 h2 ha
    exact ih (s := { a.1 with t := eseTemp cs.length a.1 a.2 }) h3 h4 h

theorem optimized_column_sum (dr : Draw n d) (css : List (List (EseChoice n))) (x : Design n d)
    (h : lhsSample (.optimized dr css) = .ok x) (g : ℝ → ℝ) (j : Fin d) :
    ∑ i, g (x i j) = ∑ i, g (classic dr i j) := by
  have hx : 0 < d := j.pos
  simp only [lhsSample, hx, dif_pos, bind_ok, Except.ok.injEq] at h
  obtain ⟨s, hs, rfl⟩ := h
  refine (eseOuterLoop_keeps (fun y => ∑ i, g (y i j) = ∑ i, g (classic dr i j)) ?_ css rfl rfl hs).2
  intro y k i1 i2 hy
  rw [← hy]
  unfold swapCell
  by_cases hk : j = k
  · simp only [hk, if_true]
    exact Equiv.sum_comp (Equiv.swap i1 i2) fun i => g (y i k)
  · simp only [if_neg hk]

theorem column_mean (l u : Fin d → ℝ) (h : ∀ j, l j < u j) (hn : 0 < n) (j : Fin d) (g : ℝ → ℝ)
    (hg : Integrable g (uniform (l j) (u j))) :
    ∫ ω, (∑ i, g (sample l u (classic (toDraw ω)) i j)) / n ∂(choicesLaw n d) = ∫ x, g x ∂(uniform (l j) (u j)) := by
  have := fun j => uniform_prob (h j)
  have hmp := measurePreserving_eval (fun j => uniform (l j) (u j)) j
  rw [← hmp.map_eq] at hg ⊢
  rw [integral_map (measurable_pi_apply j).aemeasurable hg.aestronglyMeasurable]
  exact C147_lhs_unbiased l u h hn (fun x => g (x j))
    ((integrable_map_measure hg.aestronglyMeasurable (measurable_pi_apply j).aemeasurable).1 hg)

/-- C147. With the optimized (default) Latin hypercube, the expected average of a function of one variable is its mean,
whatever the exchanges made by the optimization. -/
theorem C147_optimized_unbiased_partial (l u : Fin d → ℝ) (h : ∀ j, l j < u j) (hn : 0 < n) (j : Fin d) (g : ℝ → ℝ)
    (hg : Integrable g (uniform (l j) (u j))) (css : Choices n d → List (List (EseChoice n))) (X : Choices n d → Design n d)
    (hX : ∀ ω, lhsSample (.optimized (toDraw ω) (css ω)) = .ok (X ω)) :
    ∫ ω, (∑ i, g (sample l u (X ω) i j)) / n ∂(choicesLaw n d) = ∫ x, g x ∂(uniform (l j) (u j)) := by
  rw [← column_mean l u h hn j g hg]
  refine integral_congr_ae (Filter.Eventually.of_forall fun ω => ?_)
  simp only [sample]
  rw [optimized_column_sum _ _ _ (hX ω) (fun v => g (v * (u j - l j) + l j)) j]

/-! ## Accuracy of all Latin hypercubes -/

theorem integral_abs_sub_le {a b y : ℝ} (h1 : a ≤ y) (h2 : y ≤ b) : ∫ t in a..b, |y - t| ≤ (b - a) ^ 2 / 2 := by
  have hc : ∀ p q : ℝ, IntervalIntegrable (fun t => |y - t|) volume p q := fun p q =>
    (by fun_prop : Continuous fun t : ℝ => |y - t|).intervalIntegrable p q
  rw [← intervalIntegral.integral_add_adjacent_intervals (hc a y) (hc y b)]
  have e1 : ∫ t in a..y, |y - t| = ∫ t in a..y, (y - t) := by
    refine intervalIntegral.integral_congr fun t ht => ?_
    rw [Set.uIcc_of_le h1] at ht
    exact abs_of_nonneg (by linarith [ht.2])
  have e2 : ∫ t in y..b, |y - t| = ∫ t in y..b, (t - y) := by
    refine intervalIntegral.integral_congr fun t ht => ?_
    rw [Set.uIcc_of_le h2] at ht
    show |y - t| = t - y
    rw [abs_of_nonpos (by linarith [ht.1])]
    ring
  have hi : ∀ p q : ℝ, IntervalIntegrable (fun t : ℝ => t) volume p q := fun p q => continuous_id.intervalIntegrable p q
  rw [e1, e2, intervalIntegral.integral_sub (by simp) (hi _ _), intervalIntegral.integral_sub (hi _ _) (by simp)]
  simp only [intervalIntegral.integral_const, integral_id, smul_eq_mul]
  nlinarith [mul_nonneg (sub_nonneg.2 h1) (sub_nonneg.2 h2)]

theorem cell_error {a b y L : ℝ} (h1 : a ≤ y) (h2 : y ≤ b) (g : ℝ → ℝ) (hc : Continuous g)
    (hg : ∀ s t, |g s - g t| ≤ L * |s - t|) : |(b - a) * g y - ∫ t in a..b, g t| ≤ L * ((b - a) ^ 2 / 2) := by
  have hL : 0 ≤ L := by
    have := (abs_nonneg _).trans (hg 1 0)
    simpa using this
  have e : (b - a) * g y - ∫ t in a..b, g t = ∫ t in a..b, (g y - g t) := by
    rw [intervalIntegral.integral_sub (by simp) (hc.intervalIntegrable a b)]
    simp
  rw [e]
  calc |∫ t in a..b, (g y - g t)| ≤ ∫ t in a..b, |g y - g t| := intervalIntegral.abs_integral_le_integral_abs (h1.trans h2)
    _ ≤ ∫ t in a..b, L * |y - t| :=
      intervalIntegral.integral_mono (h1.trans h2)
        ((by fun_prop : Continuous fun t => |g y - g t|).intervalIntegrable a b)
        ((by fun_prop : Continuous fun t => L * |y - t|).intervalIntegrable a b) fun t => hg y t
    _ = L * ∫ t in a..b, |y - t| := intervalIntegral.integral_const_mul _ _
    _ ≤ L * ((b - a) ^ 2 / 2) := mul_le_mul_of_nonneg_left (integral_abs_sub_le h1 h2) hL

theorem latin_error (x : Design n d) (hx : Spec.Latin x) (hn : 0 < n) (j : Fin d) (g : ℝ → ℝ) (L : ℝ)
    (hg : ∀ s t, |g s - g t| ≤ L * |s - t|) : |(∑ i, g (x i j)) / n - ∫ t in (0 : ℝ)..1, g t| ≤ L / (2 * n) := by
  have hn' : (0 : ℝ) < n := by exact_mod_cast hn
  have hL : 0 ≤ L := by
    have := (abs_nonneg _).trans (hg 1 0)
    simpa using this
  have hc : Continuous g := by
    refine (LipschitzWith.of_dist_le_mul (K := L.toNNReal) fun s t => ?_).continuous
    rw [Real.coe_toNNReal L hL]
    exact hg s t
  choose σ hσ using fun k => (hx j k).exists
  have hinj : Function.Injective σ := by
    intro k k' hk
    have h1 := hσ k
    have h2 := hσ k'
    rw [← hk] at h2
    have a1 := lt_of_le_of_lt h1.1 h2.2
    have a2 := lt_of_le_of_lt h2.1 h1.2
    rw [div_lt_div_iff_of_pos_right hn'] at a1 a2
    have b1 : (k : ℕ) < k' + 1 := by exact_mod_cast a1
    have b2 : (k' : ℕ) < k + 1 := by exact_mod_cast a2
    exact Fin.ext (by omega)
  have hbij := Finite.injective_iff_bijective.1 hinj
  have hsum : ∑ i, g (x i j) = ∑ k, g (x (σ k) j) := (Equiv.sum_comp (Equiv.ofBijective σ hbij) fun i => g (x i j)).symm
  have hint : ∫ t in (0 : ℝ)..1, g t = ∑ k : Fin n, ∫ t in ((k : ℝ) / n)..(((k : ℝ) + 1) / n), g t := by
    have := intervalIntegral.sum_integral_adjacent_intervals (f := g) (μ := volume) (n := n) (a := fun k : ℕ => (k : ℝ) / n)
      fun k _ => hc.intervalIntegrable _ _
    simp only [Nat.cast_zero, zero_div, div_self hn'.ne', Nat.cast_add, Nat.cast_one] at this
    rw [← this, Fin.sum_univ_eq_sum_range fun k : ℕ => ∫ t in ((k : ℝ) / n)..(((k : ℝ) + 1) / n), g t]
  rw [hsum, hint, Finset.sum_div, ← Finset.sum_sub_distrib]
  calc |∑ k : Fin n, (g (x (σ k) j) / n - ∫ t in ((k : ℝ) / n)..(((k : ℝ) + 1) / n), g t)|
      ≤ ∑ k : Fin n, |g (x (σ k) j) / n - ∫ t in ((k : ℝ) / n)..(((k : ℝ) + 1) / n), g t| := Finset.abs_sum_le_sum_abs _ _
    _ ≤ ∑ _k : Fin n, L * ((1 / (n : ℝ)) ^ 2 / 2) := by
      refine Finset.sum_le_sum fun k _ => ?_
      have := cell_error (hσ k).1 (hσ k).2.le g hc hg
      rw [show ((k : ℝ) + 1) / n - (k : ℝ) / n = 1 / n by ring, one_div_mul_eq_div] at this
      exact this
    _ = L / (2 * n) := by
      simp only [Finset.sum_const, Finset.card_univ, Fintype.card_fin, nsmul_eq_mul]
      field_simp

/-- C147. With Latin hypercubes of all kinds, for all random choices, the average of a function of one variable is
close to its mean: the error is at most half of its variation over a stratum, for `L`-Lipschitz functions. -/
theorem C147_lhs_accuracy (call : LhsCall n d) (hu : UniformCall call) (x : Design n d) (hx : lhsSample call = .ok x)
    (l u : Fin d → ℝ) (j : Fin d) (h : l j < u j) (hn : 0 < n) (g : ℝ → ℝ) (L : ℝ)
    (hg : ∀ s t, |g s - g t| ≤ L * |s - t|) :
    |(∑ i, g (sample l u x i j)) / n - ⨍ t in (l j)..(u j), g t| ≤ L * (u j - l j) / (2 * n) := by
  have hw : 0 < u j - l j := by linarith
  have := latin_error x (C02_latin_partial call hu x hx) hn j (fun t => g (t * (u j - l j) + l j)) (L * (u j - l j)) (by
    intro s t
    refine (hg _ _).trans (le_of_eq ?_)
    rw [show s * (u j - l j) + l j - (t * (u j - l j) + l j) = (u j - l j) * (s - t) by ring, abs_mul, abs_of_pos hw,
      mul_assoc])
  simp only [mul_comm _ (u j - l j)] at this
  rw [intervalIntegral.integral_comp_mul_add (f := g) hw.ne'] at this
  rw [interval_average_eq]
  simpa [sample, mul_comm] using this

/-! ## Centered Latin hypercubes -/

theorem reshuffle_order (c : Fin n → ℝ) (sh : ℕ → Equiv.Perm (Fin n)) (j : ℕ) :
    ∃ π : Equiv.Perm (Fin n), ∀ i, reshuffle c sh j i = c (π i) := by
  induction j with
  | zero => exact ⟨sh 0, fun _ => rfl⟩
  | succ j ih =>
    obtain ⟨π, hπ⟩ := ih
    exact ⟨π * sh (j + 1), fun i => by simp only [reshuffle, hπ, Equiv.Perm.mul_apply]⟩

theorem centered_sum (sh : ℕ → Equiv.Perm (Fin n)) (j : Fin d) (g : ℝ → ℝ) :
    ∑ i, g ((centered sh : Design n d) i j) = ∑ k ∈ Finset.range n, g ((2 * k + 1) / (2 * n)) := by
  obtain ⟨π, hπ⟩ := reshuffle_order (fun k : Fin n => (cut n k + cut n (k + 1)) / 2) sh j
  simp only [centered, hπ]
  rw [Equiv.sum_comp π fun k : Fin n => g ((cut n k + cut n (k + 1)) / 2),
    Fin.sum_univ_eq_sum_range fun k : ℕ => g ((cut n k + cut n (k + 1)) / 2)]
  refine Finset.sum_congr rfl fun k _ => ?_
  congr 1
  simp only [cut, Nat.cast_add, Nat.cast_one]
  rw [← add_div, div_div, mul_comm (n : ℝ) 2]
  congr 1
  ring

/-- C147. The average of each coordinate over a centered Latin hypercube is the middle of its bounds. -/
theorem C147_centered_middle_partial (sh : ℕ → Equiv.Perm (Fin n)) (hn : 0 < n) (l u : Fin d → ℝ) (j : Fin d) :
    (∑ i, sample l u (centered sh : Design n d) i j) / n = (l j + u j) / 2 := by
  have hn' : (n : ℝ) ≠ 0 := by exact_mod_cast hn.ne'
  have h1 : ∀ m : ℕ, ∑ k ∈ Finset.range m, (2 * (k : ℝ) + 1) = (m : ℝ) ^ 2 := by
    intro m
    induction m with
    | zero => simp
    | succ m ih => rw [Finset.sum_range_succ, ih]; push_cast; ring
  have := centered_sum sh j fun v => v * (u j - l j) + l j
  simp only [sample]
  rw [this, Finset.sum_add_distrib, ← Finset.sum_mul, ← Finset.sum_div, h1]
  simp only [Finset.sum_const, Finset.card_range, nsmul_eq_mul]
  field_simp
  ring

/-- C147, refuted. Averages over centered Latin hypercubes are biased: the average of squares is always short of
`1 / 3` by `1 / (12 n²)`, for all random choices. -/
theorem C147_refuted_centered (sh : ℕ → Equiv.Perm (Fin n)) (hn : 0 < n) (j : Fin d) :
    (∑ i, (centered sh : Design n d) i j ^ 2) / n = 1 / 3 - 1 / (12 * n ^ 2) ∧ ∫ t in (0 : ℝ)..1, t ^ 2 = 1 / 3 := by
  have hn' : (n : ℝ) ≠ 0 := by exact_mod_cast hn.ne'
  constructor
  · have h1 : ∀ m : ℕ, ∑ k ∈ Finset.range m, (2 * (k : ℝ) + 1) ^ 2 = (4 * (m : ℝ) ^ 3 - m) / 3 := by
      intro m
      induction m with
      | zero => simp
      | succ m ih => rw [Finset.sum_range_succ, ih]; push_cast; ring
    rw [centered_sum sh j fun v => v ^ 2]
    simp only [div_pow]
    rw [← Finset.sum_div, h1]
    field_simp
    ring
  · rw [integral_pow]; norm_num

/-! ## Maximin Latin hypercubes -/

theorem latin_two {x : Design 2 1} (h : Spec.Latin x) :
    |x 0 0 - 1 / 2| + |x 1 0 - 1 / 2| = |x 0 0 - x 1 0| ∧ |x 0 0 - x 1 0| ≤ 1 := by
  obtain ⟨i, hi, hi'⟩ := h 0 0
  obtain ⟨k, hk, _⟩ := h 0 1
  norm_num at hi hk
  have key : ∀ a b : ℝ, (0 ≤ a ∧ a < 1 / 2) → (1 / 2 ≤ b ∧ b < 1) →
      (|a - 1 / 2| + |b - 1 / 2| = |a - b| ∧ |a - b| ≤ 1) := by
    intro a b ha hb
    rw [abs_of_neg (by linarith : a - 1 / 2 < 0), abs_of_nonneg (by linarith : 0 ≤ b - 1 / 2),
      abs_of_neg (by linarith : a - b < 0)]
    constructor <;> linarith
  have h01 : ∀ q : Fin 2, q = 0 ∨ q = 1 := by decide
  rcases h01 i with rfl | rfl <;> rcases h01 k with rfl | rfl
  · linarith [hi.2, hk.1]
  · exact key _ _ hi hk
  · rw [add_comm, abs_sub_comm (x 0 0) (x 1 0)]
    exact key _ _ hi hk
  · linarith [hi.2, hk.1]

/-- All numbers drawn are between 0 and 1. -/
def InRange (c : Choices n d) : Prop := ∀ i j, 0 ≤ (toDraw c).rnd i j ∧ (toDraw c).rnd i j < 1

theorem ae_inRange (n d : ℕ) : ∀ᵐ c ∂(choicesLaw n d), InRange c := by
  unfold InRange
  rw [ae_all_iff]; intro i
  rw [ae_all_iff]; intro j
  have h0 : ∀ᵐ t ∂(uniform 0 1), 0 ≤ t ∧ t < 1 := ae_cond_mem measurableSet_Ico
  have h1 := (measurePreserving_eval (fun _ : Fin n => uniform 0 1) i).quasiMeasurePreserving.ae h0
  have h2 := (measurePreserving_snd (μ := uniformOn (Set.univ : Set (Equiv.Perm (Fin n))))
    (ν := Measure.pi fun _ : Fin n => uniform 0 1)).quasiMeasurePreserving.ae h1
  exact (measurePreserving_eval (fun _ : Fin d => (uniformOn (Set.univ : Set (Equiv.Perm (Fin n)))).prod
    (Measure.pi fun _ : Fin n => uniform 0 1)) j).quasiMeasurePreserving.ae h2

/-- Distance between the two points. -/
noncomputable def gap (x : Design 2 1) : ℝ := |x 0 0 - x 1 0|

theorem euclid_gap (x : Design 2 1) : Spec.euclid (x 0) (x 1) = gap x := by
  simp [Spec.euclid, gap, Real.sqrt_sq_eq_abs]

theorem isMinDist_gap {x : Design 2 1} {m : ℝ} (h : Spec.IsMinDist x m) : m = gap x := by
  obtain ⟨⟨i, j, hij, hm⟩, _⟩ := h
  have : i = 0 ∧ j = 1 := by
    revert hij
    have : ∀ i j : Fin 2, i < j → i = 0 ∧ j = 1 := by decide
    exact this i j
  rw [hm, this.1, this.2, euclid_gap]

theorem measurable_gap : Measurable fun c : Choices 2 1 => gap (classic (toDraw c)) := by
  have h := measurable_row (n := 2) (d := 1) (fun _ => 0) fun _ => 1
  have := fun i => (measurable_pi_apply (0 : Fin 1)).comp (h i)
  simp only [Function.comp_def, sample, sub_zero, mul_one, add_zero] at this
  exact continuous_abs.measurable.comp ((this 0).sub (this 1))

/-- The two points are far apart when the first stratum has a small number and the second one a large number. -/
theorem gap_classic (c : Choices 2 1) (hc : InRange c) : gap (classic (toDraw c)) = 1 / 2 + ((c 0).2 1 - (c 0).2 0) / 2 := by
  have h0 := hc 0 0
  have h1 := hc 1 0
  simp only [toDraw] at h0 h1
  have h01 : ∀ q : Equiv.Perm (Fin 2), (q 0 = 0 ∧ q 1 = 1) ∨ (q 0 = 1 ∧ q 1 = 0) := by decide
  unfold gap classic toDraw
  rcases h01 (c 0).1 with ⟨e0, e1⟩ | ⟨e0, e1⟩ <;> simp only [e0, e1, cut] <;> norm_num
  · rw [abs_of_nonpos (by linarith)]; linarith
  · rw [abs_of_nonneg (by linarith)]; linarith

/-- C147, refuted. Averages over maximin Latin hypercubes are biased: for two points in one dimension and any number
of draws (at least 2, there are 6 in the code), the expected average of the distance to the middle is larger than its
mean. -/
theorem C147_refuted_maximin (m : ℕ) (X : (Fin (m + 2) → Choices 2 1) → Design 2 1)
    (hX : ∀ ω, lhsSample (.maximin (toDraw (ω 0)) (List.ofFn fun k : Fin (m + 1) => toDraw (ω k.succ))) = .ok (X ω)) :
    ∫ t, |t - 1 / 2| ∂(uniform 0 1) <
      ∫ ω, (∑ i, |X ω i 0 - 1 / 2|) / 2 ∂(Measure.pi fun _ : Fin (m + 2) => choicesLaw 2 1) := by
  set μ := Measure.pi fun _ : Fin (m + 2) => choicesLaw 2 1 with hμ
  have hmp : ∀ k, MeasurePreserving (Function.eval k) μ (choicesLaw 2 1) :=
    measurePreserving_eval fun _ : Fin (m + 2) => choicesLaw 2 1
  have hae : ∀ᵐ ω ∂μ, ∀ k, InRange (ω k) := by
    rw [ae_all_iff]
    exact fun k => (hmp k).quasiMeasurePreserving.ae (ae_inRange 2 1)
  -- the mean is the expected distance between the points of a draw
  have hgi : Integrable (fun t : ℝ => |t - 1 / 2|) (uniform 0 1) := by
    rw [uniform_eq, sub_zero, ENNReal.ofReal_one, inv_one, one_smul]
    exact (by fun_prop : Continuous fun t : ℝ => |t - 1 / 2|).integrableOn_Icc.mono_set Set.Ico_subset_Icc_self
  have hlat : ∀ c : Choices 2 1, InRange c → Spec.Latin (classic (toDraw c)) := fun c hc =>
    C02_latin_partial (.classic (toDraw c)) hc _ rfl
  have hmean : ∫ t, |t - 1 / 2| ∂(uniform 0 1) = ∫ ω, gap (classic (toDraw (ω 0))) / 2 ∂μ := by
    have h1 := column_mean (n := 2) (d := 1) (fun _ => 0) (fun _ => 1) (fun _ => one_pos) two_pos 0 (fun t => |t - 1 / 2|) hgi
    rw [← h1, ← (hmp 0).map_eq]
    rw [integral_map (measurable_pi_apply _).aemeasurable]
    · refine integral_congr_ae ?_
      filter_upwards [hae] with ω hω
      have := (latin_two (hlat _ (hω 0))).1
      simp only [sample, sub_zero, mul_one, add_zero, Fin.sum_univ_two]
      rw [this]
      norm_num [gap]
    · have h := measurable_row (n := 2) (d := 1) (fun _ => 0) fun _ => 1
      have h' := fun i => (measurable_pi_apply (0 : Fin 1)).comp (h i)
      have h'' : Measurable fun c : Choices 2 1 =>
          ∑ i, |sample (fun _ => 0) (fun _ => 1) (classic (toDraw c)) i 0 - 1 / 2| :=
        Finset.measurable_sum _ fun i _ => continuous_abs.measurable.comp ((h' i).sub_const _)
      exact (h''.div_const _).aestronglyMeasurable
  -- the average is the largest distance
  let G : (Fin (m + 2) → Choices 2 1) → ℝ := Finset.univ.sup' Finset.univ_nonempty fun k ω => gap (classic (toDraw (ω k)))
  have hG : Measurable G := Finset.measurable_sup' _ fun k _ => measurable_gap.comp (measurable_pi_apply k)
  have hGk : ∀ ω k, gap (classic (toDraw (ω k))) ≤ G ω := by
    intro ω k
    simp only [G]
    rw [Finset.sup'_apply]
    exact Finset.le_sup' (fun k => gap (classic (toDraw (ω k)))) (Finset.mem_univ k)
  have hXG : ∀ ω, (∀ k, InRange (ω k)) → ∑ i, |X ω i 0 - 1 / 2| = G ω ∧ G ω ≤ 1 := by
    intro ω hω
    have hmem : ∀ e, e ∈ toDraw (ω 0) :: List.ofFn (fun k : Fin (m + 1) => toDraw (ω k.succ)) ↔ ∃ k, e = toDraw (ω k) := by
      intro e
      rw [List.mem_cons, List.mem_ofFn', Set.mem_range]
      constructor
      · rintro (h | ⟨k, h⟩)
        · exact ⟨0, h⟩
        · exact ⟨k.succ, h.symm⟩
      · rintro ⟨k, h⟩
        refine Fin.cases (fun h => Or.inl h) (fun k h => Or.inr ⟨k, h.symm⟩) k h
    have hlx : Spec.Latin (X ω) := by
      refine C02_latin_partial _ ?_ _ (hX ω)
      intro e he
      obtain ⟨k, rfl⟩ := (hmem e).1 he
      exact hω k
    have hb := hX ω
    simp only [lhsSample] at hb
    obtain ⟨k, hk, hxk, M, hM, hall, _⟩ := C05_maximin_keeps_best _ _ _ hb
    have hxm : X ω ∈ (toDraw (ω 0) :: List.ofFn (fun k : Fin (m + 1) => toDraw (ω k.succ))).map classic := by
      rw [hxk]; exact List.getElem_mem (l := (toDraw (ω 0) :: _).map classic) _
    obtain ⟨e, he, hex⟩ := List.mem_map.1 hxm
    obtain ⟨q, rfl⟩ := (hmem e).1 he
    have hmax : ∀ k, gap (classic (toDraw (ω k))) ≤ gap (X ω) := by
      intro k
      have hd : classic (toDraw (ω k)) ∈
          (toDraw (ω 0) :: List.ofFn (fun k : Fin (m + 1) => toDraw (ω k.succ))).map classic :=
        List.mem_map.2 ⟨_, (hmem _).2 ⟨k, rfl⟩, rfl⟩
      obtain ⟨md, hmd, hle⟩ := hall _ (by simpa using hd)
      rw [isMinDist_gap hmd, isMinDist_gap hM] at hle
      exact hle
    have hGX : G ω = gap (X ω) := by
      refine le_antisymm ?_ (hex ▸ hGk ω q)
      simp only [G]
      rw [Finset.sup'_apply]
      exact Finset.sup'_le _ _ fun k _ => hmax k
    rw [hGX, Fin.sum_univ_two]
    exact latin_two hlx
  have hright : ∫ ω, (∑ i, |X ω i 0 - 1 / 2|) / 2 ∂μ = ∫ ω, G ω / 2 ∂μ := by
    refine integral_congr_ae ?_
    filter_upwards [hae] with ω hω
    simp only [(hXG ω hω).1]
  rw [hmean, hright, ← sub_pos]
  have hg0 : ∀ x : Design 2 1, 0 ≤ gap x := fun x => abs_nonneg _
  have hi1 : Integrable (fun ω => G ω / 2) μ := by
    refine Integrable.of_bound (hG.div_const _).aestronglyMeasurable 1 ?_
    filter_upwards [hae] with ω hω
    have h1 := (hXG ω hω).2
    have h2 := (hg0 _).trans (hGk ω 0)
    rw [Real.norm_eq_abs, abs_of_nonneg (by linarith)]
    linarith
  have hi0 : Integrable (fun ω : Fin (m + 2) → Choices 2 1 => gap (classic (toDraw (ω 0))) / 2) μ := by
    refine Integrable.of_bound ((measurable_gap.comp (measurable_pi_apply 0)).div_const _).aestronglyMeasurable 1 ?_
    filter_upwards [hae] with ω hω
    have h1 := (hXG ω hω).2
    have h2 := hGk ω 0
    have h3 := hg0 (classic (toDraw (ω 0)))
    rw [Real.norm_eq_abs, abs_of_nonneg (by linarith)]
    linarith
  rw [← integral_sub hi1 hi0, integral_pos_iff_support_of_nonneg_ae]
  · -- draws where the second design is better than the first one
    let T : Fin (m + 2) → Fin 2 → Set ℝ := fun k i =>
      if k = 0 then (if i = 0 then Set.Ico (1 / 2) 1 else Set.Ico 0 (1 / 2))
      else (if i = 0 then Set.Ico 0 (1 / 2) else Set.Ico (1 / 2) 1)
    let S : Set (Fin (m + 2) → Choices 2 1) :=
      Set.univ.pi fun k => Set.univ.pi fun _ => Set.univ ×ˢ Set.univ.pi (T k)
    have hsub : S ⊆ Function.support fun ω => G ω / 2 - gap (classic (toDraw (ω 0))) / 2 := by
      intro ω hω
      have hT : ∀ k i, ((ω k) 0).2 i ∈ T k i := fun k i => (hω k trivial 0 trivial).2 i trivial
      have hr : ∀ k, InRange (ω k) := by
        intro k i j
        have hj : j = 0 := Subsingleton.elim _ _
        subst hj
        have := hT k i
        simp only [T] at this
        simp only [toDraw]
        split_ifs at this <;> constructor <;> linarith [this.1, this.2]
      have a0 := hT 0 0
      have a1 := hT 0 1
      have b0 := hT 1 0
      have b1 := hT 1 1
      have h10 : (1 : Fin (m + 2)) ≠ 0 := by simp
      simp only [T, if_true, if_neg h10, Fin.one_eq_zero_iff, Set.mem_Ico] at a0 a1 b0 b1
      norm_num at a0 a1 b0 b1
      have g0 := gap_classic (ω 0) (hr 0)
      have g1 := gap_classic (ω 1) (hr 1)
      have := hGk ω 1
      simp only [Function.mem_support, ne_eq]
      intro hz
      linarith [a0.1, a1.2, b0.2, b1.1]
    refine lt_of_lt_of_le ?_ (measure_mono hsub)
    have hu : ∀ a b : ℝ, 0 ≤ a → a < b → b ≤ 1 → uniform 0 1 (Set.Ico a b) ≠ 0 := by
      intro a b ha hab hb
      rw [uniform_eq, sub_zero, ENNReal.ofReal_one, inv_one, one_smul, Measure.restrict_apply measurableSet_Ico,
        Set.inter_eq_left.2 (Set.Ico_subset_Ico ha hb), Real.volume_Ico]
      simpa using hab
    rw [pos_iff_ne_zero]
    simp only [S, hμ, choicesLaw, Measure.pi_pi, Measure.prod_prod, measure_univ, one_mul]
    refine Finset.prod_ne_zero_iff.2 fun k _ => Finset.prod_ne_zero_iff.2 fun _ _ => Finset.prod_ne_zero_iff.2 fun i _ => ?_
    simp only [T]
    split_ifs <;> apply hu <;> norm_num
  · filter_upwards with ω
    have := hGk ω 0
    simp only [Pi.zero_apply]
    linarith
  · exact hi1.sub hi0

/-! ## Cases -/

/-- Case of `C147_lhs_unbiased` and of `C147_optimized_unbiased_partial`: the mean of a coordinate between 5 and 10. -/
example (css : Choices 4 2 → List (List (EseChoice 4))) (X : Choices 4 2 → Design 4 2)
    (hX : ∀ ω, lhsSample (.optimized (toDraw ω) (css ω)) = .ok (X ω)) :
    ∫ ω, (∑ i, sample (fun _ => 5) (fun _ => 10) (X ω) i 1) / (4 : ℕ) ∂(choicesLaw 4 2) = ∫ t, t ∂(uniform 5 10) := by
  refine C147_optimized_unbiased_partial (fun _ => 5) (fun _ => 10)
    (fun _ => by show (5 : ℝ) < 10; norm_num) (by norm_num) 1 (fun t => t) ?_
    css X hX
  rw [uniform_eq]
  refine Integrable.smul_measure ?_ (by norm_num)
  exact (continuous_id.integrableOn_Icc (a := (5 : ℝ)) (b := 10)).mono_set Set.Ico_subset_Icc_self

/-- Case of `C147_optimized_unbiased_partial`: calls which return, whose exchanges depend on the draw. -/
example : ∃ (css : Choices 4 2 → List (List (EseChoice 4))) (X : Choices 4 2 → Design 4 2),
    ∀ ω, lhsSample (.optimized (toDraw ω) (css ω)) = .ok (X ω) ∧ css ω ≠ [] := by
  let css : Choices 4 2 → List (List (EseChoice 4)) := fun ω =>
    [[⟨[⟨(0, if (ω 0).1 0 = 0 then 1 else 2), by split_ifs <;> decide⟩], 1 / 2⟩]]
  have h : ∀ ω, ∃ x, lhsSample (.optimized (toDraw ω) (css ω)) = .ok x := fun ω =>
    C02_returns_partial (by norm_num) (.optimized (toDraw ω) (css ω)) (by simp [HasCandidates, css])
  choose X hX using h
  exact ⟨css, X, fun ω => ⟨hX ω, by simp [css]⟩⟩

/-- Case of `C147_refuted_maximin`: calls always return. -/
example (m : ℕ) : ∃ X : (Fin (m + 2) → Choices 2 1) → Design 2 1, ∀ ω,
    lhsSample (.maximin (toDraw (ω 0)) (List.ofFn fun k : Fin (m + 1) => toDraw (ω k.succ))) = .ok (X ω) := by
  have h : ∀ ω : Fin (m + 2) → Choices 2 1, ∃ x,
      lhsSample (.maximin (toDraw (ω 0)) (List.ofFn fun k : Fin (m + 1) => toDraw (ω k.succ))) = .ok x := fun ω =>
    C02_returns_partial (by norm_num) _ trivial
  choose X hX using h
  exact ⟨X, hX⟩

/-- Case of `C147_lhs_accuracy`: the average of a coordinate of a design of 4 points. -/
example : |(∑ i, sample (fun _ => 5) (fun _ => 10) (classic exDraw) i 0) / (4 : ℕ) - ⨍ t in (5 : ℝ)..10, t| ≤
    1 * (10 - 5) / (2 * (4 : ℕ)) :=
  C147_lhs_accuracy (.classic exDraw) exDraw_uniform _ rfl (fun _ => 5) (fun _ => 10) 0 (by norm_num) (by norm_num)
    (fun t => t) 1 fun s t => by simp

end Verif.Props
