import Verif.Model.Doe
import Verif.Spec.Doe
import Verif.Lemmas.Run
import Verif.Lemmas.MixInt
import Mathlib.Algebra.BigOperators.Ring.Finset
import Mathlib.Tactic.Linarith
import Mathlib.Tactic.FieldSimp
import Mathlib.Tactic.Ring
import Mathlib.Tactic.Positivity

/-!
# Lemmas on the sampling methods
-/

set_option autoImplicit false

namespace Verif.Doe

open Verif Finset

variable {ns nx : ℕ}

/-! ## Strata -/

/-- A column built from one value per stratum by a permutation of the rows. -/
theorem latin_of_strata (x : Design ns nx) (σ : Fin nx → Equiv.Perm (Fin ns))
    (h : ∀ i j, ((σ j i : ℕ) : ℝ) / ns ≤ x i j ∧ x i j < ((σ j i : ℕ) + 1 : ℝ) / ns) : Spec.Latin x := by
  intro j k
  have hns : (0 : ℝ) < ns := by exact_mod_cast Fin.pos k
  refine ⟨(σ j).symm k, ?_, ?_⟩
  · have := h ((σ j).symm k) j
    simpa using this
  · intro i hi
    have h1 := h i j
    have a1 : ((σ j i : ℕ) : ℝ) / ns < ((k : ℕ) + 1 : ℝ) / ns := lt_of_le_of_lt h1.1 hi.2
    have a2 : ((k : ℕ) : ℝ) / ns < ((σ j i : ℕ) + 1 : ℝ) / ns := lt_of_le_of_lt hi.1 h1.2
    rw [div_lt_div_iff_of_pos_right hns] at a1 a2
    have b1 : (σ j i : ℕ) < k + 1 := by exact_mod_cast a1
    have b2 : (k : ℕ) < σ j i + 1 := by exact_mod_cast a2
    have : σ j i = k := Fin.ext (by omega)
    rw [← this]; simp

theorem cut_mem (ns : ℕ) (i : ℕ) (u : ℝ) (h0 : 0 ≤ u) (h1 : u < 1) (hns : 0 < ns) :
    (i : ℝ) / ns ≤ u * (cut ns (i + 1) - cut ns i) + cut ns i ∧
      u * (cut ns (i + 1) - cut ns i) + cut ns i < ((i : ℝ) + 1) / ns := by
  have hp : (0 : ℝ) < ns := by exact_mod_cast hns
  have e : cut ns (i + 1) - cut ns i = 1 / ns := by simp [cut]; ring
  rw [e]
  constructor
  · have : 0 ≤ u * (1 / (ns : ℝ)) := by positivity
    simp only [cut]; linarith
  · have : u * (1 / (ns : ℝ)) < 1 * (1 / ns) := by
      apply mul_lt_mul_of_pos_right h1; positivity
    simp only [cut, add_div]; linarith

theorem classic_latin (d : Draw ns nx) (h : ∀ i j, 0 ≤ d.rnd i j ∧ d.rnd i j < 1) :
    Spec.Latin (classic d) := by
  apply latin_of_strata _ d.shuffle
  intro i j
  exact cut_mem ns (d.shuffle j i) _ (h _ _).1 (h _ _).2 (Fin.pos i)

theorem reshuffle_eq (c : Fin ns → ℝ) (sh : ℕ → Equiv.Perm (Fin ns)) (j : ℕ) :
    ∃ σ : Equiv.Perm (Fin ns), ∀ i, reshuffle c sh j i = c (σ i) := by
  induction j with
  | zero => exact ⟨sh 0, fun i => rfl⟩
  | succ j ih =>
    obtain ⟨σ, h⟩ := ih
    exact ⟨(sh (j + 1)).trans σ, fun i => by simp [reshuffle, h]⟩

theorem centered_latin (sh : ℕ → Equiv.Perm (Fin ns)) : Spec.Latin (centered sh : Design ns nx) := by
  choose σ h using fun j => reshuffle_eq (fun k : Fin ns => (cut ns k + cut ns (k + 1)) / 2) sh j
  apply latin_of_strata _ (fun j => σ j)
  intro i j
  simp only [centered, h]
  have := cut_mem ns (σ j i) (1 / 2) (by norm_num) (by norm_num) (Fin.pos i)
  have e : ((cut ns (σ j i) + cut ns ((σ j i : ℕ) + 1)) / 2) =
    1 / 2 * (cut ns ((σ j i : ℕ) + 1) - cut ns (σ j i)) + cut ns (σ j i) := by ring
  rw [e]; exact this

theorem latin_inUnit (x : Design ns nx) (h : Spec.Latin x) : Spec.InUnit x := by
  intro i j
  -- the map from strata to rows is injective, hence surjective
  choose f hf using fun k => (h j k).exists
  have inj : Function.Injective f := by
    intro a b hab
    have ha := hf a
    have hb := hf b
    rw [hab] at ha
    have hns : (0 : ℝ) < ns := by exact_mod_cast Fin.pos a
    have a1 := lt_of_le_of_lt ha.1 hb.2
    have a2 := lt_of_le_of_lt hb.1 ha.2
    rw [div_lt_div_iff_of_pos_right hns] at a1 a2
    have b1 : (a : ℕ) < b + 1 := by exact_mod_cast a1
    have b2 : (b : ℕ) < a + 1 := by exact_mod_cast a2
    exact Fin.ext (by omega)
  obtain ⟨k, rfl⟩ := (Finite.injective_iff_surjective.mp inj) i
  have hk := hf k
  have hns : (0 : ℝ) < ns := by exact_mod_cast Fin.pos k
  constructor
  · exact le_trans (by positivity) hk.1
  · refine le_trans hk.2.le ?_
    rw [div_le_one hns]
    exact_mod_cast k.2

theorem swapCell_latin (x : Design ns nx) (k : Fin nx) (i1 i2 : Fin ns) (h : Spec.Latin x) :
    Spec.Latin (swapCell x k i1 i2) := by
  intro j s
  by_cases hj : j = k
  · obtain ⟨i, hi, hu⟩ := h j s
    refine ⟨Equiv.swap i1 i2 i, ?_, ?_⟩
    · simpa [swapCell, hj] using by simpa [hj] using hi
    · intro i' hi'
      have : Equiv.swap i1 i2 i' = i := hu _ (by simpa [swapCell, hj] using hi')
      rw [← this]; simp
  · simpa [swapCell, hj] using h j s

theorem swapCell_exchanged (x : Design ns nx) (k : Fin nx) (i1 i2 : Fin ns) :
    Spec.Exchanged x (swapCell x k i1 i2) k i1 i2 where
  first := by simp [swapCell]
  second := by simp [swapCell]
  column := fun i h1 h2 => by simp [swapCell, Equiv.swap_apply_of_ne_of_ne h1 h2]
  others := fun i j h => by simp [swapCell, h]

/-! ## The criterion -/

theorem pairs_sum {M : Type} [AddCommMonoid M] (g : Fin ns × Fin ns → M) :
    ((pairs ns).map g).sum = ∑ i, ∑ j, if i < j then g (i, j) else 0 := by
  have hl : ∀ (f : Fin ns → M), ((List.finRange ns).map f).sum = ∑ i, f i := by
    intro f; rw [← List.ofFn_eq_map, List.sum_ofFn]
  unfold pairs
  rw [List.map_flatMap, List.flatMap_def, List.sum_flatten, List.map_map]
  rw [← hl]
  congr 1
  apply List.map_congr_left
  intro i _
  simp only [Function.comp]
  rw [← hl, List.map_map]
  induction (List.finRange ns) with
  | nil => simp
  | cons a l ih => by_cases h : i < a <;> simp [h, ih]

theorem l2dist_eq (a b : Fin nx → ℝ) : l2dist a b = Spec.euclid a b := rfl

theorem phip_eq (p : ℝ) (x : Design ns nx) : phip p x = Spec.phiP p x := by
  unfold phip Spec.phiP pdist
  rw [List.map_map, pairs_sum]
  rfl

theorem euclid_comm (a b : Fin nx → ℝ) : Spec.euclid a b = Spec.euclid b a := by
  unfold Spec.euclid
  congr 1
  apply Finset.sum_congr rfl
  intro j _; ring

theorem euclid_nonneg (a b : Fin nx → ℝ) : 0 ≤ Spec.euclid a b := Real.sqrt_nonneg _

theorem euclid_sq (a b : Fin nx → ℝ) : Spec.euclid a b * Spec.euclid a b = ∑ j, (a j - b j) ^ 2 :=
  Real.mul_self_sqrt (Finset.sum_nonneg fun _ _ => sq_nonneg _)

theorem phi_sum_nonneg (p : ℝ) (x : Design ns nx) :
    0 ≤ ∑ i, ∑ j, if i < j then (Spec.euclid (x i) (x j)) ^ (-p) else 0 := by
  apply Finset.sum_nonneg; intro i _
  apply Finset.sum_nonneg; intro j _
  split_ifs
  · exact Real.rpow_nonneg (euclid_nonneg _ _) _
  · exact le_rfl

theorem phiP_nonneg (p : ℝ) (x : Design ns nx) : 0 ≤ Spec.phiP p x :=
  Real.rpow_nonneg (phi_sum_nonneg p x) _

theorem phiP_rpow (p : ℝ) (hp : p ≠ 0) (x : Design ns nx) :
    (Spec.phiP p x) ^ p = ∑ i, ∑ j, if i < j then (Spec.euclid (x i) (x j)) ^ (-p) else 0 := by
  unfold Spec.phiP
  rw [← Real.rpow_mul (phi_sum_nonneg p x), one_div, inv_mul_cancel₀ hp, Real.rpow_one]

theorem sq_rpow_half (p v d : ℝ) (hd : 0 ≤ d) (h : v = d * d) : v ^ (-p / 2) = d ^ (-p) := by
  have e : v = d ^ (2 : ℝ) := by rw [h]; norm_num [pow_two]
  rw [e, ← Real.rpow_mul hd]
  congr 1; ring

/-- Sum over pairs of a symmetric function. -/
theorem sum_pairs_symm (h : Fin ns → Fin ns → ℝ) (hs : ∀ i j, h i j = h j i) (hd : ∀ i, h i i = 0) :
    2 * (∑ i, ∑ j, if i < j then h i j else 0) = ∑ i, ∑ j, h i j := by
  have e1 : (∑ i, ∑ j, h i j) = (∑ i, ∑ j, if i < j then h i j else 0)
      + (∑ i, ∑ j, if j < i then h i j else 0) := by
    rw [← Finset.sum_add_distrib]
    apply Finset.sum_congr rfl; intro i _
    rw [← Finset.sum_add_distrib]
    apply Finset.sum_congr rfl; intro j _
    rcases lt_trichotomy i j with a | a | a
    · simp [a, a.le]
    · subst a; simp [hd]
    · simp [a, a.le]
  have e2 : (∑ i, ∑ j, if j < i then h i j else 0) = (∑ i, ∑ j, if i < j then h i j else 0) := by
    rw [Finset.sum_comm]
    apply Finset.sum_congr rfl; intro i _
    apply Finset.sum_congr rfl; intro j _
    rw [hs]
  rw [e1, e2]; ring

theorem sum_two (i1 i2 : Fin ns) (hne : i1 ≠ i2) (f : Fin ns → ℝ) :
    (∑ i, f i) = f i1 + f i2 + ∑ i ∈ univ.filter (fun i => i ≠ i1 ∧ i ≠ i2), f i := by
  have e : (univ.filter fun i : Fin ns => i ≠ i1 ∧ i ≠ i2) = (univ.erase i1).erase i2 := by
    ext i; simp [and_comm]
  rw [e, ← Finset.add_sum_erase univ f (Finset.mem_univ i1),
    ← Finset.add_sum_erase (univ.erase i1) f (a := i2) (by simp [hne.symm])]
  ring

theorem sum_change (h : Fin ns → Fin ns → ℝ) (hs : ∀ i j, h i j = h j i) (hd : ∀ i, h i i = 0)
    (i1 i2 : Fin ns) (hne : i1 ≠ i2) (h12 : h i1 i2 = 0)
    (h0 : ∀ i j, i ≠ i1 → i ≠ i2 → j ≠ i1 → j ≠ i2 → h i j = 0) :
    (∑ i, ∑ j, if i < j then h i j else 0) =
      (∑ r ∈ univ.filter (fun i => i ≠ i1 ∧ i ≠ i2), h i1 r) +
      (∑ r ∈ univ.filter (fun i => i ≠ i1 ∧ i ≠ i2), h i2 r) := by
  have e := sum_pairs_symm h hs hd
  rw [sum_two i1 i2 hne (fun i => ∑ j, h i j)] at e
  simp only [sum_two i1 i2 hne (h i1), sum_two i1 i2 hne (h i2), hd, h12, hs i2 i1] at e
  have e3 : (∑ i ∈ univ.filter (fun i => i ≠ i1 ∧ i ≠ i2), ∑ j, h i j) =
      ∑ i ∈ univ.filter (fun i => i ≠ i1 ∧ i ≠ i2), (h i1 i + h i2 i) := by
    apply Finset.sum_congr rfl
    intro i hi
    simp only [Finset.mem_filter, Finset.mem_univ, true_and] at hi
    rw [sum_two i1 i2 hne (h i), hs i i1, hs i i2]
    have : (∑ j ∈ univ.filter (fun j => j ≠ i1 ∧ j ≠ i2), h i j) = 0 := by
      apply Finset.sum_eq_zero
      intro j hj
      simp only [Finset.mem_filter, Finset.mem_univ, true_and] at hj
      exact h0 i j hi.1 hi.2 hj.1 hj.2
    rw [this]; ring
  rw [e3, Finset.sum_add_distrib] at e
  linarith

theorem rest_sum (i1 i2 : Fin ns) (f : Fin ns → ℝ) :
    (((List.finRange ns).filter fun i => i ≠ i1 ∧ i ≠ i2).map f).sum =
      ∑ r ∈ univ.filter (fun i => i ≠ i1 ∧ i ≠ i2), f r := by
  rw [Finset.sum_filter]
  have hl : ∀ (f : Fin ns → ℝ), ((List.finRange ns).map f).sum = ∑ i, f i := by
    intro f; rw [← List.ofFn_eq_map, List.sum_ofFn]
  rw [← hl]
  induction (List.finRange ns) with
  | nil => simp
  | cons a l ih =>
    by_cases h : a ≠ i1 ∧ a ≠ i2
    · rw [List.filter_cons_of_pos (by simpa using h)]
      simp only [List.map_cons, List.sum_cons, ih, if_pos h]
    · rw [List.filter_cons_of_neg (by simpa using h)]
      simp only [List.map_cons, List.sum_cons, ih, if_neg h, zero_add]

/-- Squared distance after the exchange of one coordinate. -/
theorem euclid_sq_change (a b a' : Fin nx → ℝ) (k : Fin nx) (h : ∀ j, j ≠ k → a' j = a j) :
    Spec.euclid a' b * Spec.euclid a' b =
      Spec.euclid a b * Spec.euclid a b - (b k - a k) * (b k - a k) + (b k - a' k) * (b k - a' k) := by
  rw [euclid_sq, euclid_sq, ← Finset.add_sum_erase univ _ (Finset.mem_univ k),
    ← Finset.add_sum_erase univ (fun j => (a j - b j) ^ 2) (Finset.mem_univ k)]
  have : (∑ j ∈ univ.erase k, (a' j - b j) ^ 2) = ∑ j ∈ univ.erase k, (a j - b j) ^ 2 := by
    apply Finset.sum_congr rfl
    intro j hj
    rw [h j (Finset.ne_of_mem_erase hj)]
  rw [this]; ring

theorem phipSwap_value (p : ℝ) (hp : p ≠ 0) (x x' : Design ns nx) (k : Fin nx) (i1 i2 : Fin ns)
    (hne : i1 ≠ i2) (hx : Spec.Exchanged x x' k i1 i2) :
    (phipSwap p x k (Spec.phiP p x) i1 i2).2 = Spec.phiP p x' := by
  set F := univ.filter (fun i : Fin ns => i ≠ i1 ∧ i ≠ i2) with hF
  -- rows away from the exchange do not change
  have hrow : ∀ r, r ≠ i1 → r ≠ i2 → x' r = x r := by
    intro r h1 h2; funext j
    by_cases hj : j = k
    · subst hj; exact hx.column r h1 h2
    · exact hx.others r j hj
  have g1 : ∀ r, r ≠ i1 → r ≠ i2 → ((l2dist (x i1) (x r) * l2dist (x i1) (x r)
      - (x r k - x i1 k) * (x r k - x i1 k)) + (x r k - x i2 k) * (x r k - x i2 k)) ^ (-p / 2)
      = (Spec.euclid (x' i1) (x' r)) ^ (-p) := by
    intro r h1 h2
    apply sq_rpow_half _ _ _ (euclid_nonneg _ _)
    rw [hrow r h1 h2, euclid_sq_change (x i1) (x r) (x' i1) k (fun j hj => hx.others _ _ hj), hx.first]
    rfl
  have g2 : ∀ r, r ≠ i1 → r ≠ i2 → ((l2dist (x i2) (x r) * l2dist (x i2) (x r)
      + (x r k - x i1 k) * (x r k - x i1 k)) - (x r k - x i2 k) * (x r k - x i2 k)) ^ (-p / 2)
      = (Spec.euclid (x' i2) (x' r)) ^ (-p) := by
    intro r h1 h2
    apply sq_rpow_half _ _ _ (euclid_nonneg _ _)
    rw [hrow r h1 h2, euclid_sq_change (x i2) (x r) (x' i2) k (fun j hj => hx.others _ _ hj), hx.second]
    simp only [l2dist_eq]; ring
  have key : (∑ i, ∑ j, if i < j then (Spec.euclid (x' i) (x' j)) ^ (-p) else 0)
      - (∑ i, ∑ j, if i < j then (Spec.euclid (x i) (x j)) ^ (-p) else 0)
      = (∑ r ∈ F, ((Spec.euclid (x' i1) (x' r)) ^ (-p) - (Spec.euclid (x i1) (x r)) ^ (-p)))
      + (∑ r ∈ F, ((Spec.euclid (x' i2) (x' r)) ^ (-p) - (Spec.euclid (x i2) (x r)) ^ (-p))) := by
    have := sum_change (fun i j => (Spec.euclid (x' i) (x' j)) ^ (-p) - (Spec.euclid (x i) (x j)) ^ (-p))
      (fun i j => by simp only [euclid_comm]) (fun i => by simp [Spec.euclid]) i1 i2 hne ?_ ?_
    · rw [← this, ← Finset.sum_sub_distrib]
      apply Finset.sum_congr rfl; intro i _
      rw [← Finset.sum_sub_distrib]
      apply Finset.sum_congr rfl; intro j _
      split_ifs <;> simp
    · have e : Spec.euclid (x' i1) (x' i2) = Spec.euclid (x i1) (x i2) := by
        unfold Spec.euclid
        congr 1
        apply Finset.sum_congr rfl; intro j _
        by_cases hj : j = k
        · subst hj; rw [hx.first, hx.second]; ring
        · rw [hx.others i1 j hj, hx.others i2 j hj]
      simp [e]
    · intro i j a b c d
      simp [hrow i a b, hrow j c d]
  have : (phipSwap p x k (Spec.phiP p x) i1 i2).2 =
      ((Spec.phiP p x) ^ p +
        ((∑ r ∈ F, ((Spec.euclid (x' i1) (x' r)) ^ (-p) - (Spec.euclid (x i1) (x r)) ^ (-p)))
      + (∑ r ∈ F, ((Spec.euclid (x' i2) (x' r)) ^ (-p) - (Spec.euclid (x i2) (x r)) ^ (-p))))) ^ (1 / p) := by
    unfold phipSwap
    simp only [List.zipWith_map, List.map_map, List.zipWith_self]
    rw [rest_sum, rest_sum]
    congr 3
    · apply Finset.sum_congr rfl; intro r hr
      simp only [Finset.mem_filter, Finset.mem_univ, true_and] at hr
      simp only [Function.comp]
      rw [g1 r hr.1 hr.2]; rfl
    · apply Finset.sum_congr rfl; intro r hr
      simp only [Finset.mem_filter, Finset.mem_univ, true_and] at hr
      simp only [Function.comp]
      rw [g2 r hr.1 hr.2]; rfl
  rw [this, ← key, phiP_rpow p hp]
  unfold Spec.phiP
  congr 1; ring

end Verif.Doe
