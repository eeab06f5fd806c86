import Verif.Spec.Moe
import Verif.Lemmas.Run
import Mathlib.Tactic.Ring

/-!
# C53, C54, C58, C59, C60: mixture of experts, splitting of data, checks and selection of experts
-/

set_option autoImplicit false

namespace Verif.Props

open Verif Spec Moe

/-! ## C53 -/

theorem mapM_filter_aux {α : Type} (j : ℕ) (labels : List ℕ) :
    ∀ (pre data : List α), labels.length = data.length →
      ((labels.zipIdx pre.length).filterMap fun p => if p.1 = j then some p.2 else none).mapM
        (row (pre ++ data)) = .ok (cluster data labels j) := by
  induction labels with
  | nil =>
    intro pre data h
    cases data with
    | nil => simp [cluster, pure, Except.pure]
    | cons a data => simp at h
  | cons l labels ih =>
    intro pre data h
    cases data with
    | nil => simp at h
    | cons a data =>
      have h' : labels.length = data.length := by simpa using h
      have := ih (pre ++ [a]) data h'
      simp only [List.length_append, List.length_cons, List.length_nil, zero_add, List.append_assoc,
        List.singleton_append] at this
      rw [List.zipIdx_cons, List.filterMap_cons]
      by_cases hl : l = j
      · have hr : row (pre ++ a :: data) pre.length = .ok a := by simp [row]
        simp only [hl, if_true, List.mapM_cons, hr]
        rw [this]
        simp [cluster, bind, Except.bind, pure, Except.pure]
      · simp only [hl, if_false]
        rw [this]
        simp [cluster, hl]

theorem forall₂_mapM_ok {α β : Type} {f : α → Except Panic β} {g : α → β} {l : List α}
    (h : ∀ a ∈ l, f a = .ok (g a)) : l.mapM f = .ok (l.map g) := by
  rw [mapM_ok]
  induction l with
  | nil => simp
  | cons a l ih =>
    simp only [List.map_cons, List.forall₂_cons]
    exact ⟨h a (by simp), ih fun b hb => h b (by simp [hb])⟩

/-- **C53**. Splitting data by labels (one per row) succeeds; cluster `j` is the list of rows labelled `j` in
the original order. -/
theorem C53_clusters {α : Type} (n : ℕ) (data : List α) (labels : List ℕ)
    (h : labels.length = data.length) :
    sortByCluster n data labels = .ok ((List.range n).map fun j => cluster data labels j) := by
  unfold sortByCluster
  apply forall₂_mapM_ok
  intro j _
  exact mapM_filter_aux j labels [] data h

theorem filter_disjoint_perm {α : Type} (p q : α → Bool) (l : List α) (h : ∀ a ∈ l, ¬(p a = true ∧ q a = true)) :
    (l.filter p ++ l.filter q).Perm (l.filter fun a => p a || q a) := by
  induction l with
  | nil => simp
  | cons a l ih =>
    have ih' := ih fun b hb => h b (by simp [hb])
    have ha := h a (by simp)
    by_cases hp : p a = true
    · have hq : q a = false := by
        cases hq : q a
        · rfl
        · exact absurd ⟨hp, hq⟩ ha
      simp only [List.filter_cons, hp, hq, if_true, Bool.true_or, List.cons_append]
      exact ih'.cons a
    · have hp' : p a = false := by simpa using hp
      by_cases hq : q a = true
      · simp only [List.filter_cons, hp', hq, if_true, Bool.false_or]
        exact List.perm_middle.trans (ih'.cons a)
      · have hq' : q a = false := by simpa using hq
        simpa [List.filter_cons, hp', hq'] using ih'

theorem flatten_clusters_perm {α : Type} (n : ℕ) (data : List α) (labels : List ℕ) :
    (((List.range n).map fun j => cluster data labels j).flatten).Perm
      (((data.zip labels).filter fun p => decide (p.2 < n)).map Prod.fst) := by
  induction n with
  | zero => simp
  | succ n ih =>
    rw [List.range_succ, List.map_append, List.flatten_append]
    simp only [List.map_cons, List.map_nil, List.flatten_cons, List.flatten_nil, List.append_nil]
    refine (ih.append_right _).trans ?_
    unfold cluster
    rw [← List.map_append]
    refine (filter_disjoint_perm _ _ _ ?_).map _ |>.trans ?_
    · intro a _ h
      simp at h
      omega
    · apply List.Perm.of_eq
      congr 1
      apply List.filter_congr
      intro a _
      rw [Bool.eq_iff_iff]
      simp
      omega

/-- **C53**. No row is lost or duplicated (the clusters together are a permutation of the data) if and only
if all the labels are numbers of clusters. -/
theorem C53_partition_iff {α : Type} (n : ℕ) (data : List α) (labels : List ℕ)
    (h : labels.length = data.length) :
    ∃ cl, sortByCluster n data labels = .ok cl ∧ (cl.flatten.Perm data ↔ ∀ l ∈ labels, l < n) := by
  refine ⟨_, C53_clusters n data labels h, ?_⟩
  have hp := flatten_clusters_perm n data labels
  constructor
  · intro hperm l hl
    have hlen := (hp.symm.trans hperm).length_eq
    rw [List.length_map] at hlen
    have hz : (data.zip labels).length = data.length := by simp [h]
    have hall : (data.zip labels).filter (fun p => decide (p.2 < n)) = data.zip labels :=
      List.filter_sublist.eq_of_length (by rw [hlen, hz])
    rw [List.filter_eq_self] at hall
    obtain ⟨i, hi, rfl⟩ := List.mem_iff_getElem.1 hl
    have := hall (data[i]'(by omega), labels[i]) (by
      rw [List.mem_iff_getElem]
      exact ⟨i, by simp; omega, by simp⟩)
    simpa using this
  · intro hall
    refine hp.trans (List.Perm.of_eq ?_)
    rw [List.filter_eq_self.2]
    · rw [List.map_fst_zip (by omega)]
    · intro p hp
      have := List.of_mem_zip hp
      simpa using hall _ this.2

/-- A case of `C53_clusters` and `C53_partition_iff`: four rows, two clusters. -/
example : sortByCluster 2 ["a", "b", "c", "d"] [1, 0, 1, 1] = .ok [["b"], ["a", "c", "d"]] ∧
    (∀ l ∈ [1, 0, 1, 1], l < 2) := by decide

/-- **C53**. A label without row makes the split panic (if its cluster is asked for). -/
theorem C53_panics_on_extra_label {α : Type} (n : ℕ) (data : List α) (labels : List ℕ) (i : ℕ)
    (hi : i < labels.length) (hd : data.length ≤ i) (hl : labels[i] < n) (cl : List (List α)) :
    sortByCluster n data labels ≠ .ok cl := by
  intro h
  unfold sortByCluster at h
  rw [mapM_ok] at h
  obtain ⟨hlen, hall⟩ := List.forall₂_iff_get.1 h
  have h1 := hall labels[i] (by simpa using hl) (by simp at hlen; omega)
  simp only [List.get_eq_getElem, List.getElem_range] at h1
  rw [mapM_ok] at h1
  have hm : i ∈ indicesOf labels[i] labels := by
    unfold indicesOf
    rw [List.mem_filterMap]
    refine ⟨(labels[i], i), ?_, by simp⟩
    rw [List.mem_iff_getElem]
    exact ⟨i, by simpa using hi, by simp⟩
  obtain ⟨k, hk, hke⟩ := List.mem_iff_getElem.1 hm
  obtain ⟨hlen2, hall2⟩ := List.forall₂_iff_get.1 h1
  have h2 := hall2 k hk (by omega)
  simp only [List.get_eq_getElem, hke] at h2
  simp [row, List.getElem?_eq_none hd] at h2

/-! ## C54 -/

theorem range_filter_mod (n q : ℕ) (hq : 0 < q) :
    (List.range n).filter (fun i => decide (i % q = 0)) = (List.range ((n + q - 1) / q)).map (· * q) := by
  induction n with
  | zero => simp [Nat.div_eq_of_lt (by omega : q - 1 < q)]
  | succ n ih =>
    rw [List.range_succ, List.filter_append, ih]
    by_cases h : n % q = 0
    · obtain ⟨m, rfl⟩ := Nat.dvd_of_mod_eq_zero h
      have h1 : (q * m + q - 1) / q = m := by
        rw [Nat.add_sub_assoc (by omega), Nat.mul_add_div hq, Nat.div_eq_of_lt (by omega), Nat.add_zero]
      have h2 : (q * m + 1 + q - 1) / q = m + 1 := by
        rw [show q * m + 1 + q - 1 = q * (m + 1) by rw [Nat.mul_add]; omega, Nat.mul_div_cancel_left _ hq]
      rw [h1, h2, List.range_succ, List.map_append]
      simp [Nat.mul_comm]
    · have h1 : (n + 1 + q - 1) / q = (n + q - 1) / q := by
        have hn := Nat.div_add_mod n q
        have hlt := Nat.mod_lt n hq
        generalize n / q = m at hn
        generalize n % q = r at hn h hlt
        subst hn
        rw [show q * m + r + 1 + q - 1 = q * (m + 1) + r by rw [Nat.mul_add]; omega,
          show q * m + r + q - 1 = q * (m + 1) + (r - 1) by rw [Nat.mul_add]; omega,
          Nat.mul_add_div hq, Nat.mul_add_div hq, Nat.div_eq_of_lt hlt, Nat.div_eq_of_lt (by omega)]
      rw [h1]
      simp [h]

/-- **C54**. With a positive quantile `q` the extraction succeeds: element `i` of the test part is sample
`q i`, there are `ceil(n / q)` of them, test and train parts are (in the original order) disjoint and cover
the data. -/
theorem C54_partition {α : Type} (data : List α) (q : ℕ) (hq : 0 < q) :
    ∃ test train, extractPart data q = .ok (test, train) ∧
      (test ++ train).Perm data ∧ test.Sublist data ∧ train.Sublist data ∧
      (test.length = ⌈(data.length / q : ℚ)⌉₊) ∧ ∀ i, i < test.length → test[i]? = data[q * i]? := by
  by_cases hd : data = []
  · subst hd
    refine ⟨[], [], ?_, by simp⟩
    have h0 : (q - 1) / q = 0 := Nat.div_eq_of_lt (by omega)
    simp [extractPart, testIndices, hq.ne', bind, Except.bind, h0, pure, Except.pure]
  have hpos : 0 < data.length := List.length_pos_iff.2 hd
  let g : ℕ → α := fun i => data.getD i (data[0])
  have hg : ∀ i < data.length, row data i = .ok (g i) := by
    intro i hi
    simp [row, g, hi]
  have hmap : (List.range data.length).map g = data := by
    apply List.ext_getElem
    · simp
    · intro i h1 h2
      simp [g, h2]
  have htest : (((List.range ((data.length + q - 1) / q)).map (· * q))).mapM (row data)
      = .ok (((List.range data.length).filter fun i => decide (i % q = 0)).map g) := by
    rw [← range_filter_mod _ _ hq]
    apply forall₂_mapM_ok
    intro i hi
    exact hg i (by simpa using (List.mem_filter.1 hi).1)
  have htrain : ((List.range data.length).filter fun i => decide (i % q ≠ 0)).mapM (row data)
      = .ok (((List.range data.length).filter fun i => decide (i % q ≠ 0)).map g) := by
    apply forall₂_mapM_ok
    intro i hi
    exact hg i (by simpa using (List.mem_filter.1 hi).1)
  refine ⟨((List.range data.length).filter fun i => decide (i % q = 0)).map g,
    ((List.range data.length).filter fun i => decide (i % q ≠ 0)).map g, ?_, ?_, ?_, ?_, ?_, ?_⟩
  · unfold extractPart
    simp only [testIndices, hq.ne', if_false, bind, Except.bind]
    rw [htest]
    simp only
    rw [htrain]
  · rw [← List.map_append]
    conv_rhs => rw [← hmap]
    apply List.Perm.map
    have := List.filter_append_perm (fun i => decide (i % q = 0)) (List.range data.length)
    simpa using this
  · conv_rhs => rw [← hmap]
    exact List.filter_sublist.map g
  · conv_rhs => rw [← hmap]
    exact List.filter_sublist.map g
  · rw [range_filter_mod _ _ hq]
    simp only [List.length_map, List.length_range]
    symm
    rw [Nat.ceil_eq_iff (by
      have := Nat.div_pos (a := data.length + q - 1) (b := q) (by omega) hq
      omega)]
    have hqq : (0 : ℚ) < q := by exact_mod_cast hq
    have h1 := Nat.div_add_mod (data.length + q - 1) q
    have h2 := Nat.mod_lt (data.length + q - 1) hq
    have h3 := Nat.div_pos (a := data.length + q - 1) (b := q) (by omega) hq
    generalize (data.length + q - 1) / q = m at h1 h3
    obtain ⟨m, rfl⟩ : ∃ m', m = m' + 1 := ⟨m - 1, by omega⟩
    constructor
    · rw [lt_div_iff₀ hqq]
      have : m * q < data.length := by
        rw [Nat.mul_add] at h1; rw [Nat.mul_comm]; omega
      simpa using (by exact_mod_cast this : (m : ℚ) * q < data.length)
    · rw [div_le_iff₀ hqq]
      have : data.length ≤ (m + 1) * q := by
        rw [Nat.mul_comm]; omega
      exact_mod_cast this
  · intro i hi
    rw [range_filter_mod _ _ hq] at hi ⊢
    simp only [List.length_map, List.length_range] at hi
    have h4 : i * q < data.length := by
      have h1 := Nat.div_mul_le_self (data.length + q - 1) q
      have h2 : (i + 1) * q ≤ (data.length + q - 1) / q * q := Nat.mul_le_mul_right _ hi
      rw [Nat.add_mul] at h2
      omega
    simp [hi, g, h4, Nat.mul_comm q i]

/-- A case of `C54_partition`. -/
example : extractPart [10, 11, 12, 13, 14, 15, 16] 5 = .ok ([10, 15], [11, 12, 13, 14, 16]) := by decide

/-- **C54**. A null quantile panics. -/
theorem C54_zero_panics {α : Type} (data : List α) : extractPart data 0 = .error .other := rfl

/-! ## C58 -/

/-- **C58**, exact behaviour: clusters of samples with `d` inputs and one output are accepted if and only if
there is one cluster at most or each has at least three rows and at least
`requiredPoints / (d + 1)` rows. -/
theorem C58_accepted_iff {α : Type} (clusters : List (Mat α)) (d : ℕ) (rs : RegressionSpec)
    (hc : ∀ c ∈ clusters, c.ncols = d + 1) :
    checkClusters clusters d rs = .ok () ↔
      clusters.length ≤ 1 ∨
        ∀ c ∈ clusters, 3 ≤ c.rows.length ∧ requiredPoints rs d ≤ c.rows.length * (d + 1) := by
  have hmin : minNumberPoint d rs = requiredPoints rs d := rfl
  by_cases hl : clusters.length > 1
  · have h1 : (checkNumberOfPoints clusters d rs = .ok ()) ↔
        ∀ c ∈ clusters, requiredPoints rs d ≤ c.rows.length * (d + 1) := by
      unfold checkNumberOfPoints
      rw [if_pos hl, hmin]
      split_ifs with h
      · simp only [false_iff, not_forall]
        obtain ⟨c, hcm, h⟩ := List.any_eq_true.1 h
        refine ⟨c, hcm, ?_⟩
        rw [hc c hcm] at h
        simpa using h
      · simp only [true_iff]
        intro c hcm
        rw [← hc c hcm]
        by_contra hcon
        exact h (List.any_eq_true.2 ⟨c, hcm, by simpa using hcon⟩)
    have h2 : (checkThree clusters = .ok ()) ↔ ∀ c ∈ clusters, 3 ≤ c.rows.length := by
      unfold checkThree
      split_ifs with h
      · simp only [false_iff, not_forall]
        obtain ⟨c, hcm, h⟩ := List.any_eq_true.1 h
        refine ⟨c, hcm, ?_⟩
        simp at h
        omega
      · simp only [true_iff]
        intro c hcm
        by_contra hcon
        exact h (List.any_eq_true.2 ⟨c, hcm, by simp; omega⟩)
    have h3 : checkClusters clusters d rs = .ok () ↔
        checkNumberOfPoints clusters d rs = .ok () ∧ checkThree clusters = .ok () := by
      unfold checkClusters
      cases checkNumberOfPoints clusters d rs <;> simp [bind, Except.bind]
    rw [h3, h1, h2]
    constructor
    · rintro ⟨a, b⟩
      exact Or.inr fun c h => ⟨b c h, a c h⟩
    · rintro (h | h)
      · omega
      · exact ⟨fun c hc => (h c hc).2, fun c hc => (h c hc).1⟩
  · simp only [show clusters.length ≤ 1 by omega, true_or, iff_true]
    have : ¬ (1 < clusters.length) := hl
    simp [checkClusters, checkNumberOfPoints, checkThree, this, bind, Except.bind]

/-- **C58** (partial: only the acceptance direction, with the additional minimum of three). Clusters having as
many points as required by the mean models (and three) are not rejected. -/
theorem C58_enough_points_accepted_partial {α : Type} (clusters : List (Mat α)) (d : ℕ) (rs : RegressionSpec)
    (hc : ∀ c ∈ clusters, c.ncols = d + 1)
    (h : ∀ c ∈ clusters, 3 ≤ c.rows.length ∧ requiredPoints rs d ≤ c.rows.length) :
    checkClusters clusters d rs = .ok () := by
  rw [C58_accepted_iff clusters d rs hc]
  refine Or.inr fun c hm => ⟨(h c hm).1, (h c hm).2.trans ?_⟩
  exact Nat.le_mul_of_pos_right _ (by omega)

/-- **C58** refuted for the linear mean: in every dimension clusters of three points are accepted, although
`d + 1` points are required. -/
theorem C58_refuted_linear (d : ℕ) (r : List ℚ) (rs : RegressionSpec) (hl : rs.linear = true)
    (hq : rs.quadratic = false) (hd : 3 ≤ d) :
    let clusters : List (Mat ℚ) := [⟨d + 1, [r, r, r]⟩, ⟨d + 1, [r, r, r]⟩]
    (∀ c ∈ clusters, c.rows.length < requiredPoints rs d) ∧ checkClusters clusters d rs = .ok () := by
  constructor
  · simp [requiredPoints, hl, hq]
    omega
  · rw [C58_accepted_iff _ d rs (by simp)]
    right
    simp [requiredPoints, hl, hq]

/-- **C58** refuted for the quadratic mean: clusters are accepted as soon as they have about `d / 2` points,
`(d + 1) (d + 2) / 2` being required. -/
theorem C58_refuted_quadratic {α : Type} (clusters : List (Mat α)) (d : ℕ) (rs : RegressionSpec)
    (hc : ∀ c ∈ clusters, c.ncols = d + 1) (hq : rs.quadratic = true)
    (h : ∀ c ∈ clusters, 3 ≤ c.rows.length ∧ d + 2 ≤ 2 * c.rows.length) :
    checkClusters clusters d rs = .ok () := by
  rw [C58_accepted_iff clusters d rs hc]
  refine Or.inr fun c hm => ⟨(h c hm).1, ?_⟩
  simp only [requiredPoints, hq, if_true]
  rw [Nat.div_le_iff_le_mul_add_pred (by norm_num)]
  calc (d + 1) * (d + 2) ≤ (d + 1) * (2 * c.rows.length) := Nat.mul_le_mul_left _ (h c hm).2
    _ = 2 * (c.rows.length * (d + 1)) := by ring
    _ ≤ _ := by omega

/-- A case of `C58_refuted_quadratic`: 4 points in dimension 6, 28 are required. -/
example : checkClusters [(⟨7, List.replicate 4 []⟩ : Mat ℚ), ⟨7, List.replicate 4 []⟩] 6 ⟨false, false, true⟩
    = .ok () ∧ requiredPoints ⟨false, false, true⟩ 6 = 28 := by decide

/-! ## C60 -/

/-- **C60** (partial: automatic specifications are neither mono nor multi, contrary to the documentation). -/
theorem C60_mono_multi_partial (n : NbClusters) :
    (n.isMono = true ↔ n = .fixed 1) ∧ (n.isMulti = true ↔ ∃ k, 1 < k ∧ n = .fixed k) ∧
      ¬(n.isMono = true ∧ n.isMulti = true) := by
  cases n <;> simp [NbClusters.isMono, NbClusters.isMulti]
  omega

/-- **C60** refuted: `is_multi` (documented as "fixed to > 1 or automatic") is false for every automatic
specification. -/
theorem C60_refuted_auto (max : Option ℕ) :
    (NbClusters.auto max).isMulti = false ∧ (NbClusters.auto max).isMono = false := by
  simp [NbClusters.isMulti, NbClusters.isMono]

/-- **C60**. Exact acceptance of the parameters: the number of hyperparameter tunings has to be the number of
clusters, or one. -/
theorem C60_check_iff (kpls : Option ℕ) (n : NbClusters) (t : ℕ) :
    checkParams kpls n t = .ok (.ok ()) ↔
      kpls ≠ some 0 ∧ ∀ nb, n = .fixed nb → nb = t ∨ (1 < nb ∧ t = 1) := by
  cases n with
  | fixed nb =>
    simp only [checkParams, NbClusters.isMulti]
    split_ifs <;> simp_all
  | auto m =>
    simp only [checkParams, NbClusters.isMulti]
    split_ifs <;> simp_all

/-- **C60**. The other parameters: no component is reported as an error, a wrong number of tunings panics. -/
theorem C60_rejected_iff (kpls : Option ℕ) (n : NbClusters) (t : ℕ) :
    (checkParams kpls n t = .ok (.error .invalid) ↔ kpls = some 0) ∧
    ((∃ p, checkParams kpls n t = .error p) ↔
      kpls ≠ some 0 ∧ ∃ nb, n = .fixed nb ∧ nb ≠ t ∧ (1 < nb → t ≠ 1)) := by
  cases n with
  | fixed nb =>
    by_cases h0 : kpls = some 0
    · simp [checkParams, h0]
    · by_cases h1 : 1 < nb ∧ t = 1
      · simp [checkParams, NbClusters.isMulti, h0, h1]
      · by_cases h2 : nb = t
        · simp [checkParams, NbClusters.isMulti, h0, h2]
        · have h3 : (decide (nb > 1) && t == 1) = false := by simpa using h1
          simp only [checkParams, NbClusters.isMulti, if_neg h0, h3, Bool.false_eq_true, if_false, if_pos h2]
          refine ⟨by simp [h0], fun _ => ⟨h0, nb, rfl, h2, fun h4 h5 => h1 ⟨h4, h5⟩⟩, fun _ => ⟨_, rfl⟩⟩
  | auto m =>
    simp only [checkParams, NbClusters.isMulti]
    split_ifs <;> simp_all

/-- **C60**. Accepted fixed specifications give a tuning to the expert of every cluster. -/
theorem C60_tunings_available {T : Type} (kpls : Option ℕ) (nb : ℕ) (ts : List T)
    (h : checkParams kpls (.fixed nb) ts.length = .ok (.ok ())) (nc : ℕ) (hnc : nc < nb) :
    ∃ t, tuningOf ts nc = .ok t ∧ (ts.length = nb → ts[nc]? = some t) ∧ (ts.length = 1 → ts[0]? = some t) := by
  rw [C60_check_iff] at h
  rcases h.2 nb rfl with h1 | ⟨h1, h2⟩
  · by_cases hone : nc > 0 ∧ ts.length = 1
    · omega
    · refine ⟨ts[nc], ?_, ?_, ?_⟩
      · simp [tuningOf, hone, row, show nc < ts.length by omega]
      · intro _; simp
      · intro h1'
        have : nc = 0 := by omega
        subst this
        simp
  · refine ⟨ts[0]'(by omega), ?_, ?_, ?_⟩
    · unfold tuningOf
      split_ifs with hif
      · simp [row, show 0 < ts.length by omega]
      · have : nc = 0 := by omega
        subst this
        simp [row, show 0 < ts.length by omega]
    · intro; omega
    · intro _; simp

/-- A case of `C60_tunings_available`. -/
example : checkParams none (.fixed 3) [7].length = .ok (.ok ()) ∧ tuningOf [7] 2 = .ok 7 := by decide

end Verif.Props
