import Verif.Spec.Moe
import Verif.Lemmas.Run
import Verif.Props.Moe
import Mathlib.Tactic.Ring

/-!
# C59, C80, C81: selection of experts, of the number of clusters and of the heaviside factor
-/

set_option autoImplicit false

namespace Verif.Props

open Verif Spec Moe

/-! ## C59 -/

theorem combos_eq (rs : RegressionSpec) (cs : CorrelationSpec) :
    combos (allowedMeans rs) (allowedCorrs cs) = allowed rs cs := by
  obtain ⟨a, b, c⟩ := rs
  obtain ⟨d, e, f, g⟩ := cs
  cases a <;> cases b <;> cases c <;> cases d <;> cases e <;> cases f <;> cases g <;> rfl

/-- `minByLoop` keeps the first smallest of the values which are not NaN. -/
theorem minByLoop_spec (es : List Flt) : ∀ (cur : Flt) (ci i : ℕ), cur ≠ .nan →
    (minByLoop cur ci i es = ci ∧ ∀ e ∈ es, e = .nan ∨ toE cur ≤ toE e) ∨
    ∃ pre e post, es = pre ++ e :: post ∧ minByLoop cur ci i es = i + pre.length ∧ e ≠ .nan ∧
      toE e < toE cur ∧ (∀ x ∈ pre, x = .nan ∨ toE e < toE x) ∧ (∀ x ∈ post, x = .nan ∨ toE e ≤ toE x) := by
  induction es with
  | nil => intro cur ci i _; left; simp [minByLoop]
  | cons e es ih =>
    intro cur ci i hc
    unfold minByLoop
    by_cases hg : Flt.gt cur e = true
    · rw [if_pos hg]
      have hen : e ≠ .nan := by rintro rfl; cases cur <;> simp [Flt.gt, Flt.cmp] at hg
      rw [Flt.gt_iff hc hen] at hg
      right
      rcases ih e i (i + 1) hen with ⟨h1, h2⟩ | ⟨pre, x, post, h1, h2, h3, h4, h5, h6⟩
      · exact ⟨[], e, es, rfl, by simpa using h1, hen, hg, by simp, h2⟩
      · refine ⟨e :: pre, x, post, by simp [h1], by rw [h2]; simp; omega, h3, h4.trans hg, ?_, h6⟩
        intro y hy
        rcases List.mem_cons.1 hy with rfl | hy
        · exact Or.inr h4
        · exact h5 y hy
    · rw [if_neg hg]
      have hle : e = .nan ∨ toE cur ≤ toE e := by
        by_cases hen : e = .nan
        · exact Or.inl hen
        · rw [Flt.gt_iff hc hen] at hg
          exact Or.inr (not_lt.1 hg)
      rcases ih cur ci (i + 1) hc with ⟨h1, h2⟩ | ⟨pre, x, post, h1, h2, h3, h4, h5, h6⟩
      · left
        refine ⟨h1, ?_⟩
        intro y hy
        rcases List.mem_cons.1 hy with rfl | hy
        · exact hle
        · exact h2 y hy
      · right
        refine ⟨e :: pre, x, post, by simp [h1], by rw [h2]; simp; omega, h3, h4, ?_, h6⟩
        intro y hy
        rcases List.mem_cons.1 hy with rfl | hy
        · rcases hle with h | h
          · exact Or.inl h
          · exact Or.inr (h4.trans_le h)
        · exact h5 y hy

theorem pick_spec {E : MeanKind × CorrKind → Flt} (l : List (MeanKind × CorrKind)) (a : MeanKind × CorrKind)
    (ha : E a ≠ .nan) : ∃ p, pick (a :: l) ((a :: l).map E) = .ok p ∧ IsFirstBest E (a :: l) p := by
  unfold pick
  simp only [List.map_cons, minBy]
  rcases minByLoop_spec (l.map E) (E a) 0 1 ha with ⟨h1, h2⟩ | ⟨pre, x, post, h1, h2, h3, h4, h5, h6⟩
  · refine ⟨a, ?_, ha, [], l, rfl, by simp, ?_⟩
    · rw [h1]; rfl
    · intro q hq
      exact h2 _ (List.mem_map_of_mem hq)
  · obtain ⟨l1, l2, rfl, rfl, hl2⟩ := List.map_eq_append_iff.1 h1
    obtain ⟨q, l3, rfl, rfl, rfl⟩ := List.map_eq_cons_iff.1 hl2
    refine ⟨q, ?_, h3, a :: l1, l3, by simp, ?_, ?_⟩
    · rw [h2]
      simp [row, Nat.add_comm 1]
    · intro y hy
      rcases List.mem_cons.1 hy with rfl | hy
      · exact Or.inr h4
      · exact h5 _ (List.mem_map_of_mem hy)
    · intro y hy
      exact h6 _ (List.mem_map_of_mem hy)

theorem allowed_single {rs : RegressionSpec} {cs : CorrelationSpec} {m : MeanKind} {c : CorrKind}
    (h1 : allowedMeans rs = [m]) (h2 : allowedCorrs cs = [c]) : allowed rs cs = [(m, c)] := by
  rw [← combos_eq, h1, h2]; rfl

theorem bestExpert_cases (rs : RegressionSpec) (cs : CorrelationSpec) (n d : ℕ)
    (cv : MeanKind → CorrKind → Except Panic Flt) :
    (∃ p, allowed rs cs = [p] ∧ bestExpert rs cs n d cv = .ok p) ∨
    ((allowed rs cs).length ≠ 1 ∧ bestExpert rs cs n d cv = (do
      let errs ← (allowed rs cs).mapM fun p => computeError n d cv p.1 p.2
      pick (allowed rs cs) errs)) := by
  by_cases h : ∃ m c, allowedMeans rs = [m] ∧ allowedCorrs cs = [c]
  · obtain ⟨m, c, h1, h2⟩ := h
    left
    exact ⟨(m, c), allowed_single h1 h2, by unfold bestExpert; rw [h1, h2]⟩
  · right
    constructor
    · intro hl
      apply h
      rw [← combos_eq] at hl
      have : (allowedMeans rs).length * (allowedCorrs cs).length = 1 := by
        rw [← hl]; simp [combos, List.length_flatMap]
      have h1 := Nat.dvd_one.1 (Dvd.intro _ this)
      have h2 := Nat.dvd_one.1 (Dvd.intro_left _ this)
      obtain ⟨m, hm⟩ := List.length_eq_one_iff.1 h1
      obtain ⟨c, hc⟩ := List.length_eq_one_iff.1 h2
      exact ⟨m, c, hm, hc⟩
    · unfold bestExpert
      split
      · rename_i m c h1 h2
        exact absurd ⟨m, c, h1, h2⟩ h
      · rw [combos_eq]

theorem pick_mem {l : List (MeanKind × CorrKind)} {es : List Flt} {p : MeanKind × CorrKind}
    (h : pick l es = .ok p) : p ∈ l := by
  unfold pick at h
  split at h
  · simp at h
  · rename_i i _
    unfold row at h
    split at h
    · rename_i r hr
      simp only [Except.ok.injEq] at h
      subst h
      exact List.mem_of_getElem? hr
    · simp at h

/-- **C59**. A combination which is not allowed is never trained. -/
theorem C59_only_allowed (g : GpType) (rs : RegressionSpec) (cs : CorrelationSpec) (n d : ℕ)
    (cv : MeanKind → CorrKind → Except Panic Flt) (p : MeanKind × CorrKind)
    (h : findBestExpert g rs cs n d cv = .ok (.ok p)) :
    rs.contains p.1 = true ∧ cs.contains p.2 = true := by
  unfold findBestExpert at h
  rw [bind_ok] at h
  obtain ⟨q, hq, h⟩ := h
  have hpq : p = q := by
    simp only [Except.ok.injEq] at h
    unfold dispatchExpert at h
    cases g
    · simpa using h.symm
    · simp only at h
      split_ifs at h
      simpa using h.symm
  subst hpq
  have hm : p ∈ allowed rs cs := by
    rcases bestExpert_cases rs cs n d cv with ⟨r, h1, h2⟩ | ⟨_, h2⟩
    · rw [h2] at hq
      simp only [Except.ok.injEq] at hq
      rw [h1, hq]; simp
    · rw [h2, bind_ok] at hq
      obtain ⟨es, _, hp⟩ := hq
      exact pick_mem hp
  have := (List.mem_filter.1 hm).2
  simpa [Allowed] using this

/-- The error used for the selection: infinite when the code considers that there are too few points. -/
def usedError (n d : ℕ) (e : MeanKind × CorrKind → Flt) (p : MeanKind × CorrKind) : Flt :=
  if (min n 5 < 4 * d ∧ p.1 = .quadratic) ∨ (min n 5 < 3 * d ∧ p.1 = .linear) then .pinf else e p

theorem bestExpert_first (rs : RegressionSpec) (cs : CorrelationSpec) (n d : ℕ)
    (e : MeanKind × CorrKind → Flt) (a : MeanKind × CorrKind) (l : List (MeanKind × CorrKind))
    (hl : allowed rs cs = a :: l) (ha : usedError n d e a ≠ .nan) :
    ∃ p, bestExpert rs cs n d (fun m c => .ok (e (m, c))) = .ok p ∧
      IsFirstBest (usedError n d e) (allowed rs cs) p := by
  rcases bestExpert_cases rs cs n d (fun m c => .ok (e (m, c))) with ⟨r, h1, h2⟩ | ⟨_, h2⟩
  · refine ⟨r, h2, ?_⟩
    have : a = r := by rw [hl] at h1; simp at h1; exact h1.1
    subst this
    rw [h1]
    exact ⟨ha, [], [], rfl, by simp, by simp⟩
  · have hmap : ((allowed rs cs).mapM fun p => computeError n d (fun m c => .ok (e (m, c))) p.1 p.2)
        = .ok ((allowed rs cs).map (usedError n d e)) := by
      apply forall₂_mapM_ok
      intro p _
      unfold computeError usedError
      by_cases hq : min n 5 < 4 * d ∧ p.1 = .quadratic
      · rw [if_pos hq, if_pos (Or.inl hq)]
      · rw [if_neg hq]
        by_cases hli : min n 5 < 3 * d ∧ p.1 = .linear
        · rw [if_pos hli, if_pos (Or.inr hli)]
        · rw [if_neg hli, if_neg (by tauto)]
    obtain ⟨p, hp, hb⟩ := pick_spec l a ha
    refine ⟨p, ?_, by rw [hl]; exact hb⟩
    rw [h2, hmap]
    simp only [bind, Except.bind]
    rw [hl]
    exact hp

/-- **C59** (partial: the first error must not be NaN; models with linear (quadratic) means are considered
only in dimension one, with at least 3 (4) samples). The trained expert is the first one with the smallest
cross validation error. -/
theorem C59_first_smallest_error_partial (rs : RegressionSpec) (cs : CorrelationSpec) (n d : ℕ)
    (e : MeanKind × CorrKind → Flt) (a : MeanKind × CorrKind) (l : List (MeanKind × CorrKind))
    (hl : allowed rs cs = a :: l) (ha : e a ≠ .nan)
    (hlin : rs.linear = true → d ≤ 1 ∧ 3 * d ≤ n) (hquad : rs.quadratic = true → d ≤ 1 ∧ 4 * d ≤ n) :
    ∃ p, findBestExpert .full rs cs n d (fun m c => .ok (e (m, c))) = .ok (.ok p) ∧
      IsFirstBest e (allowed rs cs) p := by
  have hu : ∀ p ∈ allowed rs cs, usedError n d e p = e p := by
    intro p hp
    have hA := (List.mem_filter.1 hp).2
    simp only [Allowed, Bool.and_eq_true] at hA
    unfold usedError
    rw [if_neg]
    rintro (⟨h1, h2⟩ | ⟨h1, h2⟩)
    · have := hquad (by simpa [h2, RegressionSpec.contains] using hA.1)
      omega
    · have := hlin (by simpa [h2, RegressionSpec.contains] using hA.1)
      omega
  obtain ⟨p, hp, hb⟩ := bestExpert_first rs cs n d e a l hl (by rw [hu a (by rw [hl]; simp)]; exact ha)
  refine ⟨p, by simp [findBestExpert, hp, bind, Except.bind, dispatchExpert], ?_⟩
  obtain ⟨h1, pre, post, h2, h3, h4⟩ := hb
  have hpm : p ∈ allowed rs cs := by rw [h2]; simp
  rw [hu p hpm] at h1
  refine ⟨h1, pre, post, h2, ?_, ?_⟩
  · intro q hq
    have := h3 q hq
    rwa [hu p hpm, hu q (by rw [h2]; simp [hq])] at this
  · intro q hq
    have := h4 q hq
    rwa [hu p hpm, hu q (by rw [h2]; simp [hq])] at this

/-- A case of `C59_first_smallest_error_partial`: two means and two correlations, dimension one, 10 samples;
the linear mean with `Matern52` is the best. -/
example : findBestExpert .full ⟨true, true, false⟩ ⟨true, false, false, true⟩ 10 1
    (fun m c => .ok (if m = .linear ∧ c = .matern52 then .fin (1 / 2) else .fin 1))
    = .ok (.ok (.linear, .matern52)) ∧
    allowed ⟨true, true, false⟩ ⟨true, false, false, true⟩ =
      [(.constant, .squaredExponential), (.constant, .matern52), (.linear, .squaredExponential),
       (.linear, .matern52)] := by decide +kernel

/-- **C59** refuted in dimension two and more: with a linear (or quadratic) mean the correlation model is never
selected by cross validation, the first allowed one is taken, whatever the number of samples and the
errors. -/
theorem C59_refuted_dimension (n d : ℕ) (hd : 2 ≤ d) (quad : Bool) (e : MeanKind × CorrKind → Flt) :
    findBestExpert .full ⟨false, !quad, quad⟩ ⟨true, true, true, true⟩ n d (fun m c => .ok (e (m, c)))
      = .ok (.ok (if quad then .quadratic else .linear, .squaredExponential)) := by
  have h1 : min n 5 < 3 * d := by omega
  have h2 : min n 5 < 4 * d := by omega
  have hcs : allowedCorrs ⟨true, true, true, true⟩ =
      [.squaredExponential, .absoluteExponential, .matern32, .matern52] := rfl
  cases quad
  · have hms : allowedMeans ⟨false, true, false⟩ = [.linear] := rfl
    have he : ∀ c, computeError n d (fun m c => .ok (e (m, c))) .linear c = .ok .pinf := by
      intro c; simp [computeError]; omega
    simp only [findBestExpert, bestExpert, Bool.not_false, hms, hcs, combos, List.flatMap_cons, List.flatMap_nil,
      List.map_cons, List.map_nil, List.append_nil, List.mapM_cons, List.mapM_nil, he]
    rfl
  · have hms : allowedMeans ⟨false, false, true⟩ = [.quadratic] := rfl
    have he : ∀ c, computeError n d (fun m c => .ok (e (m, c))) .quadratic c = .ok .pinf := by
      intro c; simp [computeError]; omega
    simp only [findBestExpert, bestExpert, Bool.not_true, hms, hcs, combos, List.flatMap_cons, List.flatMap_nil,
      List.map_cons, List.map_nil, List.append_nil, List.mapM_cons, List.mapM_nil, he]
    rfl

/-- **C59** refuted in dimension two and more: a linear or quadratic mean is never preferred to a constant mean
having a finite error. -/
theorem C59_refuted_mean (rs : RegressionSpec) (cs : CorrelationSpec) (n d : ℕ) (hd : 2 ≤ d)
    (e : MeanKind × CorrKind → Flt) (a : MeanKind × CorrKind) (l : List (MeanKind × CorrKind))
    (hl : allowed rs cs = a :: l) (ha : e a ≠ .nan) (c : CorrKind)
    (hc : (.constant, c) ∈ allowed rs cs) (hfin : ∃ q, e (.constant, c) = .fin q) :
    ∃ c', findBestExpert .full rs cs n d (fun m c => .ok (e (m, c))) = .ok (.ok (.constant, c')) := by
  have hu : usedError n d e a ≠ .nan := by
    unfold usedError; split_ifs <;> simp [ha]
  obtain ⟨p, hp, h1, pre, post, h2, h3, h4⟩ := bestExpert_first rs cs n d e a l hl hu
  obtain ⟨q, hq⟩ := hfin
  have huc : usedError n d e (.constant, c) = .fin q := by simp [usedError, hq]
  have hne : usedError n d e p ≠ .pinf := by
    intro hinf
    have hmem := hc
    rw [h2, List.mem_append, List.mem_cons] at hmem
    rcases hmem with hm | hm | hm
    · rcases h3 _ hm with h | h
      · rw [huc] at h; simp at h
      · rw [hinf, huc] at h; simp [toE] at h
    · rw [hm, hinf] at huc; simp at huc
    · rcases h4 _ hm with h | h
      · rw [huc] at h; simp at h
      · rw [hinf, huc] at h; simp [toE] at h
  obtain ⟨m, c'⟩ := p
  refine ⟨c', ?_⟩
  have hm : m = .constant := by
    cases m with
    | constant => rfl
    | linear => exact absurd (by simp [usedError]; omega) hne
    | quadratic => exact absurd (by simp [usedError]; omega) hne
  subst hm
  simp [findBestExpert, hp, bind, Except.bind, dispatchExpert]

/-- A case of `C59_refuted_mean`: the linear mean is exact, the constant mean is selected. -/
example : findBestExpert .full ⟨true, true, false⟩ ⟨true, false, false, false⟩ 1000 2
    (fun m _ => .ok (if m = .linear then .fin 0 else .fin 1)) = .ok (.ok (.constant, .squaredExponential)) := by
  decide +kernel

/-- **C59** refuted in presence of NaN: an expert whose error is NaN is selected when it comes first. -/
theorem C59_refuted_nan : findBestExpert .full ⟨true, false, false⟩ ⟨true, false, true, false⟩ 10 1
    (fun _ c => .ok (if c = .squaredExponential then .nan else .fin 0))
    = .ok (.ok (.constant, .squaredExponential)) := by decide +kernel

/-- **C59** refuted for sparse Gaussian processes: whenever the selected mean is not constant the training
fails, although constant mean combinations are allowed. -/
theorem C59_refuted_sparse : findBestExpert .sparse ⟨true, true, false⟩ ⟨true, false, false, false⟩ 10 1
    (fun m _ => .ok (if m = .linear then .fin 0 else .fin 1)) = .ok (.error .expert) := by decide +kernel

/-- **C59**. Without any allowed model the selection panics. -/
theorem C59_empty_spec_panics (g : GpType) (rs : RegressionSpec) (cs : CorrelationSpec) (n d : ℕ)
    (cv : MeanKind → CorrKind → Except Panic Flt) (h : allowed rs cs = []) :
    findBestExpert g rs cs n d cv = .error .emptyReduction := by
  rcases bestExpert_cases rs cs n d cv with ⟨r, h1, h2⟩ | ⟨_, h2⟩
  · rw [h] at h1; simp at h1
  · unfold findBestExpert
    rw [h2, h]
    rfl

end Verif.Props
