import Verif.Model.Quality
import Verif.Props.Metrics
import Mathlib.Data.List.Sort

/-!
# C145: quality reports
-/

set_option autoImplicit false

namespace Verif.Props

open Verif Metrics Spec Quality

variable {X F : Type}

/-- The surrogates in a file: a vector, or one mixture. -/
def Contains (d : Decoder F X) (f : F) (gps : List (Saved X)) : Prop :=
  gps ≠ [] ∧ d.vector f = some gps ∨
    (d.vector f = none ∨ d.vector f = some []) ∧ ∃ gp, d.single f = some gp ∧ gps = [gp]

/-- A line with the metrics of a surrogate for `k` folds. -/
def Rated (ppf : ℝ → ℝ) (k : ℕ) (gp : Saved X) (l : Line) : Prop :=
  q2KScore gp.fit gp.rows k = .ok l.q2 ∧ pvaKScore gp.fit gp.rows k = .ok l.pva ∧
    ∃ v p, iaeAlphaKScore ppf gp.fit gp.rows k = .ok (v, p) ∧ l.iaeAlpha = some v

/-- The number of folds asked. -/
def foldsAsked (kfold n : ℕ) : ℕ := if kfold = 0 then n else kfold

theorem mapM_fun {α β : Type} {f : α → Except Panic β} {g : α → β} {l : List α} (h : ∀ a ∈ l, f a = .ok (g a)) :
    l.mapM f = .ok (l.map g) := by
  rw [mapM_ok, List.forall₂_map_right_iff, List.forall₂_same]
  exact h

theorem mapM_ok_exists {α β : Type} {f : α → Except Panic β} {l : List α} {r : List β} (h : l.mapM f = .ok r) :
    ∀ a ∈ l, ∃ b, f a = .ok b := by
  rw [mapM_ok] at h
  induction h with
  | nil => simp
  | cons hab _ ih =>
    intro c hc
    rcases List.mem_cons.1 hc with rfl | hc
    · exact ⟨_, hab⟩
    · exact ih c hc

theorem get_map {l : List Metric} {g : Metric → MetricResult} {m : Metric} (h : m ∈ l) :
    get (l.map fun a => (a, g a)) m = .ok (g m) := by
  have : ((l.map fun a => (a, g a)).reverse.find? fun s => s.1 = m) = some (m, g m) := by
    rw [← List.map_reverse, List.find?_map]
    have hm : m ∈ l.reverse := List.mem_reverse.2 h
    generalize l.reverse = r at hm
    induction r with
    | nil => simp at hm
    | cons a t ih =>
      by_cases ham : a = m
      · subst ham; simp
      · rw [List.find?_cons]
        simp only [Function.comp, ham, decide_false]
        exact ih ((List.mem_cons.1 hm).resolve_left (Ne.symm ham))
  rw [Quality.get, this]

theorem task_ok {ppf : ℝ → ℝ} {s : Schedule} {k : ℕ} {gp : Saved X} {i : ℕ}
    {t : (ℕ × Line) × Option (List ℝ × List ℝ)} :
    task ppf s k (gp, i) = .ok t ↔ ∃ q p v pl, q2KScore gp.fit gp.rows k = .ok q ∧ pvaKScore gp.fit gp.rows k = .ok p ∧
      iaeAlphaKScore ppf gp.fit gp.rows k = .ok (v, pl) ∧
      t = ((i, ⟨q, p, some v⟩), if i = 0 then some pl else none) := by
  have hmem : ∀ m, m ∈ s.inner i [Metric.q2, .pva, .iaeAlphaWithPlot] ↔ m = .q2 ∨ m = .pva ∨ m = .iaeAlphaWithPlot := by
    intro m
    rw [(s.inner_perm i _).mem_iff]
    simp
  constructor
  · intro h
    unfold task at h
    rw [bind_ok] at h
    obtain ⟨scores, hs, h⟩ := h
    have hex := mapM_ok_exists hs
    have h1 : ∃ q, q2KScore gp.fit gp.rows k = .ok q := by
      obtain ⟨b, hb⟩ := hex .q2 ((hmem _).2 (by simp))
      simp only [score, bind_ok] at hb
      obtain ⟨r, ⟨q, hq, -⟩, -⟩ := hb
      exact ⟨q, hq⟩
    have h2 : ∃ q, pvaKScore gp.fit gp.rows k = .ok q := by
      obtain ⟨b, hb⟩ := hex .pva ((hmem _).2 (by simp))
      simp only [score, bind_ok] at hb
      obtain ⟨r, ⟨q, hq, -⟩, -⟩ := hb
      exact ⟨q, hq⟩
    have h3 : ∃ q, iaeAlphaKScore ppf gp.fit gp.rows k = .ok q := by
      obtain ⟨b, hb⟩ := hex .iaeAlphaWithPlot ((hmem _).2 (by simp))
      simp only [score, bind_ok] at hb
      obtain ⟨r, ⟨q, hq, -⟩, -⟩ := hb
      exact ⟨q, hq⟩
    obtain ⟨q, hq⟩ := h1
    obtain ⟨p, hp⟩ := h2
    obtain ⟨v, hv⟩ := h3
    refine ⟨q, p, v.1, v.2, hq, hp, hv, ?_⟩
    let g : Metric → MetricResult := fun m => match m with
      | .q2 => ⟨.q2, q, none⟩
      | .pva => ⟨.pva, p, none⟩
      | .iaeAlpha => ⟨.iaeAlpha, some v.1, none⟩
      | .iaeAlphaWithPlot => ⟨.iaeAlphaWithPlot, some v.1, some v.2⟩
    have hf := mapM_fun (f := fun m => do let r ← score ppf gp m k; Except.ok (m, r))
      (g := fun m => (m, g m)) (l := s.inner i [Metric.q2, .pva, .iaeAlphaWithPlot]) (fun m _ => by
        cases m <;> simp [score, hq, hp, hv, bind, Except.bind, g])
    rw [hf, Except.ok.injEq] at hs
    subst hs
    rw [get_map ((hmem _).2 (by simp)), get_map ((hmem _).2 (by simp)), get_map ((hmem _).2 (by simp))] at h
    simp only [bind, Except.bind, Except.ok.injEq] at h
    rw [← h]
  · rintro ⟨q, p, v, pl, hq, hp, hv, rfl⟩
    let g : Metric → MetricResult := fun m => match m with
      | .q2 => ⟨.q2, q, none⟩
      | .pva => ⟨.pva, p, none⟩
      | .iaeAlpha => ⟨.iaeAlpha, some v, none⟩
      | .iaeAlphaWithPlot => ⟨.iaeAlphaWithPlot, some v, some pl⟩
    have hf := mapM_fun (f := fun m => do let r ← score ppf gp m k; Except.ok (m, r))
      (g := fun m => (m, g m)) (l := s.inner i [Metric.q2, .pva, .iaeAlphaWithPlot]) (fun m _ => by
        cases m <;> simp [score, hq, hp, hv, bind, Except.bind, g])
    unfold task
    rw [bind_ok]
    refine ⟨_, hf, ?_⟩
    rw [get_map ((hmem _).2 (by simp)), get_map ((hmem _).2 (by simp)), get_map ((hmem _).2 (by simp))]
    rfl

theorem computeMetrics_ok {ppf : ℝ → ℝ} {s : Schedule} {k : ℕ} {gp : Saved X} {gps : List (Saved X)} {r : Report} :
    computeMetrics ppf s (gp :: gps) k = .ok r ↔ ∃ ls v p, List.Forall₂ (Rated ppf k) (gp :: gps) ls ∧
      iaeAlphaKScore ppf gp.fit gp.rows k = .ok (v, p) ∧ r = ⟨ls.zipIdx, [p]⟩ := by
  have hperm := s.outer_perm (gp :: gps).zipIdx
  have key : ∀ g : Saved X → Line × (List ℝ × List ℝ),
      (∀ a ∈ gp :: gps, ∀ i, task ppf s k (a, i) = .ok ((i, (g a).1), if i = 0 then some (g a).2 else none)) →
      computeMetrics ppf s (gp :: gps) k = .ok ⟨((gp :: gps).map fun a => (g a).1).zipIdx, [(g gp).2]⟩ := by
    intro g hg
    have hf := mapM_fun (f := task ppf s k)
      (g := fun z : Saved X × ℕ => ((z.2, (g z.1).1), if z.2 = 0 then some (g z.1).2 else none))
      (l := s.outer (gp :: gps).zipIdx) (fun z hz => hg z.1 (List.fst_mem_of_mem_zipIdx (hperm.mem_iff.1 hz)) z.2)
    unfold computeMetrics
    rw [bind_ok]
    refine ⟨_, hf, ?_⟩
    simp only [Except.ok.injEq, List.map_map]
    congr 1
    · congr 1
      set l := (s.outer (gp :: gps).zipIdx).map (Prod.fst ∘ fun z : Saved X × ℕ =>
        ((z.2, (g z.1).1), if z.2 = 0 then some (g z.1).2 else none)) with hl
      have hp' : l.Perm ((gp :: gps).zipIdx.map fun z => (z.2, (g z.1).1)) := by
        rw [hl]
        exact hperm.map _
      have hlt : ((gp :: gps).zipIdx.map fun z : Saved X × ℕ => (z.2, (g z.1).1)).Pairwise fun a b => a.1 < b.1 := by
        rw [List.pairwise_map, List.pairwise_iff_getElem]
        intro i j hi hj hij
        simp only [List.getElem_zipIdx]
        omega
      have hinj : ∀ a ∈ (gp :: gps).zipIdx.map (fun z : Saved X × ℕ => (z.2, (g z.1).1)), ∀ b ∈
          (gp :: gps).zipIdx.map (fun z : Saved X × ℕ => (z.2, (g z.1).1)), a.1 = b.1 → a = b := by
        intro a ha b hb hab
        obtain ⟨⟨x, i⟩, hx, rfl⟩ := List.mem_map.1 ha
        obtain ⟨⟨y, j⟩, hy, rfl⟩ := List.mem_map.1 hb
        rw [List.mem_zipIdx_iff_getElem?] at hx hy
        simp only at hab hx hy
        subst hab
        rw [hx] at hy
        cases hy
        rfl
      have hsort : l.mergeSort (fun a b => decide (a.1 ≤ b.1)) =
          (gp :: gps).zipIdx.map fun z : Saved X × ℕ => (z.2, (g z.1).1) := by
        refine List.Perm.eq_of_pairwise (le := fun a b => a.1 ≤ b.1) ?_ ?_ ?_
          ((List.mergeSort_perm l _).trans hp')
        · intro a b ha hb h1 h2
          exact hinj a ((List.mergeSort_perm l _).trans hp' |>.mem_iff.1 ha) b hb (le_antisymm h1 h2)
        · have := List.pairwise_mergeSort (le := fun a b : ℕ × Line => decide (a.1 ≤ b.1))
            (fun a b c => by simpa using le_trans) (fun a b => by simpa using le_total a.1 b.1) l
          simpa using this
        · exact hlt.imp fun h => le_of_lt h
      rw [hsort, List.map_map]
      have : (Prod.snd ∘ fun z : Saved X × ℕ => (z.2, (g z.1).1)) = (fun a => (g a).1) ∘ Prod.fst := rfl
      rw [this, ← List.map_map, List.zipIdx_map_fst]
    · refine List.perm_singleton.1 ?_
      rw [List.filterMap_map]
      refine (hperm.filterMap _).trans ?_
      rw [List.zipIdx_cons, List.filterMap_cons]
      simp only [Function.comp, if_true, zero_add]
      have : (gps.zipIdx 1).filterMap (Prod.snd ∘ fun z : Saved X × ℕ =>
          ((z.2, (g z.1).1), if z.2 = 0 then some (g z.1).2 else none)) = [] := by
        rw [List.filterMap_eq_nil_iff]
        intro z hz
        have := List.le_snd_of_mem_zipIdx hz
        simp only [Function.comp]
        rw [if_neg (by omega)]
      have h' : (gps.zipIdx 1).filterMap (fun z : Saved X × ℕ => if z.2 = 0 then some (g z.1).2 else none) = [] := this
      rw [h']
  constructor
  · intro h
    have h0 := h
    unfold computeMetrics at h0
    rw [bind_ok] at h0
    obtain ⟨res, hres, -⟩ := h0
    have hex : ∀ a ∈ gp :: gps, ∃ l : Line × (List ℝ × List ℝ), q2KScore a.fit a.rows k = .ok l.1.q2 ∧
        pvaKScore a.fit a.rows k = .ok l.1.pva ∧ ∃ v, iaeAlphaKScore ppf a.fit a.rows k = .ok (v, l.2) ∧
        l.1.iaeAlpha = some v := by
      intro a ha
      obtain ⟨i, hi, hai⟩ := List.getElem_of_mem ha
      obtain ⟨b, hb⟩ := mapM_ok_exists hres (a, i) (hperm.mem_iff.2 (by
        rw [List.mem_zipIdx_iff_getElem?]
        simp [List.getElem?_eq_getElem hi, hai]))
      obtain ⟨q, p, v, pl, h1, h2, h3, -⟩ := task_ok.1 hb
      exact ⟨(⟨q, p, some v⟩, pl), h1, h2, v, h3, rfl⟩
    have : Nonempty (Line × (List ℝ × List ℝ)) := ⟨(⟨none, none, none⟩, [], [])⟩
    choose! g hg using hex
    rw [key g fun a ha i => task_ok.2 (by
      obtain ⟨h1, h2, v, h3, h4⟩ := hg a ha
      exact ⟨_, _, v, (g a).2, h1, h2, h3, by rw [← h4]⟩)] at h
    cases h
    obtain ⟨-, -, v, h3, -⟩ := hg gp List.mem_cons_self
    refine ⟨_, v, (g gp).2, ?_, h3, rfl⟩
    rw [List.forall₂_map_right_iff, List.forall₂_same]
    intro a ha
    obtain ⟨h1, h2, v, h3, h4⟩ := hg a ha
    exact ⟨h1, h2, v, _, h3, h4⟩
  · rintro ⟨ls, v, p, hr, hv, rfl⟩
    have hex : ∀ a ∈ gp :: gps, ∃ l : Line × (List ℝ × List ℝ), q2KScore a.fit a.rows k = .ok l.1.q2 ∧
        pvaKScore a.fit a.rows k = .ok l.1.pva ∧ ∃ v, iaeAlphaKScore ppf a.fit a.rows k = .ok (v, l.2) ∧
        l.1.iaeAlpha = some v := by
      intro a ha
      obtain ⟨i, hi, rfl⟩ := List.getElem_of_mem ha
      obtain ⟨h1, h2, v, p, h3, h4⟩ := (List.forall₂_iff_get.1 hr).2 i hi ((List.forall₂_iff_get.1 hr).1 ▸ hi)
      exact ⟨(_, p), h1, h2, v, h3, h4⟩
    have : Nonempty (Line × (List ℝ × List ℝ)) := ⟨(⟨none, none, none⟩, [], [])⟩
    choose! g hg using hex
    rw [key g fun a ha i => task_ok.2 (by
      obtain ⟨h1, h2, v, h3, h4⟩ := hg a ha
      exact ⟨_, _, v, (g a).2, h1, h2, h3, by rw [← h4]⟩)]
    have hls : ls = (gp :: gps).map fun a => (g a).1 := by
      refine List.ext_getElem (by simpa using (List.forall₂_iff_get.1 hr).1.symm) fun i hi hi' => ?_
      have hi2 : i < (gp :: gps).length := (List.forall₂_iff_get.1 hr).1 ▸ hi
      obtain ⟨h1, h2, v, p, h3, h4⟩ := (List.forall₂_iff_get.1 hr).2 i hi2 hi
      obtain ⟨e1, e2, v', e3, e4⟩ := hg (gp :: gps)[i] (List.getElem_mem hi2)
      simp only [List.get_eq_getElem] at h1 h2 h3 h4
      rw [h1, Except.ok.injEq] at e1
      rw [h2, Except.ok.injEq] at e2
      rw [h3] at e3
      cases e3
      rw [List.getElem_map]
      cases hl : ls[i]
      cases hl' : (g (gp :: gps)[i]).1
      rw [hl] at e1 e2 h4
      rw [hl'] at e1 e2 e4
      simp_all
    obtain ⟨-, -, v', h3, -⟩ := hg gp List.mem_cons_self
    rw [hv] at h3
    cases h3
    rw [hls]

theorem load_ok {d : Decoder F X} {f : F} {gps : List (Saved X)} : load d f = .ok gps ↔ Contains d f gps := by
  unfold load Contains
  rcases h : d.vector f with _ | l
  · rcases h' : d.single f with _ | gp <;> simp [eq_comm]
  · rcases l with _ | ⟨a, l⟩
    · rcases h' : d.single f with _ | gp
      · simp [eq_comm]
      · simp only [Option.getD_some, List.isEmpty_nil, if_true, Except.ok.injEq, Option.some.injEq]
        constructor
        · rintro rfl
          exact Or.inr ⟨Or.inr trivial, gp, rfl, rfl⟩
        · rintro (⟨h1, h2⟩ | ⟨-, gp', rfl, rfl⟩)
          · exact absurd h2.symm h1
          · rfl
    · simp only [Option.getD_some, List.isEmpty_cons, Option.some.injEq]
      constructor
      · intro h1
        simp only [Bool.false_eq_true, if_false, Except.ok.injEq] at h1
        subst h1
        exact Or.inl ⟨by simp, rfl⟩
      · rintro (⟨h1, h2⟩ | ⟨h1, -⟩)
        · simp [h2]
        · simp at h1

/-- **C145.** Whatever the scheduling of the parallel tasks, there is a report exactly when the metrics of each surrogate in
the file can be computed, and it has a line per surrogate, in the order of the file and numbered from zero, each with the
metrics of this surrogate, and the plot data of the first one. -/
theorem C145_report (ppf : ℝ → ℝ) (s : Schedule) (d : Decoder F X) (f : F) (kfold : ℕ) (r : Report) :
    Quality.main ppf s d f kfold = .ok r ↔ ∃ gp gps, Contains d f (gp :: gps) ∧
      ∃ ls v p, List.Forall₂ (Rated ppf (foldsAsked kfold gp.rows.length)) (gp :: gps) ls ∧
        iaeAlphaKScore ppf gp.fit gp.rows (foldsAsked kfold gp.rows.length) = .ok (v, p) ∧ r = ⟨ls.zipIdx, [p]⟩ := by
  have hb : ∀ gps, (Quality.main ppf s d f kfold = .ok r ∧ load d f = .ok gps) ↔ load d f = .ok gps ∧ ∃ gp t, gps = gp :: t ∧
      computeMetrics ppf s gps (foldsAsked kfold gp.rows.length) = .ok r := by
    intro gps
    constructor
    · rintro ⟨h1, h2⟩
      refine ⟨h2, ?_⟩
      unfold Quality.main at h1
      rw [h2] at h1
      simp only [bind, Except.bind] at h1
      cases gps with
      | nil => simp at h1
      | cons gp t =>
        refine ⟨gp, t, rfl, ?_⟩
        simp only [foldsAsked]
        rcases h3 : computeMetrics ppf s (gp :: t) (if kfold = 0 then gp.rows.length else kfold) with e | r'
        · simp [h3] at h1
        · simpa [h3] using h1
    · rintro ⟨h2, gp, t, rfl, h3⟩
      refine ⟨?_, h2⟩
      unfold Quality.main
      rw [h2]
      simp only [bind, Except.bind]
      simp only [foldsAsked] at h3
      rw [h3]
  constructor
  · intro h
    have : ∃ gps, load d f = .ok gps := by
      unfold Quality.main at h
      rcases hl : load d f with e | gps
      · rw [hl] at h
        simp [bind, Except.bind] at h
      · exact ⟨gps, rfl⟩
    obtain ⟨gps, hl⟩ := this
    obtain ⟨-, gp, t, rfl, h3⟩ := (hb gps).1 ⟨h, hl⟩
    exact ⟨gp, t, load_ok.1 hl, computeMetrics_ok.1 h3⟩
  · rintro ⟨gp, gps, hc, h⟩
    exact ((hb (gp :: gps)).2 ⟨load_ok.2 hc, gp, gps, rfl, computeMetrics_ok.2 h⟩).1

/-- **C145.** The report does not depend on the scheduling. -/
theorem C145_scheduling (ppf : ℝ → ℝ) (s s' : Schedule) (d : Decoder F X) (f : F) (kfold : ℕ) (r : Report) :
    Quality.main ppf s d f kfold = .ok r ↔ Quality.main ppf s' d f kfold = .ok r := by
  rw [C145_report, C145_report]

/-- The models of the cross validation of a surrogate can be trained. -/
theorem rated_iff (ppf : ℝ → ℝ) (k : ℕ) (gp : Saved X) : (∃ l, Rated ppf k gp l) ↔ ∃ M, CrossModels gp.fit gp.rows k M := by
  constructor
  · rintro ⟨l, -, -, v, p, h, -⟩
    unfold iaeAlphaKScore at h
    rw [bind_ok] at h
    obtain ⟨folds, hf, h⟩ := h
    rw [bind_ok] at h
    obtain ⟨ms, hms, -⟩ := h
    obtain ⟨h2, hk⟩ := (C61_fold_ok_iff gp.rows k).1 ⟨folds, hf⟩
    rw [fold_eq gp.rows k h2 hk] at hf
    cases hf
    have hex : ∀ i < k, ∃ m, gp.fit (others gp.rows (gp.rows.length / k) i) = some m := by
      intro i hi
      obtain ⟨b, hb⟩ := mapM_ok_exists hms _ (List.mem_map.2 ⟨i, List.mem_range.2 hi, rfl⟩)
      simp only [withModel, fitted, bind_ok] at hb
      obtain ⟨m, hm, -⟩ := hb
      rcases h : gp.fit (others gp.rows (gp.rows.length / k) i) with _ | m'
      · rw [h] at hm
        simp at hm
      · exact ⟨m', rfl⟩
    have : Nonempty (Fitted X) := ⟨⟨fun _ => 0, fun _ => 0⟩⟩
    choose! M hM using hex
    exact ⟨M, h2, hk, hM⟩
  · rintro ⟨M, hM⟩
    have h1 : ∃ q, q2KScore gp.fit gp.rows k = .ok q := by
      by_cases h0 : sumValidated gp.rows k (fun _ r => (r.2 - meanOutput gp.rows) ^ 2) = 0
      · exact ⟨_, (C61_q2_value _ _ _ _ hM).2 h0⟩
      · exact ⟨_, (C61_q2_value _ _ _ _ hM).1 h0⟩
    obtain ⟨q, hq⟩ := h1
    exact ⟨⟨q, _, some _⟩, hq, C61_pva_value _ _ _ _ hM, _, _, C84_value ppf _ _ _ _ hM, rfl⟩

/-- **C145.** There is a report exactly when there are at least two folds, no more folds than training points of any of the
surrogates, and each surrogate can be trained without each of its folds. -/
theorem C145_succeeds_iff (ppf : ℝ → ℝ) (s : Schedule) (d : Decoder F X) (f : F) (kfold : ℕ) :
    (∃ r, Quality.main ppf s d f kfold = .ok r) ↔ ∃ gp gps, Contains d f (gp :: gps) ∧ ∀ g ∈ gp :: gps,
      ∃ M, CrossModels g.fit g.rows (foldsAsked kfold gp.rows.length) M := by
  constructor
  · rintro ⟨r, hr⟩
    obtain ⟨gp, gps, hc, ls, v, p, hl, -, -⟩ := (C145_report ppf s d f kfold r).1 hr
    refine ⟨gp, gps, hc, fun g hg => (rated_iff ppf _ g).1 ?_⟩
    obtain ⟨i, hi, rfl⟩ := List.getElem_of_mem hg
    exact ⟨_, (List.forall₂_iff_get.1 hl).2 i hi ((List.forall₂_iff_get.1 hl).1 ▸ hi)⟩
  · rintro ⟨gp, gps, hc, h⟩
    have hex : ∀ g ∈ gp :: gps, ∃ l, Rated ppf (foldsAsked kfold gp.rows.length) g l :=
      fun g hg => (rated_iff ppf _ g).2 (h g hg)
    have : Nonempty Line := ⟨⟨none, none, none⟩⟩
    choose! L hL using hex
    obtain ⟨-, -, v, p, hv, -⟩ := hL gp List.mem_cons_self
    refine ⟨_, (C145_report ppf s d f kfold _).2 ⟨gp, gps, hc, (gp :: gps).map L, v, p, ?_, hv, rfl⟩⟩
    rw [List.forall₂_map_right_iff, List.forall₂_same]
    exact hL

/-- **C145.** Without a number of folds, for surrogates with the same number of training points, which is the case of the
objective and the constraints saved by the optimizer, each line has the leave-one-out metrics. -/
theorem C145_leave_one_out (ppf : ℝ → ℝ) (s : Schedule) (d : Decoder F X) (f : F) (gps : List (Saved X)) (n : ℕ)
    (hc : Contains d f gps) (hn : ∀ gp ∈ gps, gp.rows.length = n) (r : Report) (h : Quality.main ppf s d f 0 = .ok r) :
    List.Forall₂ (fun (gp : Saved X) (l : Line × ℕ) => q2Score gp.fit gp.rows = .ok l.1.q2 ∧
      pvaScore gp.fit gp.rows = .ok l.1.pva ∧
      ∃ v p, iaeAlphaScore ppf gp.fit gp.rows = .ok (v, p) ∧ l.1.iaeAlpha = some v) gps r.lines := by
  obtain ⟨gp, t, hc', ls, v, p, hl, -, rfl⟩ := (C145_report ppf s d f 0 r).1 h
  have he : gps = gp :: t := by
    have := load_ok.2 hc
    rw [load_ok.2 hc'] at this
    cases this
    rfl
  subst he
  rw [List.forall₂_iff_get] at hl ⊢
  refine ⟨by simpa using hl.1, fun i hi hi' => ?_⟩
  have hi2 : i < ls.length := hl.1 ▸ hi
  have h1 := hl.2 i hi hi2
  have hk : foldsAsked 0 gp.rows.length = ((gp :: t).get ⟨i, hi⟩).rows.length := by
    rw [foldsAsked, if_pos rfl, hn gp List.mem_cons_self, hn _ (List.get_mem _ _)]
  rw [hk] at h1
  simpa [Rated, q2Score, pvaScore, iaeAlphaScore] using h1

/-- **C145.** The number of folds is taken from the first surrogate: without a number of folds, a file with a surrogate which
has less training points than the first one gives no report. -/
theorem C145_fewer_points (ppf : ℝ → ℝ) (s : Schedule) (d : Decoder F X) (f : F) (gp : Saved X) (gps : List (Saved X))
    (hc : Contains d f (gp :: gps)) (g : Saved X) (hg : g ∈ gps) (hlt : g.rows.length < gp.rows.length) :
    ∀ r, Quality.main ppf s d f 0 ≠ .ok r := by
  intro r hr
  obtain ⟨gp', gps', hc', h⟩ := (C145_succeeds_iff ppf s d f 0).1 ⟨r, hr⟩
  have := load_ok.2 hc
  rw [load_ok.2 hc'] at this
  cases this
  obtain ⟨M, hM⟩ := h g (List.mem_cons_of_mem _ hg)
  have := hM.le
  rw [foldsAsked, if_pos rfl] at this
  omega

/-- Reversed order of the tasks. -/
def reversed : Schedule := ⟨List.reverse, fun _ => List.reverse, List.reverse_perm, fun _ => List.reverse_perm⟩

/-- The surrogate which predicts the mean of its training outputs. -/
noncomputable def meanSurrogate (rows : List (ℝ × ℝ)) : Saved ℝ := ⟨rows, fun t => some ⟨fun _ => meanOutput t, fun _ => 1⟩⟩

/-- Case: a file with two surrogates gives a report with tasks which end in reversed order. -/
example (ppf : ℝ → ℝ) : ∃ r, Quality.main ppf reversed
    (⟨fun l => some (l.map meanSurrogate), fun _ => none⟩ : Decoder (List (List (ℝ × ℝ))) ℝ)
    [[(0, 0), (1, 1)], [(0, 3), (1, 5)]] 0 = .ok r := by
  rw [C145_succeeds_iff]
  refine ⟨meanSurrogate [(0, 0), (1, 1)], [meanSurrogate [(0, 3), (1, 5)]], Or.inl ⟨by simp, rfl⟩, ?_⟩
  intro g hg
  simp only [List.mem_cons, List.not_mem_nil, or_false] at hg
  rcases hg with rfl | rfl <;> exact ⟨_, by norm_num [foldsAsked, meanSurrogate], by norm_num [foldsAsked, meanSurrogate],
    fun _ _ => rfl⟩

end Verif.Props
