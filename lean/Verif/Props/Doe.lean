import Verif.Lemmas.FullFact

/-!
# Properties of the sampling methods (C01-C06)
-/

set_option autoImplicit false
set_option linter.unusedSectionVars false

namespace Verif.Props

open Verif Verif.Doe

variable {ns nx : ℕ}

/-! ## The optimizer -/

/-- Invariant of the loops of `_maximin_ese` started from `x`. -/
structure EseInv (x : Design ns nx) (s : Ese ns nx) : Prop where
  temp : 0 ≤ s.t
  own : s.phip = Spec.phiP 10 s.own
  best : s.phipBest = Spec.phiP 10 s.best
  le : s.phipBest ≤ s.phip
  init : s.phipBest ≤ Spec.phiP 10 x
  seen : ∀ d ∈ s.seen, s.phipBest ≤ Spec.phiP 10 d
  bestSeen : s.best = x ∨ s.best ∈ s.seen
  latinOwn : Spec.Latin x → Spec.Latin s.own
  latinBest : Spec.Latin x → Spec.Latin s.best

theorem eseInit_inv (x : Design ns nx) : EseInv x (eseInit 10 x) where
  temp := mul_nonneg (by norm_num) (by rw [phip_eq]; exact phiP_nonneg _ _)
  own := phip_eq _ _
  best := phip_eq _ _
  le := le_rfl
  init := (phip_eq _ _).le
  seen := by simp [eseInit]
  bestSeen := Or.inl rfl
  latinOwn := id
  latinBest := id

theorem phipSwap_fst (p : ℝ) (x : Design ns nx) (k : Fin nx) (ph : ℝ) (i1 i2 : Fin ns) :
    (phipSwap p x k ph i1 i2).1 = swapCell x k i1 i2 := rfl

theorem eseInner_inv {x : Design ns nx} {k : Fin nx} {c : EseChoice ns} {s : Ese ns nx} {n : ℕ × ℕ}
    {r : Ese ns nx × (ℕ × ℕ)} (hs : EseInv x s) (hr : 0 ≤ c.r) (h : eseInner 10 k c s n = .ok r) :
    EseInv x r.1 := by
  unfold eseInner at h
  have hcand : ∀ q ∈ (c.swaps.map fun q => phipSwap 10 s.own k s.phip q.1.1 q.1.2),
      q.2 = Spec.phiP 10 q.1 ∧ (Spec.Latin x → Spec.Latin q.1) := by
    intro q hq
    rw [List.mem_map] at hq
    obtain ⟨⟨⟨i1, i2⟩, hne⟩, _, rfl⟩ := hq
    constructor
    · simp only [hs.own]
      rw [phipSwap_value 10 (by norm_num) _ _ k i1 i2 hne (swapCell_exchanged _ _ _ _)]
      rfl
    · intro hl
      exact swapCell_latin _ _ _ _ (hs.latinOwn hl)
  simp only [bind_ok] at h
  obtain ⟨kb, hkb, h⟩ := h
  set cands := (c.swaps.map fun q => phipSwap 10 s.own k s.phip q.1.1 q.1.2) with hc
  have hmin : ∀ (a : Design ns nx) (b : ℝ), cands[kb]? = some (a, b) →
      ∀ q ∈ cands, b ≤ Spec.phiP 10 q.1 := by
    intro a b hab q hq
    have hne : cands.map Prod.snd ≠ [] := by
      intro hnil
      have : cands = [] := by simpa using hnil
      simp [this] at hq
    obtain ⟨k', hk', ha, hm, _⟩ := MixInt.argmin_spec (cands.map Prod.snd) hne
    rw [ha] at hkb
    simp only [Except.ok.injEq] at hkb
    subst hkb
    have := hm q.2 (List.mem_map_of_mem hq)
    rw [List.getElem_map] at this
    obtain ⟨hlt, he⟩ := List.getElem?_eq_some_iff.mp hab
    rw [he] at this
    rw [← (hcand q hq).1]; exact this
  split at h
  · simp at h
  · rename_i xT pT hget
    have hmem : (xT, pT) ∈ cands := List.mem_of_getElem? hget
    have hpt : pT = Spec.phiP 10 xT := (hcand _ hmem).1
    have hlat := (hcand _ hmem).2
    have hall := hmin xT pT hget
    have hseen : ∀ d ∈ s.seen ++ cands.map Prod.fst, min s.phipBest pT ≤ Spec.phiP 10 d := by
      intro d hd
      rcases List.mem_append.mp hd with hd | hd
      · exact le_trans (min_le_left _ _) (hs.seen d hd)
      · obtain ⟨q, hq, rfl⟩ := List.mem_map.mp hd
        exact le_trans (min_le_right _ _) (hall q hq)
    have hxmem : xT ∈ s.seen ++ cands.map Prod.fst :=
      List.mem_append_right _ (List.mem_map_of_mem (f := Prod.fst) hmem)
    have hbs : s.best = x ∨ s.best ∈ s.seen ++ cands.map Prod.fst :=
      hs.bestSeen.imp id fun h => List.mem_append_left _ h
    split_ifs at h with h1 h2 <;> simp only [Except.ok.injEq] at h <;> subst h
    · exact {
        temp := hs.temp, own := hpt, best := hpt, le := le_rfl, init := le_trans h2.le hs.init
        seen := fun d hd => by have := hseen d hd; rwa [min_eq_right h2.le] at this
        bestSeen := Or.inr hxmem, latinOwn := hlat, latinBest := hlat }
    · exact {
        temp := hs.temp, own := hpt, best := hs.best, le := not_lt.mp h2, init := hs.init
        seen := fun d hd => by have := hseen d hd; rwa [min_eq_left (not_lt.mp h2)] at this
        bestSeen := hbs, latinOwn := hlat, latinBest := hs.latinBest }
    · have hp : s.phipBest ≤ pT := by
        have := mul_nonneg hs.temp hr
        have := hs.le
        push Not at h1
        linarith
      exact {
        temp := hs.temp, own := hs.own, best := hs.best, le := hs.le, init := hs.init
        seen := fun d hd => by have := hseen d hd; rwa [min_eq_left hp] at this
        bestSeen := hbs, latinOwn := hs.latinOwn, latinBest := hs.latinBest }

theorem eseInnerLoop_inv {x : Design ns nx} {hx : 0 < nx} (cs : List (EseChoice ns)) :
    ∀ {i : ℕ} {s : Ese ns nx} {n : ℕ × ℕ} {r : Ese ns nx × (ℕ × ℕ)}, EseInv x s →
    (∀ c ∈ cs, 0 ≤ c.r) → eseInnerLoop 10 hx i s n cs = .ok r → EseInv x r.1 := by
  induction cs with
  | nil =>
    intro i s n r hs _ h
    simp only [eseInnerLoop, Except.ok.injEq] at h
    subst h; exact hs
  | cons c cs ih =>
    intro i s n r hs hc h
    simp only [eseInnerLoop, bind_ok] at h
    obtain ⟨a, ha, h⟩ := h
    exact ih (eseInner_inv hs (hc c (by simp)) ha) (fun c hc' => hc c (by simp [hc'])) h

theorem eseTemp_nonneg (n : ℕ) (s : Ese ns nx) (c : ℕ × ℕ) (h : 0 ≤ s.t) : 0 ≤ eseTemp n s c := by
  unfold eseTemp
  simp only
  split_ifs <;> positivity

theorem eseOuterLoop_inv {x : Design ns nx} {hx : 0 < nx} (css : List (List (EseChoice ns))) :
    ∀ {s s' : Ese ns nx}, EseInv x s → (∀ cs ∈ css, ∀ c ∈ cs, 0 ≤ c.r) →
    eseOuterLoop 10 hx s css = .ok s' → EseInv x s' := by
  induction css with
  | nil =>
    intro s s' hs _ h
    simp only [eseOuterLoop, Except.ok.injEq] at h
    subst h; exact hs
  | cons cs css ih =>
    intro s s' hs hc h
    simp only [eseOuterLoop, bind_ok] at h
    obtain ⟨a, ha, h⟩ := h
    have hi := eseInnerLoop_inv cs hs (hc cs (by simp)) ha
    refine ih ?_ (fun c hc' => hc c (by simp [hc'])) h
    exact { hi with temp := eseTemp_nonneg _ _ _ hi.temp }

/-- C03. The optimizer returns a design whose criterion is at most that of the initial design and that of
every design built by an exchange, accepted or not; it returns one of these. -/
theorem C03_optimizer_keeps_best (hx : 0 < nx) (x : Design ns nx) (css : List (List (EseChoice ns)))
    (hr : ∀ cs ∈ css, ∀ c ∈ cs, 0 ≤ c.r) (s : Ese ns nx) (h : maximinEse hx x css = .ok s) :
    Spec.phiP 10 s.best ≤ Spec.phiP 10 x ∧ (∀ d ∈ s.seen, Spec.phiP 10 s.best ≤ Spec.phiP 10 d) ∧
      (s.best = x ∨ s.best ∈ s.seen) := by
  have hi := eseOuterLoop_inv css (eseInit_inv x) hr h
  exact ⟨by rw [← hi.best]; exact hi.init, fun d hd => by rw [← hi.best]; exact hi.seen d hd, hi.bestSeen⟩

/-- C03. The recorded designs contain every candidate of an inner iteration: the current design with two
values of one column exchanged. -/
theorem C03_seen_has_candidates {k : Fin nx} {c : EseChoice ns} {s : Ese ns nx} {n : ℕ × ℕ}
    {r : Ese ns nx × (ℕ × ℕ)} (h : eseInner 10 k c s n = .ok r) :
    s.seen ⊆ r.1.seen ∧ (∀ q ∈ c.swaps, ∃ d ∈ r.1.seen, Spec.Exchanged s.own d k q.1.1 q.1.2) ∧
      (r.1.own = s.own ∨ r.1.own ∈ r.1.seen) := by
  unfold eseInner at h
  simp only [bind_ok] at h
  obtain ⟨kb, hkb, h⟩ := h
  have hex : ∀ q ∈ c.swaps, ∃ d ∈ s.seen ++
      (c.swaps.map fun q => phipSwap 10 s.own k s.phip q.1.1 q.1.2).map Prod.fst,
      Spec.Exchanged s.own d k q.1.1 q.1.2 := by
    intro q hq
    refine ⟨swapCell s.own k q.1.1 q.1.2, List.mem_append_right _ ?_, swapCell_exchanged _ _ _ _⟩
    rw [List.map_map, List.mem_map]
    exact ⟨q, hq, rfl⟩
  split at h
  · simp at h
  · rename_i xT pT hget
    have hmem := List.mem_map_of_mem (f := Prod.fst) (List.mem_of_getElem? hget)
    split_ifs at h <;> simp only [Except.ok.injEq] at h <;> subst h
    · exact ⟨List.subset_append_left _ _, hex, Or.inr (List.mem_append_right _ hmem)⟩
    · exact ⟨List.subset_append_left _ _, hex, Or.inr (List.mem_append_right _ hmem)⟩
    · exact ⟨List.subset_append_left _ _, hex, Or.inl rfl⟩

/-- C04. Exchange of the values of two rows in a column: the updated criterion is the criterion of the
exchanged design, for any exponent. -/
theorem C04_incremental_criterion (p : ℝ) (hp : p ≠ 0) (x : Design ns nx) (k : Fin nx) (i1 i2 : Fin ns)
    (hne : i1 ≠ i2) :
    Spec.Exchanged x (phipSwap p x k (Spec.phiP p x) i1 i2).1 k i1 i2 ∧
      (phipSwap p x k (Spec.phiP p x) i1 i2).2 = Spec.phiP p (phipSwap p x k (Spec.phiP p x) i1 i2).1 :=
  ⟨swapCell_exchanged _ _ _ _, phipSwap_value p hp x _ k i1 i2 hne (swapCell_exchanged _ _ _ _)⟩

/-- C04. The criterion computed from scratch by `_phip` is `phi_p`. -/
theorem C04_criterion_from_scratch (p : ℝ) (x : Design ns nx) : phip p x = Spec.phiP p x := phip_eq p x

/-! ## Maximin -/

theorem pairs_mem (p : Fin ns × Fin ns) : p ∈ pairs ns ↔ p.1 < p.2 := by
  simp only [pairs, List.mem_flatMap, List.mem_map, List.mem_filter, List.mem_finRange, true_and,
    decide_eq_true_eq]
  constructor
  · rintro ⟨i, j, h, rfl⟩; exact h
  · intro h; exact ⟨p.1, p.2, h, rfl⟩

theorem foldl_min_spec (es : List ℝ) : ∀ e : ℝ,
    (es.foldl (fun a b => if b < a then b else a) e) ∈ e :: es ∧
      ∀ v ∈ e :: es, es.foldl (fun a b => if b < a then b else a) e ≤ v := by
  induction es with
  | nil => intro e; simp
  | cons a es ih =>
    intro e
    rw [List.foldl_cons]
    obtain ⟨h1, h2⟩ := ih (if a < e then a else e)
    constructor
    · rcases List.mem_cons.mp h1 with h | h
      · rw [h]; split_ifs <;> simp
      · simp [h]
    · intro v hv
      have hle := h2 _ (List.mem_cons_self)
      rcases List.mem_cons.mp hv with rfl | hv
      · exact le_trans hle (by split_ifs with h <;> [exact h.le; exact le_rfl])
      · rcases List.mem_cons.mp hv with rfl | hv
        · exact le_trans hle (by split_ifs with h <;> [exact le_rfl; exact not_lt.mp h])
        · exact h2 v (by simp [hv])

theorem listMin_isMinDist {x : Design ns nx} {m : ℝ} (h : listMin (pdist x) = .ok m) :
    Spec.IsMinDist x m := by
  have hmem : ∀ v, v ∈ pdist x ↔ ∃ i j, i < j ∧ v = Spec.euclid (x i) (x j) := by
    intro v
    simp only [pdist, List.mem_map, pairs_mem]
    constructor
    · rintro ⟨p, hp, rfl⟩; exact ⟨p.1, p.2, hp, rfl⟩
    · rintro ⟨i, j, hij, rfl⟩; exact ⟨(i, j), hij, rfl⟩
  cases hl : pdist x with
  | nil => simp [hl, listMin] at h
  | cons e es =>
    rw [hl] at h
    simp only [listMin, Except.ok.injEq] at h
    obtain ⟨h1, h2⟩ := foldl_min_spec es e
    rw [h] at h1 h2
    rw [← hl] at h1 h2
    exact ⟨(hmem m).mp h1, fun i j hij => h2 _ ((hmem _).mpr ⟨i, j, hij, rfl⟩)⟩

theorem maximinLoop_spec (ds : List (Design ns nx)) : ∀ (m : ℝ) (b x : Design ns nx),
    Spec.IsMinDist b m → maximinLoop m b ds = .ok x →
    ∃ mx, Spec.IsMinDist x mx ∧ m ≤ mx ∧ (∀ d ∈ ds, ∃ md, Spec.IsMinDist d md ∧ md ≤ mx) ∧
      ((x = b ∧ mx = m) ∨ (m < mx ∧ ∃ k, ∃ hk : k < ds.length, x = ds[k] ∧
        ∀ j (hj : j < k), ∃ md, Spec.IsMinDist ds[j] md ∧ md < mx)) := by
  induction ds with
  | nil =>
    intro m b x hb h
    simp only [maximinLoop, Except.ok.injEq] at h
    subst h
    exact ⟨m, hb, le_rfl, by simp, Or.inl ⟨rfl, rfl⟩⟩
  | cons d ds ih =>
    intro m b x hb h
    simp only [maximinLoop, bind_ok] at h
    obtain ⟨md, hmd, h⟩ := h
    have hd := listMin_isMinDist hmd
    split_ifs at h with hlt
    · obtain ⟨mx, h1, h2, h3, h4⟩ := ih md d x hd h
      refine ⟨mx, h1, le_trans hlt.le h2, ?_, Or.inr ⟨lt_of_lt_of_le hlt h2, ?_⟩⟩
      · intro d' hd'
        rcases List.mem_cons.mp hd' with rfl | hd'
        · exact ⟨md, hd, h2⟩
        · exact h3 d' hd'
      · rcases h4 with ⟨rfl, rfl⟩ | ⟨hl, k, hk, hx, hj⟩
        · exact ⟨0, by simp, rfl, by omega⟩
        · refine ⟨k + 1, by simpa using hk, by simpa using hx, ?_⟩
          intro j hjk
          cases j with
          | zero => exact ⟨md, hd, hl⟩
          | succ j => exact hj j (by omega)
    · push Not at hlt
      obtain ⟨mx, h1, h2, h3, h4⟩ := ih m b x hb h
      refine ⟨mx, h1, h2, ?_, ?_⟩
      · intro d' hd'
        rcases List.mem_cons.mp hd' with rfl | hd'
        · exact ⟨md, hd, le_trans hlt h2⟩
        · exact h3 d' hd'
      · rcases h4 with h4 | ⟨hl, k, hk, hx, hj⟩
        · exact Or.inl h4
        · refine Or.inr ⟨hl, k + 1, by simpa using hk, by simpa using hx, ?_⟩
          intro j hjk
          cases j with
          | zero => exact ⟨md, hd, lt_of_le_of_lt hlt hl⟩
          | succ j => exact hj j (by omega)

/-- C05. Maximin keeps the first of the draws whose smallest distance is the largest. -/
theorem C05_maximin_keeps_best (first : Design ns nx) (ds : List (Design ns nx)) (x : Design ns nx)
    (h : maximin first ds = .ok x) :
    ∃ k, ∃ hk : k < (first :: ds).length, x = (first :: ds)[k] ∧ ∃ m, Spec.IsMinDist x m ∧
      (∀ d ∈ first :: ds, ∃ md, Spec.IsMinDist d md ∧ md ≤ m) ∧
      ∀ j (hj : j < k), ∃ md, Spec.IsMinDist (first :: ds)[j] md ∧ md < m := by
  simp only [maximin, bind_ok] at h
  obtain ⟨m, hm, h⟩ := h
  have hf := listMin_isMinDist hm
  obtain ⟨mx, h1, h2, h3, h4⟩ := maximinLoop_spec ds m first x hf h
  have hall : ∀ d ∈ first :: ds, ∃ md, Spec.IsMinDist d md ∧ md ≤ mx := by
    intro d hd
    rcases List.mem_cons.mp hd with rfl | hd
    · exact ⟨m, hf, h2⟩
    · exact h3 d hd
  rcases h4 with ⟨rfl, rfl⟩ | ⟨hl, k, hk, hx, hj⟩
  · exact ⟨0, by simp, rfl, mx, h1, hall, by omega⟩
  · refine ⟨k + 1, by simpa using hk, by simpa using hx, mx, h1, hall, ?_⟩
    intro j hjk
    cases j with
    | zero => exact ⟨m, hf, hl⟩
    | succ j => exact hj j (by omega)

/-! ## Strata -/

/-- The uniform draws of a call are in `[0, 1)`. -/
def UniformCall : LhsCall ns nx → Prop
  | .classic d => ∀ i j, 0 ≤ d.rnd i j ∧ d.rnd i j < 1
  | .centered _ => True
  | .maximin d ds => ∀ e ∈ d :: ds, ∀ i j, 0 ≤ e.rnd i j ∧ e.rnd i j < 1
  | .centeredMaximin _ _ => True
  | .optimized d css => (∀ i j, 0 ≤ d.rnd i j ∧ d.rnd i j < 1) ∧ ∀ cs ∈ css, ∀ c ∈ cs, 0 ≤ c.r ∧ c.r < 1

/-- C02. Every design returned by a Latin hypercube method has one point per stratum in each dimension. Not
covered: the calls that do not return (`C02_refuted_single_point`). -/
theorem C02_latin_partial (call : LhsCall ns nx) (hu : UniformCall call) (x : Design ns nx)
    (h : lhsSample call = .ok x) : Spec.Latin x := by
  cases call with
  | classic d =>
    simp only [lhsSample, Except.ok.injEq] at h
    subst h; exact classic_latin d hu
  | centered sh =>
    simp only [lhsSample, Except.ok.injEq] at h
    subst h; exact centered_latin sh
  | maximin d ds =>
    obtain ⟨k, hk, hx, _⟩ := C05_maximin_keeps_best _ _ _ h
    have : x ∈ (d :: ds).map classic := by rw [hx]; exact List.getElem_mem (l := (d :: ds).map classic) _
    obtain ⟨e, he, rfl⟩ := List.mem_map.mp this
    exact classic_latin e (hu e he)
  | centeredMaximin d ds =>
    obtain ⟨k, hk, hx, _⟩ := C05_maximin_keeps_best _ _ _ h
    have : x ∈ (d :: ds).map centered := by rw [hx]; exact List.getElem_mem (l := (d :: ds).map centered) _
    obtain ⟨e, he, rfl⟩ := List.mem_map.mp this
    exact centered_latin e
  | optimized d css =>
    simp only [lhsSample] at h
    split_ifs at h with hx
    · simp only [bind_ok, Except.ok.injEq] at h
      obtain ⟨s, hs, rfl⟩ := h
      exact (eseOuterLoop_inv css (eseInit_inv (classic d)) (fun cs hcs c hc => (hu.2 cs hcs c hc).1) hs).latinBest
        (classic_latin d hu.1)
    · simp only [Except.ok.injEq] at h
      subst h; exact classic_latin d hu.1

/-- Every iteration of the optimizer has a candidate (20 in the code). -/
def HasCandidates : LhsCall ns nx → Prop
  | .optimized _ css => ∀ cs ∈ css, ∀ c ∈ cs, c.swaps ≠ []
  | _ => True

theorem listMin_ok (hns : 2 ≤ ns) (x : Design ns nx) : ∃ m, listMin (pdist x) = .ok m := by
  have : ((⟨0, by omega⟩, ⟨1, by omega⟩) : Fin ns × Fin ns) ∈ pairs ns := by
    rw [pairs_mem]; simp
  have h : pdist x ≠ [] := by
    intro hc
    simp only [pdist, List.map_eq_nil_iff] at hc
    simp [hc] at this
  cases hl : pdist x with
  | nil => exact absurd hl h
  | cons e es => exact ⟨_, rfl⟩

theorem maximinLoop_ok (hns : 2 ≤ ns) (ds : List (Design ns nx)) : ∀ (m : ℝ) (b : Design ns nx),
    ∃ x, maximinLoop m b ds = .ok x := by
  induction ds with
  | nil => intro m b; exact ⟨b, rfl⟩
  | cons d ds ih =>
    intro m b
    obtain ⟨md, hmd⟩ := listMin_ok hns d
    simp only [maximinLoop, hmd, bind, Except.bind]
    split_ifs
    · exact ih md d
    · exact ih m b

theorem eseInner_ok (k : Fin nx) (c : EseChoice ns) (s : Ese ns nx) (n : ℕ × ℕ) (h : c.swaps ≠ []) :
    ∃ r, eseInner 10 k c s n = .ok r := by
  unfold eseInner
  obtain ⟨kb, hkb, ha, _, _⟩ := MixInt.argmin_spec
    ((c.swaps.map fun q => phipSwap 10 s.own k s.phip q.1.1 q.1.2).map Prod.snd) (by simpa using h)
  have hlt : kb < (c.swaps.map fun q => phipSwap 10 s.own k s.phip q.1.1 q.1.2).length := by
    simpa using hkb
  simp only [ha, bind, Except.bind, List.getElem?_eq_getElem hlt]
  split_ifs <;> exact ⟨_, rfl⟩

theorem eseInnerLoop_ok (hx : 0 < nx) (cs : List (EseChoice ns)) (h : ∀ c ∈ cs, c.swaps ≠ []) :
    ∀ (i : ℕ) (s : Ese ns nx) (n : ℕ × ℕ), ∃ r, eseInnerLoop 10 hx i s n cs = .ok r := by
  induction cs with
  | nil => intro i s n; exact ⟨_, rfl⟩
  | cons c cs ih =>
    intro i s n
    obtain ⟨r, hr⟩ := eseInner_ok ⟨(i + 1) % nx, Nat.mod_lt _ hx⟩ c s n (h c (by simp))
    obtain ⟨r', hr'⟩ := ih (fun c hc => h c (by simp [hc])) (i + 1) r.1 r.2
    exact ⟨r', by simp only [eseInnerLoop, hr, bind, Except.bind]; exact hr'⟩

theorem eseOuterLoop_ok (hx : 0 < nx) (css : List (List (EseChoice ns)))
    (h : ∀ cs ∈ css, ∀ c ∈ cs, c.swaps ≠ []) : ∀ s : Ese ns nx, ∃ s', eseOuterLoop 10 hx s css = .ok s' := by
  induction css with
  | nil => intro s; exact ⟨_, rfl⟩
  | cons cs css ih =>
    intro s
    obtain ⟨r, hr⟩ := eseInnerLoop_ok hx cs (h cs (by simp)) 0 s (0, 0)
    obtain ⟨s', hs'⟩ := ih (fun c hc => h c (by simp [hc])) { r.1 with
      t := eseTemp cs.length r.1 r.2 }
    exact ⟨s', by simp only [eseOuterLoop, hr, bind, Except.bind]; exact hs'⟩

/-- C02. With at least two points, every Latin hypercube method returns a design. -/
theorem C02_returns_partial (hns : 2 ≤ ns) (call : LhsCall ns nx) (hc : HasCandidates call) :
    ∃ x, lhsSample call = .ok x := by
  cases call with
  | classic d => exact ⟨_, rfl⟩
  | centered sh => exact ⟨_, rfl⟩
  | maximin d ds =>
    obtain ⟨m, hm⟩ := listMin_ok hns (classic d)
    obtain ⟨x, hx⟩ := maximinLoop_ok hns (ds.map classic) m (classic d)
    exact ⟨x, by simp only [lhsSample, maximin, hm, bind, Except.bind]; exact hx⟩
  | centeredMaximin d ds =>
    obtain ⟨m, hm⟩ := listMin_ok hns (centered d : Design ns nx)
    obtain ⟨x, hx⟩ := maximinLoop_ok hns (ds.map centered) m (centered d : Design ns nx)
    exact ⟨x, by simp only [lhsSample, maximin, hm, bind, Except.bind]; exact hx⟩
  | optimized d css =>
    simp only [lhsSample]
    split_ifs with hx
    · obtain ⟨s, hs⟩ := eseOuterLoop_ok hx css hc (eseInit 10 (classic d))
      exact ⟨s.best, by simp only [maximinEse, hs, bind, Except.bind]⟩
    · exact ⟨_, rfl⟩

/-- C02 fails for one point: the maximin kinds panic (no pair of points), and there is no exchange for the
optimized kind, whose loop drawing a second row does not end. -/
theorem C02_refuted_single_point :
    (∀ (d : Draw 1 nx) ds, lhsSample (.maximin d ds) = .error .emptyReduction) ∧
    (∀ d ds, lhsSample (.centeredMaximin d ds : LhsCall 1 nx) = .error .emptyReduction) ∧
    IsEmpty {p : Fin 1 × Fin 1 // p.1 ≠ p.2} := by
  have hp : pairs 1 = [] := by decide
  refine ⟨fun d ds => ?_, fun d ds => ?_, ⟨fun p => p.2 (Subsingleton.elim _ _)⟩⟩
  · simp [lhsSample, maximin, pdist, hp, listMin, bind, Except.bind]
  · simp [lhsSample, maximin, pdist, hp, listMin, bind, Except.bind]

/-! ## Bounds -/

theorem sample_inBounds (lower upper : Fin nx → ℝ) (hb : ∀ j, lower j ≤ upper j) (x : Design ns nx)
    (h : Spec.InUnit x) : Spec.InBounds lower upper (sample lower upper x) := by
  intro i j
  have h1 := h i j
  have h2 := hb j
  have h3 := mul_nonneg h1.1 (sub_nonneg.mpr h2)
  have h4 := mul_nonneg (sub_nonneg.mpr h1.2) (sub_nonneg.mpr h2)
  simp only [sample]
  constructor <;> nlinarith

/-- C01 for Latin hypercubes of every kind. -/
theorem C01_lhs_in_bounds (lower upper : Fin nx → ℝ) (hb : ∀ j, lower j ≤ upper j) (call : LhsCall ns nx)
    (hu : UniformCall call) (x : Design ns nx) (h : lhsSample call = .ok x) :
    Spec.InBounds lower upper (sample lower upper x) :=
  sample_inBounds lower upper hb x (latin_inUnit x (C02_latin_partial call hu x h))

/-- C01 for random sampling. -/
theorem C01_random_in_bounds (lower upper : Fin nx → ℝ) (hb : ∀ j, lower j ≤ upper j) (rnd : Design ns nx)
    (hu : ∀ i j, 0 ≤ rnd i j ∧ rnd i j < 1) :
    Spec.InBounds lower upper (sample lower upper (randomSample rnd)) :=
  sample_inBounds lower upper hb rnd fun i j => ⟨(hu i j).1, (hu i j).2.le⟩

section FullFactorial

variable {K : Type} [Field K] [LinearOrder K] [IsStrictOrderedRing K] [FloorRing K]

theorem zipWith_grid_mem (l ds : List ℕ) (h : List.Forall₂ (fun d n => d < n) ds l) :
    (List.zipWith (Spec.gridValue K) l ds).length = l.length ∧
      ∀ v ∈ List.zipWith (Spec.gridValue K) l ds, 0 ≤ v ∧ v ≤ 1 := by
  induction h with
  | nil => simp
  | cons hd _ ih =>
    refine ⟨by simp [ih.1], ?_⟩
    intro v hv
    rcases List.mem_cons.mp hv with rfl | hv
    · exact gridValue_mem _ _ hd
    · exact ih.2 v hv

theorem affine_mem (row : List K) : ∀ (bounds : List (K × K)), (∀ v ∈ row, 0 ≤ v ∧ v ≤ 1) →
    row.length = bounds.length → (∀ b ∈ bounds, b.1 ≤ b.2) →
    List.Forall₂ (fun v (b : K × K) => b.1 ≤ v ∧ v ≤ b.2) (sampleRow bounds row) bounds := by
  induction row with
  | nil => intro bounds _ hl _; cases bounds <;> simp_all [sampleRow]
  | cons v row ih =>
    intro bounds hv hl hb
    cases bounds with
    | nil => simp at hl
    | cons b bounds =>
      have h1 := hv v (by simp)
      have h2 := hb b (by simp)
      have h3 := mul_nonneg h1.1 (sub_nonneg.mpr h2)
      have h4 := mul_nonneg (sub_nonneg.mpr h1.2) (sub_nonneg.mpr h2)
      refine .cons ?_ (ih bounds (fun v hv' => hv v (by simp [hv'])) (by simpa using hl)
        (fun c hc => hb c (by simp [hc])))
      constructor <;> nlinarith

/-- C06. For `nx ≥ 1` factors, the full factorial design with `ns` points returns exactly `ns` distinct rows
of the grid with numbers of levels `levelsAfter nx t`, where `t` is the least number of increments that makes
the grid large enough; if `ns` is the size of the grid, every combination of levels is present. -/
theorem C06_full_factorial (nx ns : ℕ) (hx : 1 ≤ nx) :
    ∃ (t : ℕ) (rows : List (List K)), fullFactorial K nx ns = .ok rows ∧ rows.length = ns ∧ rows.Nodup ∧
      (∀ row ∈ rows, ∃ ds, Spec.IsGridRow K (Spec.levelsAfter nx t) ds row) ∧
      ns ≤ (Spec.levelsAfter nx t).prod ∧ (∀ u < t, (Spec.levelsAfter nx u).prod < ns) ∧
      (ns = (Spec.levelsAfter nx t).prod →
        ∀ ds row, Spec.IsGridRow K (Spec.levelsAfter nx t) ds row → row ∈ rows) := by
  obtain ⟨t, h1, h2, h3⟩ := fullFactorial_eq (K := K) nx ns hx
  set L := Spec.levelsAfter nx t
  have hpos := levelsAfter_pos nx t
  refine ⟨t, _, h3, by simp, ?_, ?_, h1, h2, ?_⟩
  · rw [List.nodup_map_iff_inj_on List.nodup_range]
    intro r hr r' hr' e
    rw [List.mem_range] at hr hr'
    have := digits_inj L r r' (grid_inj L _ _ (digits_lt L hpos r) (digits_lt L hpos r') e)
    rwa [Nat.mod_eq_of_lt (by omega), Nat.mod_eq_of_lt (by omega)] at this
  · intro row hrow
    obtain ⟨r, _, rfl⟩ := List.mem_map.mp hrow
    exact ⟨digits L r, digits_lt L hpos r, rfl⟩
  · rintro hns ds row ⟨hds, rfl⟩
    obtain ⟨r, hr, rfl⟩ := digits_surj L ds hds
    exact List.mem_map.mpr ⟨r, by rw [List.mem_range, hns]; exact hr, rfl⟩

/-- C06. There are `nx` factors, every factor has at least one level, and the numbers of levels of two factors
differ by at most one. -/
theorem C06_levels_balanced (nx t : ℕ) : (Spec.levelsAfter nx t).length = nx ∧
    ∀ a ∈ Spec.levelsAfter nx t, 1 ≤ a ∧ ∀ b ∈ Spec.levelsAfter nx t, a ≤ b + 1 := by
  refine ⟨levelsAfter_length nx t, fun a ha => ⟨levelsAfter_pos nx t a ha, fun b hb => ?_⟩⟩
  simp only [Spec.levelsAfter, List.mem_map, List.mem_range] at ha hb
  obtain ⟨i, hi, rfl⟩ := ha
  obtain ⟨j, hj, rfl⟩ := hb
  rw [levelsAfter_val nx t i hi, levelsAfter_val nx t j hj]
  split_ifs <;> omega

/-- C01 for the full factorial design. -/
theorem C01_full_factorial_in_bounds (bounds : List (K × K)) (hx : bounds ≠ [])
    (hb : ∀ b ∈ bounds, b.1 ≤ b.2) (ns : ℕ) :
    ∃ rows, fullFactorial K bounds.length ns = .ok rows ∧ ∀ row ∈ rows,
      List.Forall₂ (fun v (b : K × K) => b.1 ≤ v ∧ v ≤ b.2) (sampleRow bounds row) bounds := by
  obtain ⟨t, rows, h1, _, _, h2, _⟩ := C06_full_factorial (K := K) bounds.length ns
    (List.length_pos_iff.mpr hx)
  refine ⟨rows, h1, fun row hrow => ?_⟩
  obtain ⟨ds, hds, rfl⟩ := h2 row hrow
  obtain ⟨h3, h4⟩ := zipWith_grid_mem (K := K) _ _ hds
  exact affine_mem _ bounds h4 (by rw [h3, levelsAfter_length]) hb

end FullFactorial

/-! ## Concrete cases -/

/-- Two factors, 7 points: 3 × 3 levels, the first seven rows. -/
example : fullFactorial ℚ 2 7 = .ok [[0, 0], [0, 1 / 2], [0, 1], [1 / 2, 0], [1 / 2, 1 / 2], [1 / 2, 1],
    [1, 0]] := by decide +kernel

example : Spec.levelsAfter 3 4 = [3, 2, 2] := by decide

/-- Hypotheses of `C01_lhs_in_bounds` and `C02_latin_partial`: four points in three dimensions, columns
shuffled in different ways. -/
noncomputable def exDraw : Draw 4 3 where
  rnd := fun i j => (i + j : ℕ) / 7
  shuffle := fun j => Equiv.swap 0 (Fin.castSucc j)

theorem exDraw_uniform (i : Fin 4) (j : Fin 3) : 0 ≤ exDraw.rnd i j ∧ exDraw.rnd i j < 1 := by
  simp only [exDraw]
  have h : (i : ℕ) + j < 7 := by omega
  constructor
  · positivity
  · rw [div_lt_one (by norm_num)]; exact_mod_cast h

/-- Calls of each kind meeting the hypotheses of `C02_latin_partial` and `C02_returns_partial`, among them an
optimization with two iterations of two candidates. -/
noncomputable def exOptimized : LhsCall 4 3 :=
  .optimized exDraw [[⟨[⟨(0, 1), by decide⟩, ⟨(2, 3), by decide⟩], 1 / 2⟩, ⟨[⟨(3, 1), by decide⟩], 1 / 3⟩]]

example : UniformCall exOptimized ∧ HasCandidates exOptimized := by
  refine ⟨⟨exDraw_uniform, ?_⟩, ?_⟩
  · intro cs hcs c hc
    simp only [List.mem_cons, List.not_mem_nil, or_false] at hcs
    subst hcs
    simp only [List.mem_cons, List.not_mem_nil, or_false] at hc
    rcases hc with rfl | rfl <;> norm_num
  · intro cs hcs c hc
    simp only [List.mem_cons, List.not_mem_nil, or_false] at hcs
    subst hcs
    simp only [List.mem_cons, List.not_mem_nil, or_false] at hc
    rcases hc with rfl | rfl <;> simp

example : UniformCall (.maximin exDraw [exDraw, exDraw]) ∧ HasCandidates (.maximin exDraw [exDraw, exDraw]) := by
  refine ⟨?_, trivial⟩
  intro e he
  have : e = exDraw := by simpa using he
  subst this
  exact exDraw_uniform

/-- Case of `C05_maximin_keeps_best`: the second draw is kept. -/
example : ∃ x, maximin (fun i _ => if i = 0 then 0 else 1 : Design 2 1) [fun i _ => if i = 0 then 0 else 3] = .ok x ∧
    x = fun i _ => if i = 0 then 0 else 3 := by
  have hp : pairs 2 = [(0, 1)] := by decide
  refine ⟨_, ?_, rfl⟩
  simp [maximin, maximinLoop, pdist, hp, listMin, bind, Except.bind, l2dist]

end Verif.Props
