import Verif.Spec.Moe
import Verif.Lemmas.Run
import Verif.Props.Moe
import Mathlib.Tactic.Ring

/-!
# C80, C81: automatic number of clusters, heaviside factor
-/

set_option autoImplicit false

namespace Verif.Props

open Verif Spec Moe

/-! ## Median -/

theorem leFlt_iff {a b : Flt} (ha : a ≠ .nan) (hb : b ≠ .nan) : leFlt a b = true ↔ toE a ≤ toE b := by
  have h1 : (a == Flt.nan) = false := by simpa using ha
  have h2 : (b != Flt.nan) = true := by simpa using hb
  unfold leFlt
  rw [h1, h2, Bool.false_or, Bool.true_and, Bool.or_eq_true, Flt.lt_iff ha hb, Flt.feq_iff ha hb]
  exact le_iff_lt_or_eq.symm

theorem leFlt_total (a b : Flt) : leFlt a b = true ∨ leFlt b a = true := by
  by_cases ha : a = .nan
  · left; simp [leFlt, ha]
  · by_cases hb : b = .nan
    · right; simp [leFlt, hb]
    · rw [leFlt_iff ha hb, leFlt_iff hb ha]
      exact le_total _ _

theorem leFlt_trans (a b c : Flt) (h1 : leFlt a b = true) (h2 : leFlt b c = true) : leFlt a c = true := by
  by_cases ha : a = .nan
  · simp [leFlt, ha]
  · by_cases hb : b = .nan
    · subst hb
      have : (a == Flt.nan) = false := by simpa using ha
      simp [leFlt, this] at h1
    · by_cases hc : c = .nan
      · subst hc
        have : (b == Flt.nan) = false := by simpa using hb
        simp [leFlt, this] at h2
      · rw [leFlt_iff ha hb] at h1
        rw [leFlt_iff hb hc] at h2
        rw [leFlt_iff ha hc]
        exact h1.trans h2

instance : Std.Total (fun a b : Flt => leFlt a b = true) := ⟨leFlt_total⟩
instance : IsTrans Flt (fun a b : Flt => leFlt a b = true) := ⟨leFlt_trans⟩

/-- Neither NaN nor `-inf`. -/
def Proper (a : Flt) : Prop := a ≠ .nan ∧ a ≠ .ninf

theorem half_sum {a b : Flt} (ha : Proper a) (hb : Proper b) :
    Proper (divNat (Flt.add (Flt.add .zero a) b) 2) ∧
      2 * toE (divNat (Flt.add (Flt.add .zero a) b) 2) = toE a + toE b := by
  obtain ⟨ha1, ha2⟩ := ha
  obtain ⟨hb1, hb2⟩ := hb
  have h2 : (2 : EReal) * ⊤ = ⊤ := EReal.mul_top_of_pos (by norm_num)
  cases a <;> cases b <;> simp_all [Flt.add, Flt.zero, divNat, Proper, toE]
  rename_i p q
  rw [← EReal.coe_add, show (2 : EReal) = ((2 : ℝ) : EReal) from rfl, ← EReal.coe_mul]
  congr 1
  ring

/-- `median` computes a median. -/
theorem median_spec (v : List Flt) (hne : v ≠ []) (h : ∀ e ∈ v, Proper e) :
    ∃ m, median v = .ok m ∧ IsMedian v m ∧ Proper m := by
  have hnan : ¬(2 ≤ v.length ∧ Flt.nan ∈ v) := by
    rintro ⟨_, hm⟩
    exact (h _ hm).1 rfl
  unfold median
  rw [if_neg hnan]
  generalize hs : v.insertionSort (fun a b => leFlt a b = true) = s
  have hperm : s.Perm v := by rw [← hs]; exact List.perm_insertionSort _ v
  have hsort : s.Pairwise fun a b => leFlt a b = true := by rw [← hs]; exact List.pairwise_insertionSort _ v
  have hprop : ∀ e ∈ s, Proper e := fun e he => h e (hperm.mem_iff.1 he)
  have hpair : (s.map toE).Pairwise (· ≤ ·) := by
    rw [List.pairwise_map]
    refine hsort.imp_of_mem ?_
    intro a b ha hb hab
    exact (leFlt_iff (hprop a ha).1 (hprop b hb).1).1 hab
  have hpos : 0 < s.length := by
    rw [hperm.length_eq]; exact List.length_pos_iff.2 hne
  simp only
  by_cases hev : s.length % 2 = 0
  · rw [if_pos hev]
    obtain ⟨k, hk⟩ : ∃ k, s.length = 2 * (k + 1) := ⟨s.length / 2 - 1, by omega⟩
    have e1 : s.length / 2 - 1 = k := by omega
    have e2 : s.length / 2 = k + 1 := by omega
    have g1 : s[k]? = some (s[k]'(by omega)) := List.getElem?_eq_getElem _
    have g2 : s[k + 1]? = some (s[k + 1]'(by omega)) := List.getElem?_eq_getElem _
    rw [e1, e2, g1, g2]
    obtain ⟨p1, p2⟩ := half_sum (hprop _ (List.getElem_mem (by omega : k < s.length)))
      (hprop _ (List.getElem_mem (by omega : k + 1 < s.length)))
    exact ⟨_, rfl, ⟨s, hperm, hpair, Or.inr ⟨k, _, _, hk, g1, g2, p2⟩⟩, p1⟩
  · rw [if_neg hev]
    obtain ⟨k, hk⟩ : ∃ k, s.length = 2 * k + 1 := ⟨s.length / 2, by omega⟩
    have e1 : s.length / 2 = k := by omega
    have g1 : s[k]? = some (s[k]'(by omega)) := List.getElem?_eq_getElem _
    rw [e1]
    refine ⟨s[k]'(by omega), by simp [row, g1], ⟨s, hperm, hpair, Or.inl ⟨k, hk, g1⟩⟩, hprop _ (List.getElem_mem _)⟩

/-! ## C80 -/

/-- Boolean version of `FoldPossible`. -/
theorem foldPossible_iff (f : Fold) : (foldErrors f).2.2 = true ↔ FoldPossible f := by
  have hinf : ∀ p : List Flt, p.any isInf = true ↔ ∃ v ∈ p, v = .pinf ∨ v = .ninf := by
    intro p; simp [List.any_eq_true, isInf]
  have hnan : ∀ p : List Flt, p.any (· == .nan) = true ↔ Flt.nan ∈ p := by
    intro p; simp [List.any_eq_true]
  have hh : ∀ p a, (hardError (some p) a).2 = true ↔ (∃ v ∈ p, v = .pinf ∨ v = .ninf) ∨ .nan ∉ p := by
    intro p a
    rw [← hinf, ← hnan]
    simp only [hardError]
    split_ifs <;> simp_all
  have hs : ∀ p a, (smoothError (some p) a).2 = true ↔ (∃ v ∈ p, v = .pinf ∨ v = .ninf) ∨ .nan ∉ p := by
    intro p a
    rw [← hinf, ← hnan]
    simp only [smoothError]
    split_ifs <;> simp_all
  cases f with
  | fitFailed => simp [foldErrors, FoldPossible]
  | fitted lens actual ph ps =>
    simp only [foldErrors, FoldPossible, Bool.and_eq_true, List.all_eq_true, decide_eq_true_eq]
    cases ph with
    | none => simp [hardError]
    | some p =>
      cases ps with
      | none => simp [smoothError]
      | some q =>
        rw [hh, hs]
        constructor
        · rintro ⟨⟨h1, h2⟩, h3⟩
          exact ⟨lens, actual, p, q, rfl, h1, h2, h3⟩
        · rintro ⟨l, a, p', q', he, h1, h2, h3⟩
          simp only [Fold.fitted.injEq, Option.some.injEq] at he
          obtain ⟨rfl, rfl, rfl, rfl⟩ := he
          exact ⟨⟨h1, h2⟩, h3⟩

theorem possible_iff (t : Try) :
    ((tryErrors t).2.2 && !(tryErrors t).2.1.isEmpty && !(tryErrors t).1.isEmpty) = true ↔ Possible t := by
  cases t with
  | gmmFailed => simp [tryErrors, Possible]
  | folds l =>
    simp only [tryErrors, Possible, Try.folds.injEq, Bool.and_eq_true, Bool.not_eq_true',
      List.isEmpty_eq_false_iff, List.all_eq_true, ne_eq, List.map_eq_nil_iff]
    constructor
    · rintro ⟨⟨h1, h2⟩, _⟩
      exact ⟨l, rfl, h2, fun f hf => (foldPossible_iff f).1 (h1 f hf)⟩
    · rintro ⟨l', rfl, h2, h3⟩
      exact ⟨⟨fun f hf => (foldPossible_iff f).2 (h3 f hf), h2⟩, h2⟩

open Classical in
/-- Invariant of the search after `i` tries. -/
structure SearchInv (tries : ℕ → Try) (i : ℕ) (s : SearchState) : Prop where
  lenH : s.medH.length = i
  lenS : s.medS.length = i
  medH : ∀ j < i, median (hardErrors (tries j)) = .ok (s.medH.getD j .nan)
  medS : ∀ j < i, median (smoothErrors (tries j)) = .ok (s.medS.getD j .nan)
  oks : s.oks = (List.range i).filter fun j => decide (Possible (tries j))

theorem searchStep_inv {tries : ℕ → Try} {i : ℕ} {s s' : SearchState} (h : SearchInv tries i s)
    (hs : searchStep (tries i) i s = .ok s') : SearchInv tries (i + 1) s' := by
  unfold searchStep at hs
  simp only [bind_ok] at hs
  obtain ⟨ms, h1, mh, h2, h3⟩ := hs
  simp only [Except.ok.injEq] at h3
  subst h3
  have hget : ∀ (l : List Flt) (x : Flt), l.length = i → ∀ j < i + 1,
      (l ++ [x]).getD j .nan = if j < i then l.getD j .nan else x := by
    intro l x hl j hj
    split_ifs with hji
    · simp [List.getD, List.getElem?_append_left (by omega : j < l.length)]
    · have : j = l.length := by omega
      subst this
      simp [List.getD]
  refine ⟨by simp [h.lenH], by simp [h.lenS], ?_, ?_, ?_⟩
  · intro j hj
    simp only
    rw [hget _ _ h.lenH j hj]
    split_ifs with hji
    · exact h.medH j hji
    · have : j = i := by omega
      subst this; exact h2
  · intro j hj
    simp only
    rw [hget _ _ h.lenS j hj]
    split_ifs with hji
    · exact h.medS j hji
    · have : j = i := by omega
      subst this; exact h1
  · simp only
    rw [List.range_succ, List.filter_append, ← h.oks]
    by_cases hp : Possible (tries i)
    · rw [if_pos ((possible_iff _).2 hp)]
      simp [hp]
    · rw [if_neg (fun hc => hp ((possible_iff _).1 hc))]
      simp [hp]

theorem stops_eq_of_inv {tries : ℕ → Try} {i T : ℕ} {s s' : SearchState} (h : SearchInv tries T s)
    (h' : SearchInv tries (i + 1) s') (hT : i < T) : stops i s'.medH s'.medS = stops i s.medH s.medS := by
  have e : ∀ j ≤ i, s'.medH.getD j .nan = s.medH.getD j .nan ∧ s'.medS.getD j .nan = s.medS.getD j .nan := by
    intro j hj
    have h1 := h.medH j (by omega)
    have h2 := h.medS j (by omega)
    rw [h'.medH j (by omega), Except.ok.injEq] at h1
    rw [h'.medS j (by omega), Except.ok.injEq] at h2
    exact ⟨h1, h2⟩
  simp only [stops, (e i le_rfl).1, (e i le_rfl).2, (e (i - 1) (by omega)).1, (e (i - 1) (by omega)).2,
    (e (i - 2) (by omega)).1, (e (i - 2) (by omega)).2]

theorem searchLoop_inv {tries : ℕ → Try} : ∀ (fuel i : ℕ) (s s' : SearchState), SearchInv tries i s →
    searchLoop tries fuel i s = .ok s' →
    ∃ T, i ≤ T ∧ T ≤ i + fuel ∧ (0 < fuel → i < T) ∧ SearchInv tries T s' ∧
      (T < i + fuel → stops (T - 1) s'.medH s'.medS = true) ∧
      ∀ j, i ≤ j → j + 1 < T → stops j s'.medH s'.medS = false := by
  intro fuel
  induction fuel with
  | zero =>
    intro i s s' h hs
    simp only [searchLoop, Except.ok.injEq] at hs
    subst hs
    exact ⟨i, le_refl _, le_refl _, by simp, h, by simp, fun j h1 h2 => by omega⟩
  | succ fuel ih =>
    intro i s s' h hs
    simp only [searchLoop, bind_ok] at hs
    obtain ⟨s1, h1, h2⟩ := hs
    have hi := searchStep_inv h h1
    split_ifs at h2 with hst
    · simp only [Except.ok.injEq] at h2
      subst h2
      exact ⟨i + 1, by omega, by omega, fun _ => by omega, hi, fun _ => hst, fun j h1 h2 => by omega⟩
    · obtain ⟨T, a, b, _, d, e, f⟩ := ih (i + 1) s1 s' hi h2
      refine ⟨T, by omega, by omega, fun _ => by omega, d, fun hT => e (by omega), fun j h1 h2 => ?_⟩
      by_cases hj : j = i
      · subst hj
        rw [← stops_eq_of_inv d hi (by omega)]
        simpa using hst
      · exact f j (by omega) h2

theorem searchLoop_total {tries : ℕ → Try}
    (h : ∀ j, (∃ m, median (hardErrors (tries j)) = .ok m) ∧ ∃ m, median (smoothErrors (tries j)) = .ok m) :
    ∀ (fuel i : ℕ) (s : SearchState), ∃ s', searchLoop tries fuel i s = .ok s' := by
  intro fuel
  induction fuel with
  | zero => intro i s; exact ⟨s, rfl⟩
  | succ fuel ih =>
    intro i s
    obtain ⟨⟨a, ha⟩, ⟨b, hb⟩⟩ := h i
    have ha' : median (tryErrors (tries i)).1 = .ok a := ha
    have hb' : median (tryErrors (tries i)).2.1 = .ok b := hb
    obtain ⟨s1, h1⟩ : ∃ s1, searchStep (tries i) i s = .ok s1 := by
      simp only [searchStep, ha', hb', bind, Except.bind]
      exact ⟨_, rfl⟩
    simp only [searchLoop, h1, bind, Except.bind]
    split_ifs
    · exact ⟨_, rfl⟩
    · exact ih _ _

theorem minLoop_le (med : List Flt) (N : ℕ) : ∀ (ks : List ℕ) (cur : Flt) (best : ℕ), (∀ k ∈ ks, k < N) →
    1 ≤ best → best ≤ N → 1 ≤ minLoop med cur best ks ∧ minLoop med cur best ks ≤ N := by
  intro ks
  induction ks with
  | nil => intro cur best _ h1 h2; exact ⟨h1, h2⟩
  | cons k ks ih =>
    intro cur best hk h1 h2
    unfold minLoop
    have hks : ∀ k ∈ ks, k < N := fun x hx => hk x (by simp [hx])
    split_ifs
    · exact ih _ _ hks (by omega) (by have := hk k (by simp); omega)
    · exact ih _ _ hks h1 h2

/-- **C80**. The number of clusters found is between one and the maximum. -/
theorem C80_in_range (tries : ℕ → Try) (nrows max k : ℕ) (r : Recomb)
    (h : findBestNumberOfClusters tries nrows max = .ok (k, r)) :
    1 ≤ k ∧ k ≤ if max = 0 then nrows / 10 + 1 else max := by
  unfold findBestNumberOfClusters at h
  rw [bind_ok] at h
  obtain ⟨s, hs, h⟩ := h
  simp only [Except.ok.injEq] at h
  have hinit : SearchInv tries 0 ⟨[], [], []⟩ := ⟨rfl, rfl, by simp, by simp, by simp⟩
  obtain ⟨T, _, hT, hpos, hinv, hst, hgo⟩ := searchLoop_inv _ _ _ _ hinit hs
  have hmax : maxClusters nrows max = if max = 0 then nrows / 10 + 1 else max := rfl
  rw [← hmax]
  have hm : 0 < maxClusters nrows max := by unfold maxClusters; split_ifs <;> omega
  have hT1 := hpos hm
  have hk : ∀ k ∈ s.oks, k < T := by
    intro k hk
    rw [hinv.oks] at hk
    simpa using (List.mem_filter.1 hk).1
  unfold choose at h
  split at h
  · simp only [Prod.mk.injEq] at h
    omega
  · rename_i k0 ks hoks
    rw [hoks] at hk
    have hH := minLoop_le s.medH T (k0 :: ks) (s.medH.getD k0 .nan) 1 hk (le_refl _) (by omega)
    have hS := minLoop_le s.medS T (k0 :: ks) (s.medS.getD k0 .nan) 1 hk (le_refl _) (by omega)
    simp only at h
    split_ifs at h <;> simp only [Prod.mk.injEq] at h <;> omega

theorem minLoop_spec (med : List Flt) : ∀ (ks : List ℕ) (cur : Flt) (best : ℕ), cur ≠ .nan →
    (∀ k ∈ ks, med.getD k .nan ≠ .nan) →
    (minLoop med cur best ks = best ∧ ∀ k ∈ ks, toE cur ≤ toE (med.getD k .nan)) ∨
    ∃ k ∈ ks, minLoop med cur best ks = k + 1 ∧ toE (med.getD k .nan) < toE cur ∧
      ∀ k' ∈ ks, toE (med.getD k .nan) ≤ toE (med.getD k' .nan) := by
  intro ks
  induction ks with
  | nil => intro cur best _ _; left; simp [minLoop]
  | cons k ks ih =>
    intro cur best hc hn
    have hkn := hn k (by simp)
    have hks : ∀ k ∈ ks, med.getD k .nan ≠ .nan := fun x hx => hn x (by simp [hx])
    unfold minLoop
    by_cases hg : Flt.gt cur (med.getD k .nan) = true
    · rw [if_pos hg]
      rw [Flt.gt_iff hc hkn] at hg
      right
      rcases ih (med.getD k .nan) (k + 1) hkn hks with ⟨h1, h2⟩ | ⟨k', hk', h1, h2, h3⟩
      · refine ⟨k, by simp, h1, hg, ?_⟩
        intro x hx
        rcases List.mem_cons.1 hx with rfl | hx
        · exact le_refl _
        · exact h2 x hx
      · refine ⟨k', by simp [hk'], h1, h2.trans hg, ?_⟩
        intro x hx
        rcases List.mem_cons.1 hx with rfl | hx
        · exact h2.le
        · exact h3 x hx
    · rw [if_neg hg]
      rw [Flt.gt_iff hc hkn, not_lt] at hg
      rcases ih cur best hc hks with ⟨h1, h2⟩ | ⟨k', hk', h1, h2, h3⟩
      · left
        refine ⟨h1, ?_⟩
        intro x hx
        rcases List.mem_cons.1 hx with rfl | hx
        · exact hg
        · exact h2 x hx
      · right
        refine ⟨k', by simp [hk'], h1, h2, ?_⟩
        intro x hx
        rcases List.mem_cons.1 hx with rfl | hx
        · exact h2.le.trans hg
        · exact h3 x hx

/-- Neither median decreased with the last two clusters added. -/
def Flat (H S : ℕ → Flt) (j : ℕ) : Prop :=
  toE (H (j - 2)) ≤ toE (H (j - 1)) ∧ toE (H (j - 1)) ≤ toE (H j) ∧
    toE (S (j - 2)) ≤ toE (S (j - 1)) ∧ toE (S (j - 1)) ≤ toE (S j)

theorem stops_iff_flat {medH medS : List Flt} {j : ℕ} (hH : ∀ i ≤ j, medH.getD i .nan ≠ .nan)
    (hS : ∀ i ≤ j, medS.getD i .nan ≠ .nan) :
    Moe.stops j medH medS = true ↔ 4 ≤ j ∧ Flat (fun j => medH.getD j .nan) (fun j => medS.getD j .nan) j := by
  have hge : ∀ {a b : Flt}, a ≠ .nan → b ≠ .nan → (geFlt a b = true ↔ toE b ≤ toE a) := by
    intro a b ha hb
    rw [geFlt, Bool.or_eq_true, Flt.gt_iff ha hb, Flt.feq_iff ha hb, le_iff_lt_or_eq]
    constructor
    · rintro (h | h)
      · exact Or.inl h
      · exact Or.inr h.symm
    · rintro (h | h)
      · exact Or.inl h
      · exact Or.inr h.symm
  simp only [Moe.stops, Bool.and_eq_true, decide_eq_true_eq, hge (hH j le_rfl) (hH (j - 1) (by omega)),
    hge (hH (j - 1) (by omega)) (hH (j - 2) (by omega)), hge (hS j le_rfl) (hS (j - 1) (by omega)),
    hge (hS (j - 1) (by omega)) (hS (j - 2) (by omega)), Flat]
  constructor
  · rintro ⟨h0, ⟨⟨h1, h2⟩, h3⟩, h4⟩
    exact ⟨h0, h1, h3, h2, h4⟩
  · rintro ⟨h0, h1, h3, h2, h4⟩
    exact ⟨h0, ⟨⟨h1, h2⟩, h3⟩, h4⟩

/-- **C80** (partial: no failure of the Gaussian mixture training, cross validation errors which are numbers,
one cluster being possible). The search does not panic and its result is a possible number of clusters;
no possible number of clusters among those tried has a smaller median error, hard or smooth. All the numbers up to
the maximum are tried, unless five or more were tried and the last two changed no median for the better. -/
theorem C80_smallest_median_partial (tries : ℕ → Try) (nrows max : ℕ)
    (hne : ∀ j, hardErrors (tries j) ≠ [])
    (hH : ∀ j, ∀ e ∈ hardErrors (tries j), e ≠ .nan ∧ e ≠ .ninf)
    (hS : ∀ j, ∀ e ∈ smoothErrors (tries j), e ≠ .nan ∧ e ≠ .ninf)
    (h0 : Possible (tries 0)) :
    ∃ k r T, ∃ H S : ℕ → Flt, findBestNumberOfClusters tries nrows max = .ok (k + 1, r) ∧
      k < T ∧ T ≤ (if max = 0 then nrows / 10 + 1 else max) ∧
      (T = (if max = 0 then nrows / 10 + 1 else max) ∨ 5 ≤ T ∧ Flat H S (T - 1)) ∧
      (∀ j, 4 ≤ j → j + 1 < T → ¬ Flat H S j) ∧
      (∀ j < T, IsMedian (hardErrors (tries j)) (H j) ∧ IsMedian (smoothErrors (tries j)) (S j)) ∧
      Possible (tries k) ∧
      (r = .hard → ∀ j < T, Possible (tries j) → toE (H k) ≤ toE (H j) ∧ toE (H k) < toE (S j)) ∧
      (r = .smoothNone → ∀ j < T, Possible (tries j) → toE (S k) ≤ toE (S j) ∧ toE (S k) ≤ toE (H j)) := by
  have hne' : ∀ j, smoothErrors (tries j) ≠ [] := by
    intro j h
    apply hne j
    cases ht : tries j with
    | gmmFailed => simp [hardErrors, tryErrors]
    | folds l => rw [ht] at h; simpa [hardErrors, smoothErrors, tryErrors] using h
  have mH := fun j => median_spec _ (hne j) (hH j)
  have mS := fun j => median_spec _ (hne' j) (hS j)
  obtain ⟨s, hs⟩ := searchLoop_total
    (fun j => ⟨⟨_, (mH j).choose_spec.1⟩, ⟨_, (mS j).choose_spec.1⟩⟩) (maxClusters nrows max) 0 ⟨[], [], []⟩
  have hinit : SearchInv tries 0 ⟨[], [], []⟩ := ⟨rfl, rfl, by simp, by simp, by simp⟩
  obtain ⟨T, _, hT, hpos, hinv, hst, hgo⟩ := searchLoop_inv _ _ _ _ hinit hs
  have hm : 0 < maxClusters nrows max := by unfold maxClusters; split_ifs <;> omega
  have hT1 := hpos hm
  -- medians
  have hHj : ∀ j < T, IsMedian (hardErrors (tries j)) (s.medH.getD j .nan) ∧ s.medH.getD j .nan ≠ .nan := by
    intro j hj
    obtain ⟨m, h1, h2, h3⟩ := mH j
    rw [hinv.medH j hj, Except.ok.injEq] at h1
    rw [h1]; exact ⟨h2, h3.1⟩
  have hSj : ∀ j < T, IsMedian (smoothErrors (tries j)) (s.medS.getD j .nan) ∧ s.medS.getD j .nan ≠ .nan := by
    intro j hj
    obtain ⟨m, h1, h2, h3⟩ := mS j
    rw [hinv.medS j hj, Except.ok.injEq] at h1
    rw [h1]; exact ⟨h2, h3.1⟩
  have hmem : ∀ j, j ∈ s.oks ↔ j < T ∧ Possible (tries j) := by
    intro j; rw [hinv.oks, List.mem_filter]; simp
  have hoks : ∃ ks, s.oks = 0 :: ks := by
    rw [hinv.oks]
    obtain ⟨T', rfl⟩ : ∃ T', T = T' + 1 := ⟨T - 1, by omega⟩
    rw [List.range_succ_eq_map, List.filter_cons]
    simp [h0]
  obtain ⟨ks, hks⟩ := hoks
  have best : ∀ med : List Flt, (∀ j < T, med.getD j .nan ≠ .nan) →
      ∃ k, minLoop med (med.getD 0 .nan) 1 s.oks = k + 1 ∧ k < T ∧ Possible (tries k) ∧
        ∀ j < T, Possible (tries j) → toE (med.getD k .nan) ≤ toE (med.getD j .nan) := by
    intro med hmed
    rcases minLoop_spec med s.oks (med.getD 0 .nan) 1 (hmed 0 hT1)
      (fun k hk => hmed k ((hmem k).1 hk).1) with ⟨h1, h2⟩ | ⟨k, hk, h1, _, h3⟩
    · exact ⟨0, h1, hT1, h0, fun j hj hp => h2 j ((hmem j).2 ⟨hj, hp⟩)⟩
    · exact ⟨k, h1, ((hmem k).1 hk).1, ((hmem k).1 hk).2, fun j hj hp => h3 j ((hmem j).2 ⟨hj, hp⟩)⟩
  obtain ⟨kh, a1, a2, a3, a4⟩ := best s.medH (fun j hj => (hHj j hj).2)
  obtain ⟨ksm, b1, b2, b3, b4⟩ := best s.medS (fun j hj => (hSj j hj).2)
  have hfind : findBestNumberOfClusters tries nrows max = .ok (choose s) := by
    simp [findBestNumberOfClusters, hs, bind, Except.bind]
  have hch : choose s = if Flt.lt (s.medH.getD kh .nan) (s.medS.getD ksm .nan) then (kh + 1, .hard)
      else (ksm + 1, .smoothNone) := by
    unfold choose
    rw [hks] at a1 b1 ⊢
    simp only [a1, b1, Nat.add_sub_cancel]
  have hTm : T ≤ if max = 0 then nrows / 10 + 1 else max := by
    have : maxClusters nrows max = if max = 0 then nrows / 10 + 1 else max := rfl
    omega
  have hstop : T = (if max = 0 then nrows / 10 + 1 else max) ∨
      5 ≤ T ∧ Flat (fun j => s.medH.getD j .nan) (fun j => s.medS.getD j .nan) (T - 1) := by
    by_cases hTe : T = (if max = 0 then nrows / 10 + 1 else max)
    · exact Or.inl hTe
    · have h1 := hst (by have : maxClusters nrows max = if max = 0 then nrows / 10 + 1 else max := rfl
                         omega)
      rw [stops_iff_flat (fun i hi => (hHj i (by omega)).2) (fun i hi => (hSj i (by omega)).2)] at h1
      exact Or.inr ⟨by omega, h1.2⟩
  have hgoes : ∀ j, 4 ≤ j → j + 1 < T → ¬ Flat (fun j => s.medH.getD j .nan) (fun j => s.medS.getD j .nan) j := by
    intro j h4 hj hf
    have h1 := (stops_iff_flat (fun i hi => (hHj i (by omega)).2) (fun i hi => (hSj i (by omega)).2)).2 ⟨h4, hf⟩
    rw [hgo j (by omega) hj] at h1
    cases h1
  by_cases hlt : Flt.lt (s.medH.getD kh .nan) (s.medS.getD ksm .nan) = true
  · rw [if_pos hlt] at hch
    rw [Flt.lt_iff (hHj kh a2).2 (hSj ksm b2).2] at hlt
    refine ⟨kh, .hard, T, fun j => s.medH.getD j .nan, fun j => s.medS.getD j .nan, by rw [hfind, hch], a2, hTm,
      hstop, hgoes, fun j hj => ⟨(hHj j hj).1, (hSj j hj).1⟩, a3, ?_, by simp⟩
    intro _ j hj hp
    exact ⟨a4 j hj hp, hlt.trans_le (b4 j hj hp)⟩
  · rw [if_neg hlt] at hch
    rw [Flt.lt_iff (hHj kh a2).2 (hSj ksm b2).2, not_lt] at hlt
    refine ⟨ksm, .smoothNone, T, fun j => s.medH.getD j .nan, fun j => s.medS.getD j .nan, by rw [hfind, hch], b2,
      hTm, hstop, hgoes, fun j hj => ⟨(hHj j hj).1, (hSj j hj).1⟩, b3, by simp, ?_⟩
    intro _ j hj hp
    exact ⟨b4 j hj hp, hlt.trans (a4 j hj hp)⟩

/-- A fold whose predictions are `v` (hard) and `w` (smooth), the actual value being `1`. -/
def fold1 (v w : Flt) : Fold := .fitted [8, 8] [.fin 1] (some [v]) (some [w])

/-- A case of `C80_smallest_median_partial`: two clusters are better than one, the smooth recombination being
the best. -/
example : findBestNumberOfClusters
    (fun i => if i = 0 then .folds [fold1 (.fin 2) (.fin 2), fold1 (.fin 3) (.fin 4)]
      else .folds [fold1 (.fin 2) (.fin (3 / 2)), fold1 (.fin 2) (.fin 1)]) 20 2 = .ok (2, .smoothNone) := by
  decide +kernel

/-- **C80** refuted: when one cluster is not possible (NaN predictions) and two clusters are, with perfect
predictions, the result is one cluster. -/
theorem C80_refuted_not_possible :
    let tries : ℕ → Try := fun i => if i = 0 then .folds [fold1 .nan .nan, fold1 .nan .nan]
      else .folds [fold1 (.fin 1) (.fin 1), fold1 (.fin 1) (.fin 1)]
    findBestNumberOfClusters tries 20 2 = .ok (1, .smoothNone) ∧ ¬ Possible (tries 0) ∧
      Possible (tries 1) := by
  refine ⟨by decide +kernel, ?_, ?_⟩
  · rw [← possible_iff]; decide +kernel
  · rw [← possible_iff]; decide +kernel

/-- **C80** refuted: the search panics as soon as the Gaussian mixture cannot be trained with a tried number
of clusters (here two), although the code intends to go on. -/
theorem C80_refuted_gmm_failure (nrows max : ℕ) (hmax : 2 ≤ max) :
    ∃ e, findBestNumberOfClusters
      (fun i => if i = 0 then .folds [fold1 (.fin 1) (.fin 1)] else .gmmFailed) nrows max = .error e := by
  obtain ⟨m, rfl⟩ : ∃ m, max = m + 2 := ⟨max - 2, by omega⟩
  refine ⟨.outOfBounds, ?_⟩
  simp only [findBestNumberOfClusters, maxClusters, show m + 2 ≠ 0 by omega, if_false]
  have h1 : searchStep (.folds [fold1 (.fin 1) (.fin 1)]) 0 ⟨[], [], []⟩
      = .ok ⟨[.fin 0], [.fin 0], [0]⟩ := by decide +kernel
  have h2 : ∀ s, searchStep .gmmFailed 1 s = .error .outOfBounds := fun s => rfl
  simp only [searchLoop, if_true, h1, bind, Except.bind]
  simp [stops, h2]

/-- **C80** refuted: a fold whose actual values are null and exactly predicted (relative error 0/0) makes the
search panic. -/
theorem C80_refuted_null_values : findBestNumberOfClusters
    (fun _ => .folds [.fitted [8] [.fin 0] (some [.fin 0]) (some [.fin 0]), fold1 (.fin 1) (.fin 1)]) 20 1
      = .error .undefinedOrder := by decide +kernel

/-- **C80** refuted: the choice between hard and smooth recombinations depends on the unit of the outputs (the
hard error is relative, the smooth one is not): same predictions, scaled by ten. -/
theorem C80_refuted_scale :
    let tries (u : ℚ) : ℕ → Try := fun _ =>
      .folds [.fitted [8] [.fin u] (some [.fin (2 * u)]) (some [.fin (3 * u / 2)])]
    findBestNumberOfClusters (tries 1) 20 1 = .ok (1, .smoothNone) ∧
    findBestNumberOfClusters (tries 10) 20 1 = .ok (1, .hard) := by decide +kernel

/-! ## C81 -/

theorem maxLoop_spec : ∀ (l : List Flt) (cur : Flt), cur ≠ .nan → (∀ e ∈ l, e ≠ .nan) →
    ∃ m, maxLoop cur l = .ok m ∧ m ≠ .nan ∧ toE cur ≤ toE m ∧ (∀ e ∈ l, toE e ≤ toE m) ∧ (m = cur ∨ m ∈ l) := by
  intro l
  induction l with
  | nil => intro cur h _; exact ⟨cur, rfl, h, le_refl _, by simp, Or.inl rfl⟩
  | cons e l ih =>
    intro cur hc hn
    have hen := hn e (by simp)
    have hl : ∀ e ∈ l, e ≠ .nan := fun x hx => hn x (by simp [hx])
    have hstep : maxLoop cur (e :: l) = if toE cur < toE e then maxLoop e l else maxLoop cur l := by
      simp only [maxLoop, Flt.cmp_toE hen hc]
      rcases lt_trichotomy (toE e) (toE cur) with h | h | h
      · simp [h, not_lt.2 h.le]
      · simp [h]
      · simp [h, not_lt.2 h.le]
    rw [hstep]
    split_ifs with hlt
    · obtain ⟨m, h1, h2, h3, h4, h5⟩ := ih e hen hl
      refine ⟨m, h1, h2, hlt.le.trans h3, ?_, ?_⟩
      · intro x hx
        rcases List.mem_cons.1 hx with rfl | hx
        · exact h3
        · exact h4 x hx
      · right
        rcases h5 with rfl | h5
        · simp
        · simp [h5]
    · obtain ⟨m, h1, h2, h3, h4, h5⟩ := ih cur hc hl
      refine ⟨m, h1, h2, h3, ?_, ?_⟩
      · intro x hx
        rcases List.mem_cons.1 hx with rfl | hx
        · exact (not_lt.1 hlt).trans h3
        · exact h4 x hx
      · rcases h5 with rfl | h5
        · exact Or.inl rfl
        · right; simp [h5]

/-- **C81** (partial: the candidates are the 20 numbers `0.1 + 2 k / 19`, not the 21 numbers documented). When
no error is NaN, the factor is 1 if recombination is hard or there is one cluster or all the errors are below
`1e-6`, otherwise it is the first candidate with the smallest error. -/
theorem C81_best_factor_partial (hard : Bool) (n : NbClusters) (err : ℚ → Flt)
    (hn : ∀ k < 20, err (1 / 10 + (k : ℕ) * (2 / 19)) ≠ .nan) :
    ∃ f, optimizeHeavisideFactor hard n err = .ok f ∧
      ((hard = true ∨ n = .fixed 1 ∨ ∀ k < 20, toE (err (1 / 10 + (k : ℕ) * (2 / 19))) < ((1e-6 : ℝ) : EReal)) → f = 1) ∧
      ((hard = false ∧ n ≠ .fixed 1 ∧ ∃ k < 20, ((1e-6 : ℝ) : EReal) ≤ toE (err (1 / 10 + (k : ℕ) * (2 / 19)))) →
        ∃ k < 20, f = 1 / 10 + (k : ℕ) * (2 / 19) ∧
          (∀ j < 20, toE (err f) ≤ toE (err (1 / 10 + (j : ℕ) * (2 / 19)))) ∧
          ∀ j < k, toE (err f) < toE (err (1 / 10 + (j : ℕ) * (2 / 19)))) := by
  have hmono : n.isMono = true ↔ n = .fixed 1 := by cases n <;> simp [NbClusters.isMono]
  unfold optimizeHeavisideFactor
  by_cases hc : (hard || n.isMono) = true
  · rw [if_pos hc]
    refine ⟨1, rfl, fun _ => rfl, ?_⟩
    rintro ⟨h1, h2, _⟩
    rw [Bool.or_eq_true, hmono] at hc
    simp_all
  · rw [if_neg hc]
    have hlen : (scaleFactors.map err).length = 20 := by simp [scaleFactors]
    have hget : ∀ (k : ℕ) (hk : k < (scaleFactors.map err).length),
        (scaleFactors.map err)[k] = err (1 / 10 + (k : ℕ) * (2 / 19)) := by
      intro k hk; simp [scaleFactors]
    have hnn : ∀ e ∈ scaleFactors.map err, e ≠ .nan := by
      intro e he
      obtain ⟨k, hk, rfl⟩ := List.mem_iff_getElem.1 he
      rw [hget k hk]
      exact hn k (by omega)
    have hne : scaleFactors.map err ≠ [] := by intro h; rw [h] at hlen; simp at hlen
    obtain ⟨i, hi, hlt, hmin, hfirst⟩ := Verif.argmin_spec _ hne hnn
    obtain ⟨m, hm, hmn, hmax, hmem⟩ : ∃ m, maxFlt (scaleFactors.map err) = .ok m ∧ m ≠ .nan ∧
        (∀ e ∈ scaleFactors.map err, toE e ≤ toE m) ∧ m ∈ scaleFactors.map err := by
      cases hl : scaleFactors.map err with
      | nil => exact absurd hl hne
      | cons e es =>
        rw [hl] at hnn
        obtain ⟨m, h1, h2, _, h4, h5⟩ := maxLoop_spec (e :: es) e (hnn e (by simp)) hnn
        refine ⟨m, h1, h2, h4, ?_⟩
        rcases h5 with rfl | h5
        · simp
        · exact h5
    have hil : i < 20 := by rw [List.length_map, hlen] at hlt; exact hlt
    simp only [hi, hm, bind, Except.bind, chooseFactor]
    have hmil : toE (.fin (1 / 1000000)) = ((1e-6 : ℝ) : EReal) := by
      simp only [toE]
      congr 1
      norm_num
    have hltiff : Flt.lt m (.fin (1 / 1000000)) = true ↔
        ∀ k < 20, toE (err (1 / 10 + (k : ℕ) * (2 / 19))) < ((1e-6 : ℝ) : EReal) := by
      rw [Flt.lt_iff hmn (by simp), hmil]
      constructor
      · intro h k hk
        refine lt_of_le_of_lt ?_ h
        rw [← hget k (by omega)]
        exact hmax _ (List.getElem_mem _)
      · intro h
        obtain ⟨k, hk, rfl⟩ := List.mem_iff_getElem.1 hmem
        rw [hget k hk]
        exact h k (by omega)
    by_cases hif : Flt.lt m (.fin (1 / 1000000)) = true
    · rw [if_pos hif]
      refine ⟨1, rfl, fun _ => rfl, ?_⟩
      rintro ⟨_, _, k, hk, h⟩
      exact absurd (hltiff.1 hif k hk) (not_lt.2 h)
    · rw [if_neg hif]
      have hrow : row scaleFactors i = .ok (1 / 10 + (i : ℚ) * (2 / 19) : ℚ) := by
        have : scaleFactors[i]? = some (1 / 10 + (i : ℚ) * (2 / 19) : ℚ) := by
          simp [scaleFactors, hil]
        simp [row, this]
      refine ⟨_, hrow, ?_, ?_⟩
      · rintro (h | h | h)
        · simp [h] at hc
        · simp [hmono.2 h] at hc
        · exact absurd (hltiff.2 h) hif
      · intro _
        refine ⟨i, hil, rfl, ?_, ?_⟩
        · intro j hj
          have := hmin (toE (err (1 / 10 + (j : ℕ) * (2 / 19)))) (by
            rw [← hget j (by omega)]
            exact List.mem_map_of_mem (List.getElem_mem _))
          simpa only [List.getElem_map, hget i (by omega)] using (by
            simpa [scaleFactors] using this)
        · intro j hj
          have := hfirst j hj
          simpa [scaleFactors] using this

/-- **C81** refuted: the documented candidate `1.0` is not a candidate. -/
theorem C81_refuted_step : (1 : ℚ) ∉ scaleFactors ∧ scaleFactors.length = 20 := by decide +kernel

/-- **C81**: a NaN error (for instance null test inputs and exact predictions) panics. -/
theorem C81_nan_panics (n : NbClusters) (hn : n ≠ .fixed 1) :
    optimizeHeavisideFactor false n (fun _ => .nan) = .error .undefinedOrder := by
  have : n.isMono = false := by cases n <;> simp_all [NbClusters.isMono]
  simp only [optimizeHeavisideFactor, this]
  rfl

/-- A case of `C81_best_factor_partial`. -/
example : optimizeHeavisideFactor false (.fixed 2) (fun f => .fin |f - 1|) = .ok (1 / 10 + 9 * (2 / 19)) := by
  decide +kernel

end Verif.Props
