import Verif.Model.SortAxis
import Mathlib.Data.List.Perm.Basic
import Mathlib.Data.List.Nodup
import Mathlib.Data.List.Range
import Mathlib.Data.List.Sort
import Mathlib.Tactic.Linarith
import Mathlib.Tactic.Ring

/-!
# C137: sorting rows
-/

set_option autoImplicit false

namespace Verif.Props

open Verif.SortAxis

variable {α : Type}

/-! ## Permutations -/

theorem loop_iff (seen : List Bool) (l : List ℕ) :
    loop seen l = true ↔ l.Nodup ∧ ∀ i ∈ l, seen[i]? = some false := by
  induction l generalizing seen with
  | nil => simp [loop]
  | cons i t ih =>
    unfold loop step
    cases hi : seen[i]? with
    | none => simp [hi]
    | some b =>
      cases b with
      | true => simp [hi]
      | false =>
        simp only [ih, List.nodup_cons, List.mem_cons, forall_eq_or_imp, hi, true_and]
        constructor
        · rintro ⟨h1, h2⟩
          have hni : i ∉ t := by
            intro hm
            have := h2 i hm
            have hlt : i < seen.length := (List.getElem?_eq_some_iff.1 hi).1
            simp [List.getElem?_set_self hlt] at this
          refine ⟨⟨hni, h1⟩, fun j hj => ?_⟩
          have := h2 j hj
          rwa [List.getElem?_set_ne (by rintro rfl; exact hni hj)] at this
        · rintro ⟨⟨hni, h1⟩, h2⟩
          refine ⟨h1, fun j hj => ?_⟩
          rw [List.getElem?_set_ne (by rintro rfl; exact hni hj)]
          exact h2 j hj

/-- **C137.** The check accepts exactly the permutations of `0, …, n - 1`. -/
theorem C137_correct_iff (v : List ℕ) : correct v = true ↔ v.Perm (List.range v.length) := by
  unfold correct
  rw [loop_iff]
  have key : (∀ i ∈ v, (List.replicate v.length false)[i]? = some false) ↔ ∀ i ∈ v, i < v.length := by
    refine forall₂_congr fun i _ => ?_
    rw [List.getElem?_replicate]
    by_cases h : i < v.length <;> simp [h]
  rw [key]
  constructor
  · rintro ⟨h1, h2⟩
    exact (List.subperm_of_subset h1 fun i hi => List.mem_range.2 (h2 i hi)).perm_of_length_le (by simp)
  · intro h
    exact ⟨h.nodup_iff.2 List.nodup_range, fun i hi => List.mem_range.1 (h.subset hi)⟩

/-- **C137.** Hence only permutations are made from indices. -/
theorem C137_from_indices (v p : List ℕ) (h : fromIndices v = some p) : p = v ∧ p.Perm (List.range p.length) := by
  unfold fromIndices at h
  split_ifs at h with hc
  obtain rfl : v = p := by simpa using h
  exact ⟨rfl, (C137_correct_iff v).1 hc⟩

example : correct [2, 0, 1] = true ∧ correct [2, 0, 2] = false ∧ correct [0, 3, 1] = false := by decide

/-! ## Sorting -/

/-- **C137.** Sorting gives a permutation, whatever the comparison. -/
theorem C137_sort_perm (n : ℕ) (lt : ℕ → ℕ → Bool) : correct (sortAxisBy n lt) = true := by
  rw [C137_correct_iff]
  have h : (sortAxisBy n lt).Perm (List.range n) := List.mergeSort_perm _ _
  have hl := h.length_eq
  rw [List.length_range] at hl
  rw [hl]
  exact h

/-- **C137.** When the order is a strict weak order (as the order on floats without NaN), no index comes before a smaller
one, and equal ones stay in their order. -/
theorem C137_sorted (n : ℕ) (lt : ℕ → ℕ → Bool) (asymm : ∀ a b, lt a b = true → lt b a = false)
    (trans : ∀ a b c, lt b a = false → lt c b = false → lt c a = false) (i j : ℕ) (hij : i < j)
    (hj : j < (sortAxisBy n lt).length) :
    let p := sortAxisBy n lt
    lt p[j] p[i] = false ∧ (lt p[i] p[j] = false → p[i] < p[j]) := by
  intro p
  set le : ℕ → ℕ → Bool := fun a b => compareBy lt a b != .gt with hle
  have hle' : ∀ a b, le a b = true ↔ lt b a = false := by
    intro a b
    simp only [hle, compareBy]
    by_cases h1 : lt a b = true
    · simp [h1, asymm _ _ h1]
    · by_cases h2 : lt b a = true
      · simp [h1, h2]
      · simp [h1, h2]
  have htr : ∀ a b c, le a b = true → le b c = true → le a c = true := by
    intro a b c h1 h2
    rw [hle'] at *
    exact trans _ _ _ h1 h2
  have htot : ∀ a b, (le a b || le b a) = true := by
    intro a b
    by_cases h : lt a b = true
    · have := (hle' a b).2 (asymm _ _ h)
      simp [this]
    · have := (hle' b a).2 (by simpa using h)
      simp [this]
  have hs : p.Pairwise fun a b => le a b = true := List.pairwise_mergeSort htr htot _
  refine ⟨(hle' _ _).1 (List.pairwise_iff_getElem.1 hs i j (lt_trans hij hj) hj hij), fun heq => ?_⟩
  have hperm : p.Perm (List.range n) := List.mergeSort_perm _ _
  have hnd : p.Nodup := hperm.nodup_iff.2 List.nodup_range
  by_contra hcon
  have hne : p[j] ≠ p[i] := fun h => absurd ((List.Nodup.getElem_inj_iff hnd).1 h) (by omega)
  have hlt : p[j] < p[i] := lt_of_le_of_ne (not_lt.1 hcon) hne
  have hin : p[i] < n := List.mem_range.1 (hperm.subset (List.getElem_mem _))
  have hsub : List.Sublist [p[j], p[i]] (List.range n) := by
    refine List.sublist_of_subperm_of_pairwise (r := (· < ·)) (List.subperm_of_subset ?_ ?_) ?_ List.pairwise_lt_range
    · simp [hne]
    · intro k hk
      simp only [List.mem_cons, List.not_mem_nil, or_false] at hk
      rw [List.mem_range]
      omega
    · simp [hlt]
  have hsub' : List.Sublist [p[j], p[i]] p := List.pair_sublist_mergeSort htr htot ((hle' _ _).2 heq) hsub
  have hpw : p.Pairwise fun u v => ¬ (u = p[j] ∧ v = p[i]) := by
    refine List.pairwise_iff_getElem.2 fun k l hk hl hkl hcon => ?_
    have e1 := (List.Nodup.getElem_inj_iff hnd).1 hcon.1
    have e2 := (List.Nodup.getElem_inj_iff hnd).1 hcon.2
    omega
  have := hpw.sublist hsub'
  simp at this

/-! ## Permuting -/

/-- An array as the library makes them: positions in the allocation, distinct elements at distinct positions. -/
structure Valid (a : Arr α) : Prop where
  inside : ∀ i < a.axisLen, ∀ o ∈ a.others, 0 ≤ a.addr i o ∧ a.addr i o < a.buf.length
  inj : ∀ i < a.axisLen, ∀ i' < a.axisLen, ∀ j, ∀ hj : j < a.others.length, ∀ j', ∀ hj' : j' < a.others.length,
    a.addr i a.others[j] = a.addr i' a.others[j'] → i = i' ∧ j = j'

theorem read_inside {a : Arr α} {p : ℤ} (h0 : 0 ≤ p) (h1 : p < a.buf.length) : ∃ v, a.read p = .ok v := by
  unfold Arr.read
  rw [if_pos h0, List.getElem?_eq_getElem (by omega)]
  exact ⟨_, rfl⟩

theorem copyPane_eq (a : Arr α) (i : ℕ) : a.copyPane i = a.pane i := by
  unfold Arr.copyPane Arr.pane
  congr 1
  funext o
  congr 1
  unfold Arr.addr
  push_cast
  ring

theorem mapM_total {β γ : Type} {f : β → Except Fault γ} {l : List β} (h : ∀ b ∈ l, ∃ c, f b = .ok c) :
    ∃ r, l.mapM f = .ok r ∧ r.length = l.length ∧ ∀ k, ∀ hk : k < l.length, ∀ hk' : k < r.length, f l[k] = .ok r[k] := by
  induction l with
  | nil => exact ⟨[], rfl, rfl, fun k hk => absurd hk (by simp)⟩
  | cons b t ih =>
    obtain ⟨c, hc⟩ := h b (by simp)
    obtain ⟨r, h1, h2, h3⟩ := ih fun b hb => h b (by simp [hb])
    refine ⟨c :: r, ?_, by simp [h2], ?_⟩
    · rw [List.mapM_cons, hc, h1]
      rfl
    · intro k hk hk'
      cases k with
      | zero => exact hc
      | succ k => exact h3 k (by simpa using hk) (by simpa using hk')

theorem pane_total {a : Arr α} (ha : Valid a) {i : ℕ} (hi : i < a.axisLen) :
    ∃ r, a.pane i = .ok r ∧ r.length = a.others.length :=
  let ⟨r, h1, h2, _⟩ := mapM_total (f := fun o => a.read (a.addr i o)) (l := a.others)
    fun o ho => read_inside (ha.inside i hi o ho).1 (ha.inside i hi o ho).2
  ⟨r, h1, h2⟩

/-- **C137.** With a permutation of the length of the axis, for any memory layout and whether assertions are compiled or
not, nothing fails or is undefined: the panes of the result are those of the source, in the order of the permutation. -/
theorem C137_permute (debug : Bool) (a : Arr α) (ha : Valid a) (perm : List ℕ)
    (hp : perm.Perm (List.range a.axisLen)) :
    ∃ src res, a.panes = .ok src ∧ a.permuteAxis debug perm = .ok res ∧ src.length = a.axisLen ∧ res.length = a.axisLen ∧
      (∀ s ∈ src, s.length = a.others.length) ∧ ∀ i, ∀ hi : i < perm.length, res[i]? = src[perm[i]]? := by
  have hlen : perm.length = a.axisLen := by simpa using hp.length_eq
  have hlt : ∀ i ∈ perm, i < a.axisLen := fun i hi => List.mem_range.1 (hp.subset hi)
  have hc : correct perm = true := by rw [C137_correct_iff, hlen]; exact hp
  obtain ⟨src, h1, h2, h3⟩ := mapM_total (f := a.pane) (l := List.range a.axisLen) fun i hi =>
    (pane_total ha (List.mem_range.1 hi)).imp fun _ h => h.1
  obtain ⟨res, h4, h5, h6⟩ := mapM_total (f := a.copyPane) (l := perm) fun i hi => by
    rw [copyPane_eq]
    exact (pane_total ha (hlt i hi)).imp fun _ h => h.1
  have h2' : src.length = a.axisLen := by simpa using h2
  have hpane : ∀ k, ∀ hk : k < src.length, a.pane k = .ok src[k] := by
    intro k hk
    have := h3 k (by simpa using h2' ▸ hk) hk
    rwa [List.getElem_range] at this
  have hsl : ∀ s ∈ src, s.length = a.others.length := by
    intro s hs
    obtain ⟨k, hk, rfl⟩ := List.getElem_of_mem hs
    obtain ⟨r, e1, e2⟩ := pane_total ha (h2' ▸ hk)
    rw [hpane k hk, Except.ok.injEq] at e1
    rw [e1, e2]
  have hget : ∀ i, ∀ hi : i < perm.length, res[i]? = src[perm[i]]? := by
    intro i hi
    have hi' : i < res.length := by omega
    have hpi : perm[i] < src.length := by rw [h2']; exact hlt _ (List.getElem_mem _)
    have := h6 i hi hi'
    rw [copyPane_eq, hpane _ hpi, Except.ok.injEq] at this
    rw [List.getElem?_eq_getElem hi', List.getElem?_eq_getElem hpi, this]
  unfold Arr.permuteAxis
  rw [if_neg (by omega), hc]
  simp only [Bool.not_true, Bool.and_false, Bool.false_eq_true, if_false]
  by_cases he : a.axisLen = 0 ∨ a.others = []
  · rw [if_pos he]
    refine ⟨src, src, h1, h1, h2', h2', hsl, fun i hi => ?_⟩
    rcases he with he | he
    · omega
    · have hall : ∀ k, ∀ hk : k < src.length, src[k] = [] := by
        intro k hk
        have := hsl _ (List.getElem_mem hk)
        rw [he] at this
        simpa using this
      have hpi : perm[i] < src.length := by rw [h2']; exact hlt _ (List.getElem_mem _)
      rw [List.getElem?_eq_getElem (by omega), List.getElem?_eq_getElem hpi, hall _ _, hall _ _]
  · rw [if_neg he]
    exact ⟨src, res, h1, h4, h2', by omega, hsl, hget⟩

theorem moved_addr (a : Arr α) (k : ℕ) (o : ℤ) : a.addr 0 o + a.axisStride * k = a.addr k o := by
  unfold Arr.addr
  push_cast
  ring

/-- **C137.** Each element of the source is moved exactly once: none is lost, none is duplicated. -/
theorem C137_moved_once (a : Arr α) (ha : Valid a) (perm : List ℕ) (hp : perm.Perm (List.range a.axisLen)) :
    (a.moved perm).Nodup ∧ ∀ i < a.axisLen, ∀ o ∈ a.others, a.addr i o ∈ a.moved perm := by
  have hlt : ∀ i ∈ perm, i < a.axisLen := fun i hi => List.mem_range.1 (hp.subset hi)
  have hnd : perm.Nodup := hp.nodup_iff.2 List.nodup_range
  have e : a.moved perm = perm.flatMap fun (k : ℕ) => a.others.map (a.addr k) := by
    unfold Arr.moved
    congr 1
    funext k
    congr 1
    funext o
    exact moved_addr a k o
  rw [e]
  constructor
  · rw [List.nodup_flatMap]
    constructor
    · intro i hi
      rw [List.nodup_iff_pairwise_ne, List.pairwise_map]
      refine List.pairwise_iff_getElem.2 fun j j' hj hj' hjj' heq => ?_
      have := (ha.inj i (hlt i hi) i (hlt i hi) j hj j' hj' heq).2
      omega
    · refine hnd.imp_of_mem fun {i i'} hi hi' hne => ?_
      simp only [Function.onFun]
      intro p h1 h2
      obtain ⟨o, ho, e1⟩ := List.mem_map.1 h1
      obtain ⟨o', ho', e2⟩ := List.mem_map.1 h2
      obtain ⟨j, hj, rfl⟩ := List.getElem_of_mem ho
      obtain ⟨j', hj', rfl⟩ := List.getElem_of_mem ho'
      exact hne (ha.inj i (hlt i hi) i' (hlt i' hi') j hj j' hj' (e1.trans e2.symm)).1
  · intro i hi o ho
    rw [List.mem_flatMap]
    exact ⟨i, hp.symm.subset (List.mem_range.2 hi), List.mem_map.2 ⟨o, ho, rfl⟩⟩

/-- **C137.** As a consequence the rows of the result are those of the source, each as many times. -/
theorem C137_rows_kept (debug : Bool) (a : Arr α) (ha : Valid a) (perm : List ℕ)
    (hp : perm.Perm (List.range a.axisLen)) :
    ∃ src res, a.panes = .ok src ∧ a.permuteAxis debug perm = .ok res ∧ res.Perm src := by
  obtain ⟨src, res, h1, h2, h3, h4, _, h6⟩ := C137_permute debug a ha perm hp
  have hlen : perm.length = a.axisLen := by simpa using hp.length_eq
  refine ⟨src, res, h1, h2, ?_⟩
  have e1 : res = perm.map fun k => src.getD k [] := by
    refine List.ext_getElem? fun i => ?_
    by_cases hi : i < perm.length
    · have hpi : perm[i] < src.length := by rw [h3]; exact List.mem_range.1 (hp.subset (List.getElem_mem _))
      rw [h6 i hi, List.getElem?_map, List.getElem?_eq_getElem hi, List.getElem?_eq_getElem hpi]
      simp [List.getD, hpi]
    · rw [List.getElem?_eq_none (by omega), List.getElem?_eq_none (by simp; omega)]
  have e2 : src = (List.range a.axisLen).map fun k => src.getD k [] := by
    refine List.ext_getElem (by simp [h3]) fun i hi _ => ?_
    simp [List.getD, hi]
  rw [e2, e1]
  exact hp.map _

/-- **C137.** Hence sorting by any comparison and permuting is always defined and keeps the rows. -/
theorem C137_sort_permute (debug : Bool) (a : Arr α) (ha : Valid a) (lt : ℕ → ℕ → Bool) :
    ∃ src res, a.panes = .ok src ∧ a.permuteAxis debug (sortAxisBy a.axisLen lt) = .ok res ∧ res.Perm src :=
  C137_rows_kept debug a ha _ (List.mergeSort_perm _ _)

theorem mapM_fault {β γ : Type} {f : β → Except Fault γ} (hf : ∀ b e, f b = .error e → e = .undefined) (l : List β)
    (h : ∃ b ∈ l, ∃ e, f b = .error e) : l.mapM f = .error .undefined := by
  induction l with
  | nil => obtain ⟨b, hb, _⟩ := h; simp at hb
  | cons c t ih =>
    rw [List.mapM_cons]
    cases hc : f c with
    | error e => rw [hf c e hc]; rfl
    | ok v =>
      have : t.mapM f = .error .undefined := by
        refine ih ?_
        obtain ⟨b, hb, e, he⟩ := h
        rcases List.mem_cons.1 hb with rfl | hb
        · rw [hc] at he; simp at he
        · exact ⟨b, hb, e, he⟩
      rw [this]
      rfl

theorem mapM_only_undefined {β γ : Type} {f : β → Except Fault γ} (hf : ∀ b e, f b = .error e → e = .undefined)
    (l : List β) (e : Fault) (h : l.mapM f = .error e) : e = .undefined := by
  by_cases hex : ∃ b ∈ l, ∃ e, f b = .error e
  · rw [mapM_fault hf l hex] at h
    simpa using h.symm
  · push Not at hex
    obtain ⟨r, hr, _⟩ := mapM_total (f := f) (l := l) fun b hb => by
      cases hb' : f b with
      | error e => exact absurd hb' (hex b hb e)
      | ok c => exact ⟨c, rfl⟩
    rw [hr] at h
    simp at h

theorem read_only_undefined (a : Arr α) (p : ℤ) (e : Fault) (h : a.read p = .error e) : e = .undefined := by
  unfold Arr.read at h
  split_ifs at h
  · split at h <;> simp at h
    exact h.symm
  · simpa using h.symm

theorem copyPane_only_undefined (a : Arr α) (k : ℕ) (e : Fault) (h : a.copyPane k = .error e) : e = .undefined :=
  mapM_only_undefined (fun _ e he => read_only_undefined a _ e he) _ _ h

/-- **C137.** The permutation has to be one: in a build without assertions, an index whose pane is not in the allocation
makes the copy read outside of it, although the function is not marked unsafe. -/
theorem C137_unchecked_undefined (a : Arr α) (perm : List ℕ) (hl : perm.length = a.axisLen) (k : ℕ) (hk : k ∈ perm)
    (o : ℤ) (ho : o ∈ a.others) (hout : a.addr k o < 0 ∨ (a.buf.length : ℤ) ≤ a.addr k o) :
    a.permuteAxis false perm = .error .undefined := by
  have hpos : 0 < perm.length := List.length_pos_of_mem hk
  unfold Arr.permuteAxis
  rw [if_neg (by omega)]
  simp only [Bool.false_and, Bool.false_eq_true, if_false]
  rw [if_neg (by
    rintro (h | h)
    · omega
    · rw [h] at ho; simp at ho)]
  refine mapM_fault (copyPane_only_undefined a) _ ⟨k, hk, .undefined, ?_⟩
  refine mapM_fault (fun _ e he => read_only_undefined a _ e he) _ ⟨o, ho, .undefined, ?_⟩
  rw [moved_addr]
  unfold Arr.read
  split_ifs with h0
  · rw [List.getElem?_eq_none (by omega)]
  · rfl

/-- With assertions, a list which is not a permutation is a panic. -/
theorem C137_checked (a : Arr α) (perm : List ℕ) (h : ¬ perm.Perm (List.range perm.length)) :
    a.permuteAxis true perm = .error .panic := by
  unfold Arr.permuteAxis
  have hc : correct perm = false := by
    by_contra hcon
    exact h ((C137_correct_iff perm).1 (by simpa using hcon))
  rw [hc]
  split_ifs <;> simp_all

/-- **C137.** A permutation which has not the length of the axis is a panic, with or without assertions. -/
theorem C137_wrong_length (debug : Bool) (a : Arr α) (perm : List ℕ) (h : perm.length ≠ a.axisLen) :
    a.permuteAxis debug perm = .error .panic := by
  unfold Arr.permuteAxis
  rw [if_pos (Ne.symm h)]

/-- A matrix of two rows and two columns, stored by columns. -/
def exArr : Arr ℕ := ⟨[1, 2, 3, 4], 0, 2, 1, [0, 2]⟩

theorem exArr_valid : Valid exArr where
  inside := by decide
  inj := by decide

/-- Case: exchange of the rows `1 3` and `2 4`; rows in the wrong order are sorted; a wrong index. -/
example : exArr.panes = .ok [[1, 3], [2, 4]] ∧ exArr.permuteAxis false [1, 0] = .ok [[2, 4], [1, 3]] ∧
    exArr.permuteAxis false [1, 2] = .error .undefined ∧ exArr.permuteAxis true [1, 2] = .error .panic := by
  decide

example : exArr.permuteAxis false [0] = .error .panic := C137_wrong_length false exArr [0] (by decide)

example : ∃ src res, exArr.panes = .ok src ∧
    exArr.permuteAxis false (sortAxisBy 2 fun i j => decide (j < i)) = .ok res ∧ res.Perm src :=
  C137_sort_permute false exArr exArr_valid _

end Verif.Props
