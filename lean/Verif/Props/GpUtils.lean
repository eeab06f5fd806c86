import Verif.Model.GpUtils
import Verif.Lemmas.Run
import Mathlib.Algebra.Order.BigOperators.Group.Finset
import Mathlib.Algebra.Order.BigOperators.Ring.Finset
import Mathlib.Algebra.BigOperators.Intervals
import Mathlib.Algebra.BigOperators.Field
import Mathlib.Tactic.FieldSimp
import Mathlib.Tactic.Positivity
import Mathlib.Tactic.Linarith

/-!
# C43, C44: normalization and tables of differences
-/

set_option autoImplicit false

namespace Verif.Props

open Verif.GpUtils

variable {m n q : ℕ}

/-! ## C43 -/

theorem sum_sub_colMean (x : Fin m → ℝ) (hm : m ≠ 0) : ∑ i, (x i - colMean x) = 0 := by
  rw [Finset.sum_sub_distrib]
  simp only [colMean, Finset.sum_const, Finset.card_univ, Fintype.card_fin, nsmul_eq_mul]
  have : (m : ℝ) ≠ 0 := Nat.cast_ne_zero.2 hm
  field_simp
  ring

/-- With two rows or more, normalized data are numbers, multiplying by the deviations and adding the means gives
the data back, normalized columns have zero mean, and unit variance unless the column is constant. -/
theorem C43_two_rows_partial (x : Fin m → Fin n → ℝ) (hm : 2 ≤ m) :
    ∃ r, normalize x = .ok r ∧ ∃ (data : Fin m → Fin n → ℝ) (std : Fin n → ℝ),
      (∀ i j, r.data i j = some (data i j)) ∧ (∀ j, r.std j = some (std j)) ∧ (∀ j, 0 < std j) ∧
      (∀ i j, data i j * std j + r.mean j = x i j) ∧
      (∀ j, ∑ i, data i j = 0) ∧
      ∀ j, (∃ i i', x i j ≠ x i' j) → ∑ i, data i j ^ 2 = m - 1 := by
  have hm0 : m ≠ 0 := by omega
  have hm1 : (0 : ℝ) < (m : ℝ) - 1 := by
    have : (2 : ℝ) ≤ m := by exact_mod_cast hm
    linarith
  let mean := fun j => colMean fun i => x i j
  let var := fun j => (∑ i, (x i j - mean j) ^ 2) / (m - 1)
  let std := fun j => if √(var j) = 0 then 1 else √(var j)
  have hstd : ∀ j, (colStd fun i => x i j) = some (√(var j)) := by
    intro j
    simp only [colStd, fdiv, if_neg hm1.ne', Option.map_some]
    rfl
  have hpos : ∀ j, 0 < std j := by
    intro j
    simp only [std]
    split_ifs with h
    · exact one_pos
    · exact lt_of_le_of_ne (Real.sqrt_nonneg _) (Ne.symm h)
  refine ⟨_, by rw [normalize, if_neg hm0], fun i j => (x i j - mean j) / std j, std, ?_, ?_, hpos, ?_, ?_, ?_⟩
  · intro i j
    simp only [hstd, Option.map_some, Option.bind_some]
    exact if_neg (hpos j).ne'
  · intro j
    simp only [hstd, Option.map_some]
    rfl
  · intro i j
    have := (hpos j).ne'
    show (x i j - mean j) / std j * std j + mean j = x i j
    field_simp
    ring
  · intro j
    rw [← Finset.sum_div, sum_sub_colMean (fun i => x i j) hm0, zero_div]
  · rintro j ⟨i, i', hne⟩
    have hv : 0 < var j := by
      refine div_pos ?_ hm1
      refine lt_of_le_of_ne (Finset.sum_nonneg fun _ _ => sq_nonneg _) (Ne.symm fun h0 => hne ?_)
      rw [Finset.sum_eq_zero_iff_of_nonneg (fun _ _ => sq_nonneg _)] at h0
      have h1 := h0 i (Finset.mem_univ _)
      have h2 := h0 i' (Finset.mem_univ _)
      rw [sq_eq_zero_iff, sub_eq_zero] at h1 h2
      rw [h1, h2]
    have hs : std j = √(var j) := if_neg (Real.sqrt_pos.2 hv).ne'
    simp only [div_pow]
    rw [← Finset.sum_div, hs, Real.sq_sqrt hv.le]
    have h3 : ∑ i, (x i j - mean j) ^ 2 = var j * (m - 1) := by
      simp only [var]; field_simp
    rw [h3]
    field_simp

/-- With a single row no normalized value is a number, since the deviation is zero divided by zero. -/
theorem C43_refuted_single_row (x : Fin 1 → Fin n → ℝ) :
    ∃ r, normalize x = .ok r ∧ (∀ j, r.std j = none) ∧ ∀ i j, r.data i j = none := by
  refine ⟨_, by rw [normalize, if_neg (by norm_num)], ?_, ?_⟩ <;> simp [colStd, fdiv]

/-- Normalizing gives numbers exactly when there are two rows or more. -/
theorem C43_iff (x : Fin m → Fin n → ℝ) (hn : 0 < n) :
    (∃ r, normalize x = .ok r ∧ ∀ i j, (r.data i j).isSome) ↔ 2 ≤ m := by
  constructor
  · rintro ⟨r, hr, h⟩
    by_contra hm
    have : m = 0 ∨ m = 1 := by omega
    rcases this with rfl | rfl
    · simp [normalize] at hr
    · obtain ⟨r', hr', _, h2⟩ := C43_refuted_single_row x
      rw [hr] at hr'
      simp only [Except.ok.injEq] at hr'
      subst hr'
      have := h 0 ⟨0, hn⟩
      rw [h2] at this
      simp at this
  · intro hm
    obtain ⟨r, hr, data, std, h1, _⟩ := C43_two_rows_partial x hm
    exact ⟨r, hr, fun i j => by simp [h1]⟩

/-- Two rows, second column constant. -/
example : ∃ r, normalize (fun (i : Fin 2) (j : Fin 2) => if j = 0 then (i : ℝ) else 7) = .ok r ∧ r.std 1 = some 1 := by
  refine ⟨_, by rw [normalize, if_neg (by norm_num)], ?_⟩
  simp [colStd, fdiv, colMean]
  norm_num

/-! ## C44 -/

/-- Pairs in the order of the loops up to outer index `k`. -/
def pairs (m k : ℕ) : List (ℕ × ℕ) :=
  (List.range k).flatMap fun a => (List.range' (a + 1) (m - (a + 1))).map fun b => (a, b)

theorem pairs_succ (m k : ℕ) :
    pairs m (k + 1) = pairs m k ++ (List.range' (k + 1) (m - (k + 1))).map fun b => (k, b) := by
  simp [pairs, List.range_succ]

theorem mem_pairs (m k i j : ℕ) : (i, j) ∈ pairs m k ↔ i < k ∧ i < j ∧ j < m := by
  simp only [pairs, List.mem_flatMap, List.mem_range, List.mem_map, List.mem_range'_1, Prod.mk.injEq]
  constructor
  · rintro ⟨a, ha, b, hb, rfl, rfl⟩; omega
  · rintro ⟨h1, h2, h3⟩; exact ⟨i, h1, j, by omega, rfl, rfl⟩

theorem nodup_pairs (m k : ℕ) : (pairs m k).Nodup := by
  induction k with
  | zero => simp [pairs]
  | succ k ih =>
    rw [pairs_succ, List.nodup_append]
    refine ⟨ih, ?_, ?_⟩
    · exact List.Nodup.map (fun a b h => (Prod.mk.inj h).2) List.nodup_range'
    · rintro ⟨a, b⟩ h1 ⟨c, d⟩ h2 heq
      rw [mem_pairs] at h1
      simp only [List.mem_map, Prod.mk.injEq] at h2
      obtain ⟨_, _, rfl, rfl⟩ := h2
      simp only [Prod.mk.injEq] at heq
      omega

theorem length_pairs (m k : ℕ) : (pairs m k).length = ∑ a ∈ Finset.range k, (m - (a + 1)) := by
  induction k with
  | zero => simp [pairs]
  | succ k ih => rw [pairs_succ, List.length_append, ih, Finset.sum_range_succ]; simp

theorem length_pairs_all (m : ℕ) (hm : 1 ≤ m) : (pairs m (m - 1)).length = m * (m - 1) / 2 := by
  rw [length_pairs]
  have h := Finset.sum_range_id_mul_two m
  have h2 := Finset.sum_range_reflect (fun k => k) m
  have h3 : ∑ j ∈ Finset.range m, (m - 1 - j) = ∑ a ∈ Finset.range (m - 1), (m - (a + 1)) := by
    obtain ⟨k, rfl⟩ : ∃ k, m = k + 1 := ⟨m - 1, by omega⟩
    rw [Finset.sum_range_succ]
    simp only [Nat.add_sub_cancel]
    rw [Nat.sub_self, add_zero]
    exact Finset.sum_congr rfl fun a _ => by omega
  rw [← h3, h2]
  omega

theorem writeIndices_spec (N idx0 k cnt start : ℕ) (ind : ℕ → ℕ × ℕ) (hs : k + 1 ≤ start)
    (hN : idx0 + (start - (k + 1)) + cnt ≤ N) :
    ∃ ind', writeIndices N idx0 k (List.range' start cnt) ind = .ok ind' ∧
      ∀ r, ind' r = if idx0 + (start - (k + 1)) ≤ r ∧ r < idx0 + (start - (k + 1)) + cnt then (k, r - idx0 + (k + 1))
        else ind r := by
  induction cnt generalizing start ind with
  | zero =>
    refine ⟨ind, rfl, fun r => ?_⟩
    rw [if_neg (by omega)]
  | succ cnt ih =>
    rw [List.range'_succ, writeIndices, if_pos (by omega)]
    obtain ⟨ind', h1, h2⟩ := ih (start + 1) (Function.update ind (idx0 + start - k - 1) (k, start)) (by omega)
      (by omega)
    refine ⟨ind', h1, fun r => ?_⟩
    rw [h2 r]
    by_cases hr : r = idx0 + start - k - 1
    · subst hr
      rw [if_neg (by omega), if_pos (by omega), Function.update_self]
      congr 1
      omega
    · rw [Function.update_of_ne hr]
      by_cases hc : idx0 + (start + 1 - (k + 1)) ≤ r ∧ r < idx0 + (start + 1 - (k + 1)) + cnt
      · rw [if_pos hc, if_pos (by omega)]
      · rw [if_neg hc, if_neg (by omega)]

/-- Row `r` of the tables describes the pair `p`. -/
def Describe (x : Fin m → Fin n → ℝ) (c : Cross n) (r : ℕ) (p : ℕ × ℕ) : Prop :=
  c.ind r = p ∧ ∃ (h1 : p.1 < m) (h2 : p.2 < m), ∀ j, c.d r j = x ⟨p.1, h1⟩ j - x ⟨p.2, h2⟩ j

theorem crossLoop_spec (x : Fin m → Fin n → ℝ) (cnt k : ℕ) (c : Cross n) (hk : k + cnt = m - 1)
    (hc : ∀ r p, (pairs m k)[r]? = some p → Describe x c r p) :
    ∃ c', crossLoop x (pairs m (m - 1)).length (List.range' k cnt) (pairs m k).length c = .ok c' ∧
      ∀ r p, (pairs m (m - 1))[r]? = some p → Describe x c' r p := by
  induction cnt generalizing k c with
  | zero =>
    have : k = m - 1 := by omega
    subst this
    exact ⟨c, rfl, hc⟩
  | succ cnt ih =>
    have hlen : (pairs m (k + 1)).length = (pairs m k).length + (m - k - 1) := by
      rw [pairs_succ]; simp; omega
    have hle : (pairs m (k + 1)).length ≤ (pairs m (m - 1)).length := by
      rw [length_pairs, length_pairs]
      exact Finset.sum_le_sum_of_subset (Finset.range_mono (by omega))
    obtain ⟨ind', h1, h2⟩ := writeIndices_spec (pairs m (m - 1)).length (pairs m k).length k (m - (k + 1)) (k + 1)
      c.ind le_rfl (by omega)
    rw [List.range'_succ, crossLoop]
    simp only [h1]
    rw [if_neg (by omega)]
    have key := ih (k + 1) ⟨ind', fun r j => if h : (pairs m k).length ≤ r ∧ r < (pairs m k).length + (m - k - 1) ∧
      k < m ∧ k + 1 + (r - (pairs m k).length) < m then
        x ⟨k, h.2.2.1⟩ j - x ⟨k + 1 + (r - (pairs m k).length), h.2.2.2⟩ j else c.d r j⟩ (by omega)
    generalize hL : (pairs m (k + 1)).length = L at key
    rw [hL] at hlen
    subst hlen
    refine key ?_
    intro r p hp
    rw [pairs_succ] at hp
    by_cases hr : r < (pairs m k).length
    · rw [List.getElem?_append_left hr] at hp
      obtain ⟨h3, h4, h5, h6⟩ := hc r p hp
      refine ⟨?_, h4, h5, fun j => ?_⟩
      · simp only [h2 r]
        rw [if_neg (by omega)]
        exact h3
      · simp only
        rw [dif_neg (by omega)]
        exact h6 j
    · rw [List.getElem?_append_right (by omega)] at hp
      rw [List.getElem?_map, Option.map_eq_some_iff] at hp
      obtain ⟨b, hb, rfl⟩ := hp
      have hb' := List.getElem?_eq_some_iff.1 hb
      obtain ⟨hl, hb'⟩ := hb'
      rw [List.length_range'] at hl
      rw [List.getElem_range'] at hb'
      refine ⟨?_, by simp only; omega, by simp only; omega, fun j => ?_⟩
      · simp only [h2 r]
        rw [if_pos (by omega)]
        congr 1
        omega
      · simp only
        rw [dif_pos (by omega)]
        congr 2
        simp only [Fin.mk.injEq]
        omega

/-- For one observation or more the tables are filled: `m(m-1)/2` rows, each pair `i < j` is listed exactly once
in the index table, and row `r` of the table is the absolute difference of the pair listed at row `r`. -/
theorem C44_table (x : Fin m → Fin n → ℝ) (hm : 1 ≤ m) :
    ∃ N c, crossDiff x = .ok (N, c) ∧ N = m * (m - 1) / 2 ∧
      (∀ i j, i < j → j < m → ∃! r, r < N ∧ c.ind r = (i, j)) ∧
      ∀ r < N, ∃ i j : Fin m, i < j ∧ c.ind r = (i.val, j.val) ∧ ∀ l, c.d r l = |x i l - x j l| := by
  obtain ⟨c, h1, h2⟩ := crossLoop_spec x (m - 1) 0 ⟨fun _ => (0, 0), fun _ _ => 0⟩ (by omega) (by
    intro r p hp; simp [pairs] at hp)
  have h0 : (pairs m 0).length = 0 := by simp [pairs]
  rw [length_pairs_all m hm, h0, ← List.range_eq_range'] at h1
  refine ⟨m * (m - 1) / 2, ⟨c.ind, fun r j => |c.d r j|⟩, by rw [crossDiff, if_neg (by omega)]; simp only [h1], rfl,
    ?_, ?_⟩
  · intro i j hij hj
    have hmem : (i, j) ∈ pairs m (m - 1) := by rw [mem_pairs]; omega
    obtain ⟨r, hr, he⟩ := List.mem_iff_getElem.1 hmem
    refine ⟨r, ⟨by rw [← length_pairs_all m hm]; exact hr, (h2 r (i, j) (by rw [List.getElem?_eq_getElem hr, he])).1⟩, ?_⟩
    rintro r' ⟨hr', he'⟩
    rw [← length_pairs_all m hm] at hr'
    have h3 := (h2 r' _ (List.getElem?_eq_getElem hr')).1
    simp only at he'
    rw [he'] at h3
    exact (List.Nodup.getElem_inj_iff (nodup_pairs m (m - 1))).1 (h3.symm.trans he.symm)
  · intro r hr
    rw [← length_pairs_all m hm] at hr
    obtain ⟨h3, h4, h5, h6⟩ := h2 r _ (List.getElem?_eq_getElem hr)
    have hmem : (pairs m (m - 1))[r] ∈ pairs m (m - 1) := List.getElem_mem hr
    have := (mem_pairs m (m - 1) _ _).1 hmem
    refine ⟨⟨_, h4⟩, ⟨_, h5⟩, this.2.1, h3, fun l => ?_⟩
    simp only [h6]

/-- For no observation the number of rows underflows. -/
theorem C44_refuted_no_row (x : Fin 0 → Fin n → ℝ) : crossDiff x = .error .other := rfl

theorem foldlM_total {α β : Type} (l : List α) (f : β → α → Except Panic β) (P : β → Prop) (b : β) (hb : P b)
    (hf : ∀ b a, a ∈ l → P b → ∃ b', f b a = .ok b' ∧ P b') : ∃ b', l.foldlM f b = .ok b' ∧ P b' := by
  induction l generalizing b with
  | nil => exact ⟨b, rfl, hb⟩
  | cons a l ih =>
    obtain ⟨b1, h1, h2⟩ := hf b a (by simp) hb
    rw [List.foldlM_cons, h1]
    exact ih b1 h2 fun b a' h' => hf b a' (by simp [h'])

theorem foldlM_append_total {α β : Type} (f : β → α → Except Panic β) (l1 l2 : List α) (b b1 : β)
    (h : l1.foldlM f b = .ok b1) : (l1 ++ l2).foldlM f b = l2.foldlM f b1 := by
  rw [List.foldlM_append, h]; rfl

/-- Differences between each row of `x` and each row of `y`: `m * q` rows, the pair `(i, j)` at row `i*q+j`. -/
theorem C44_pairwise (x : Fin m → Fin n → ℝ) (y : Fin q → Fin n → ℝ) :
    ∃ N d, pairwise x y = .ok (N, d) ∧ N = m * q ∧ ∀ i j k, d (i.val * q + j.val) k = x i k - y j k := by
  have hinj : ∀ (i i' : Fin m) (j j' : Fin q), i.val * q + j.val = i'.val * q + j'.val → i = i' ∧ j = j' := by
    intro i i' j j' h
    have hq : 0 < q := j.pos
    have h1 : (j.val + q * i.val) / q = (j'.val + q * i'.val) / q := by congr 1; rw [mul_comm q, mul_comm q]; omega
    rw [Nat.add_mul_div_left _ _ hq, Nat.add_mul_div_left _ _ hq, Nat.div_eq_of_lt j.2, Nat.div_eq_of_lt j'.2] at h1
    have h2 : i.val = i'.val := by omega
    rw [h2] at h
    exact ⟨Fin.ext h2, Fin.ext (by omega)⟩
  have hlt : ∀ (i : Fin m) (j : Fin q), i.val * q + j.val < m * q := by
    intro i j
    have h1 : (i.val + 1) * q ≤ m * q := Nat.mul_le_mul_right q i.2
    have h2 := j.2
    have h3 : (i.val + 1) * q = i.val * q + q := by ring
    omega
  -- inner loop
  have inner : ∀ (i : Fin m) (res : ℕ → Fin n → ℝ) (l : List (Fin q)),
      ∃ res', l.foldlM (fun res j => if i.val * q + j.val < m * q then
        (.ok (Function.update res (i.val * q + j.val) fun k => x i k - y j k) : Except Panic (ℕ → Fin n → ℝ))
        else .error .outOfBounds) res = .ok res' ∧
        (∀ j ∈ l, res' (i.val * q + j.val) = fun k => x i k - y j k) ∧
        ∀ r, (∀ j ∈ l, r ≠ i.val * q + j.val) → res' r = res r := by
    intro i res l
    induction l generalizing res with
    | nil => exact ⟨res, rfl, by simp, by simp⟩
    | cons j l ih =>
      obtain ⟨res', h1, h2, h3⟩ := ih (Function.update res (i.val * q + j.val) fun k => x i k - y j k)
      refine ⟨res', ?_, ?_, ?_⟩
      · rw [List.foldlM_cons, if_pos (hlt i j)]; exact h1
      · intro j' hj'
        by_cases hmem : j' ∈ l
        · exact h2 j' hmem
        · rcases List.mem_cons.1 hj' with rfl | h
          · rw [h3 _ (by
              intro j'' hj'' he
              have := (hinj i i j' j'' he).2
              exact hmem (this ▸ hj'')), Function.update_self]
          · exact absurd h hmem
      · intro r hr
        rw [h3 r (fun j' hj' => hr j' (by simp [hj'])), Function.update_of_ne (hr j (by simp))]
  have outer : ∀ (l : List (Fin m)) (res : ℕ → Fin n → ℝ),
      ∃ res', l.foldlM (fun res i => (List.finRange q).foldlM (fun res j => if i.val * q + j.val < m * q then
        (.ok (Function.update res (i.val * q + j.val) fun k => x i k - y j k) : Except Panic (ℕ → Fin n → ℝ))
        else .error .outOfBounds) res) res = .ok res' ∧
        (∀ i ∈ l, ∀ j : Fin q, res' (i.val * q + j.val) = fun k => x i k - y j k) ∧
        ∀ r, (∀ i ∈ l, ∀ j : Fin q, r ≠ i.val * q + j.val) → res' r = res r := by
    intro l
    induction l with
    | nil => exact fun res => ⟨res, rfl, by simp, by simp⟩
    | cons i l ih =>
      intro res
      obtain ⟨r1, h1, h2, h3⟩ := inner i res (List.finRange q)
      obtain ⟨r2, h4, h5, h6⟩ := ih r1
      refine ⟨r2, ?_, ?_, ?_⟩
      · rw [List.foldlM_cons, h1]; exact h4
      · intro i' hi' j
        by_cases hmem : i' ∈ l
        · exact h5 i' hmem j
        · rcases List.mem_cons.1 hi' with rfl | h
          · rw [h6 _ (by
              intro i'' hi'' j'' he
              have := (hinj i' i'' j j'' he).1
              exact hmem (this ▸ hi''))]
            exact h2 j (List.mem_finRange j)
          · exact absurd h hmem
      · intro r hr
        rw [h6 r (fun i' hi' j => hr i' (by simp [hi']) j), h3 r (fun j _ => hr i (by simp) j)]
  obtain ⟨d, h1, h2, _⟩ := outer (List.finRange m) (fun _ _ => 0)
  refine ⟨m * q, d, ?_, rfl, fun i j k => ?_⟩
  · unfold pairwise
    rw [h1]
    rfl
  · rw [h2 i (List.mem_finRange i) j]

/-- Three observations: three rows. -/
example : ∃ c, crossDiff (fun (i : Fin 3) (_ : Fin 1) => (i : ℝ)) = .ok (3, c) := by
  obtain ⟨N, c, h, hN, _⟩ := C44_table (fun (i : Fin 3) (_ : Fin 1) => (i : ℝ)) (by norm_num)
  subst hN
  exact ⟨c, h⟩

end Verif.Props
