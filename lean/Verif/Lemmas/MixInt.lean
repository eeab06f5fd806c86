import Verif.Spec.MixInt
import Mathlib.Tactic.Linarith
import Mathlib.Tactic.Ring
import Mathlib.Tactic.Push
import Mathlib.Algebra.Order.Floor.Semiring
import Mathlib.Algebra.Order.Round

set_option autoImplicit false
set_option linter.unusedSectionVars false

namespace Verif.MixInt

open Spec

variable {K : Type} [Field K] [LinearOrder K] [IsStrictOrderedRing K] [FloorRing K]

omit [Field K] [IsStrictOrderedRing K] [FloorRing K] in
theorem argmaxLoop_spec (es : List K) : ∀ (cur : K) (ci i : ℕ),
    (argmaxLoop cur ci i es = ci ∧ ∀ e ∈ es, e ≤ cur) ∨
    ∃ (j : ℕ) (hj : j < es.length), argmaxLoop cur ci i es = i + j ∧ cur < es[j] ∧
      (∀ e ∈ es, e ≤ es[j]) ∧ ∀ (l : ℕ) (hl : l < j), es[l] < es[j] := by
  induction es with
  | nil => intro cur ci i; left; simp [argmaxLoop]
  | cons e es ih =>
    intro cur ci i
    by_cases hlt : cur < e
    · rw [argmaxLoop, if_pos hlt]
      right
      rcases ih e i (i + 1) with ⟨h1, h2⟩ | ⟨j, hj, h1, h2, h3, h4⟩
      · refine ⟨0, by simp, by simpa using h1, by simpa using hlt, ?_, by simp⟩
        intro x hx
        rcases List.mem_cons.1 hx with rfl | hx
        · simp
        · simpa using h2 x hx
      · refine ⟨j + 1, by simpa using hj, by omega, by simpa using lt_trans hlt h2, ?_, ?_⟩
        · intro x hx
          rcases List.mem_cons.1 hx with rfl | hx
          · simpa using h2.le
          · simpa using h3 x hx
        · intro l hl
          cases l with
          | zero => simpa using h2
          | succ l => simpa using h4 l (by omega)
    · rw [argmaxLoop, if_neg hlt]
      have hle := not_lt.1 hlt
      rcases ih cur ci (i + 1) with ⟨h1, h2⟩ | ⟨j, hj, h1, h2, h3, h4⟩
      · left
        refine ⟨h1, ?_⟩
        intro x hx
        rcases List.mem_cons.1 hx with rfl | hx
        · exact hle
        · exact h2 x hx
      · right
        refine ⟨j + 1, by simpa using hj, by omega, by simpa using h2, ?_, ?_⟩
        · intro x hx
          rcases List.mem_cons.1 hx with rfl | hx
          · simpa using (lt_of_le_of_lt hle h2).le
          · simpa using h3 x hx
        · intro l hl
          cases l with
          | zero => simpa using lt_of_le_of_lt hle h2
          | succ l => simpa using h4 l (by omega)

omit [Field K] [IsStrictOrderedRing K] [FloorRing K] in
theorem argmax_spec (l : List K) (h : l ≠ []) :
    ∃ (k : ℕ) (hk : k < l.length), argmax l = .ok k ∧ (∀ e ∈ l, e ≤ l[k]) ∧
      ∀ (j : ℕ) (hj : j < k), l[j] < l[k] := by
  cases l with
  | nil => simp at h
  | cons e es =>
    rcases argmaxLoop_spec (e :: es) e 0 0 with ⟨h1, h2⟩ | ⟨j, hj, h1, _, h3, h4⟩
    · exact ⟨0, by simp, by rw [argmax, h1], by simpa using h2, by simp⟩
    · exact ⟨j, hj, by rw [argmax, h1, zero_add], h3, h4⟩

omit [Field K] [IsStrictOrderedRing K] [FloorRing K] in
theorem argminLoop_spec (es : List K) : ∀ (cur : K) (ci i : ℕ),
    (argminLoop cur ci i es = ci ∧ ∀ e ∈ es, cur ≤ e) ∨
    ∃ (j : ℕ) (hj : j < es.length), argminLoop cur ci i es = i + j ∧ es[j] < cur ∧
      (∀ e ∈ es, es[j] ≤ e) ∧ ∀ (l : ℕ) (hl : l < j), es[j] < es[l] := by
  induction es with
  | nil => intro cur ci i; left; simp [argminLoop]
  | cons e es ih =>
    intro cur ci i
    by_cases hlt : e < cur
    · rw [argminLoop, if_pos hlt]
      right
      rcases ih e i (i + 1) with ⟨h1, h2⟩ | ⟨j, hj, h1, h2, h3, h4⟩
      · refine ⟨0, by simp, by simpa using h1, by simpa using hlt, ?_, by simp⟩
        intro x hx
        rcases List.mem_cons.1 hx with rfl | hx
        · simp
        · simpa using h2 x hx
      · refine ⟨j + 1, by simpa using hj, by omega, by simpa using lt_trans h2 hlt, ?_, ?_⟩
        · intro x hx
          rcases List.mem_cons.1 hx with rfl | hx
          · simpa using h2.le
          · simpa using h3 x hx
        · intro l hl
          cases l with
          | zero => simpa using h2
          | succ l => simpa using h4 l (by omega)
    · rw [argminLoop, if_neg hlt]
      have hle := not_lt.1 hlt
      rcases ih cur ci (i + 1) with ⟨h1, h2⟩ | ⟨j, hj, h1, h2, h3, h4⟩
      · left
        refine ⟨h1, ?_⟩
        intro x hx
        rcases List.mem_cons.1 hx with rfl | hx
        · exact hle
        · exact h2 x hx
      · right
        refine ⟨j + 1, by simpa using hj, by omega, by simpa using h2, ?_, ?_⟩
        · intro x hx
          rcases List.mem_cons.1 hx with rfl | hx
          · simpa using (lt_of_lt_of_le h2 hle).le
          · simpa using h3 x hx
        · intro l hl
          cases l with
          | zero => simpa using lt_of_lt_of_le h2 hle
          | succ l => simpa using h4 l (by omega)

omit [Field K] [IsStrictOrderedRing K] [FloorRing K] in
theorem argmin_spec (l : List K) (h : l ≠ []) :
    ∃ (k : ℕ) (hk : k < l.length), argmin l = .ok k ∧ (∀ e ∈ l, l[k] ≤ e) ∧
      ∀ (j : ℕ) (hj : j < k), l[k] < l[j] := by
  cases l with
  | nil => simp at h
  | cons e es =>
    rcases argminLoop_spec (e :: es) e 0 0 with ⟨h1, h2⟩ | ⟨j, hj, h1, _, h3, h4⟩
    · exact ⟨0, by simp, by rw [argmin, h1], by simpa using h2, by simp⟩
    · exact ⟨j, hj, by rw [argmin, h1, zero_add], h3, h4⟩

theorem abs_sub_round_le (x : K) : |x - (roundHalfAway x : K)| ≤ 1 / 2 := by
  unfold roundHalfAway
  rw [abs_le]
  split_ifs with h
  · have h1 := Int.floor_le (x + 1 / 2)
    have h2 := Int.lt_floor_add_one (x + 1 / 2)
    constructor <;> linarith
  · have h1 := Int.floor_le (-x + 1 / 2)
    have h2 := Int.lt_floor_add_one (-x + 1 / 2)
    push_cast
    constructor <;> linarith

/-- Rounding gives a nearest integer. -/
theorem round_nearest (x : K) (w : ℤ) : |x - (roundHalfAway x : K)| ≤ |x - (w : K)| := by
  have h := abs_sub_round_le x
  by_cases hw : w = roundHalfAway x
  · rw [hw]
  · have h1 : (1 : K) ≤ |(roundHalfAway x : K) - (w : K)| := by
      rw [← Int.cast_sub, ← Int.cast_abs]
      have : 1 ≤ |roundHalfAway x - w| := Int.one_le_abs (sub_ne_zero.2 (Ne.symm hw))
      exact_mod_cast this
    have h2 : |(roundHalfAway x : K) - (w : K)| ≤ |x - (roundHalfAway x : K)| + |x - w| := by
      rw [abs_sub_comm x (roundHalfAway x : K)]
      have := abs_add_le ((roundHalfAway x : K) - x) (x - w)
      simpa using this
    linarith

theorem round_int (z : ℤ) : roundHalfAway (z : K) = z := by
  have h := abs_sub_round_le (z : K)
  by_contra hne
  have h1 : (1 : K) ≤ |(z : K) - (roundHalfAway (z : K) : K)| := by
    rw [← Int.cast_sub, ← Int.cast_abs]
    have : 1 ≤ |z - roundHalfAway (z : K)| := Int.one_le_abs (sub_ne_zero.2 (Ne.symm hne))
    exact_mod_cast this
  linarith [show (1:K)/2 < 1 by norm_num]

theorem round_bounds {x : K} {l u : ℤ} (h1 : (l : K) ≤ x) (h2 : x ≤ (u : K)) :
    l ≤ roundHalfAway x ∧ roundHalfAway x ≤ u := by
  have h := abs_le.1 (abs_sub_round_le x)
  constructor
  · by_contra hc
    have : roundHalfAway x + 1 ≤ l := by omega
    have : (roundHalfAway x : K) + 1 ≤ l := by exact_mod_cast this
    linarith [h.2, show (1:K)/2 < 1 by norm_num]
  · by_contra hc
    have : u + 1 ≤ roundHalfAway x := by omega
    have : (u : K) + 1 ≤ roundHalfAway x := by exact_mod_cast this
    linarith [h.1, show (1:K)/2 < 1 by norm_num]

theorem oneHot_length (n k : ℕ) : (oneHot n k : List K).length = n := by simp [oneHot]

omit [FloorRing K] in
theorem oneHot_isMask {n k : ℕ} (h : k < n) : IsMask n k (oneHot n k : List K) := by
  refine ⟨by simp [oneHot], h, ?_⟩
  intro i hi
  simp [oneHot]

omit [FloorRing K] in
theorem isMask_eq_oneHot {n k : ℕ} {b : List K} (h : IsMask n k b) : b = oneHot n k := by
  obtain ⟨h1, h2, h3⟩ := h
  apply List.ext_getElem
  · simp [oneHot, h1]
  · intro i hi hi'
    rw [h3 i hi]
    simp [oneHot]

omit [FloorRing K] in
theorem argmax_mask {n k : ℕ} {b : List K} (h : IsMask n k b) : argmax b = .ok k := by
  obtain ⟨h1, h2, h3⟩ := h
  have hne : b ≠ [] := by rintro rfl; simp at h1; omega
  obtain ⟨m, hm, ha, hmax, _⟩ := argmax_spec b hne
  have hk : k < b.length := by omega
  rw [ha]
  congr 1
  by_contra hmk
  have h4 := hmax b[k] (List.getElem_mem hk)
  rw [h3 k hk, h3 m hm, if_pos rfl, if_neg hmk] at h4
  exact absurd h4 (by norm_num)

theorem takeClosest_spec (vs : List K) (v : K) (h : vs ≠ []) :
    ∃ c, takeClosest vs v = .ok c ∧ c ∈ vs ∧ ∀ w ∈ vs, |v - c| ≤ |v - w| := by
  obtain ⟨k, hk, ha, hmin, _⟩ := argmin_spec (vs.map fun r => |v - r|) (by simpa using h)
  have hk' : k < vs.length := by simpa using hk
  refine ⟨vs[k], ?_, List.getElem_mem hk', ?_⟩
  · simp [takeClosest, ha, bind, Except.bind, hk']
  · intro w hw
    have := hmin _ (List.mem_map.2 ⟨w, hw, rfl⟩)
    simpa using this

theorem takeClosest_mem (vs : List K) (v : K) (h : v ∈ vs) : takeClosest vs v = .ok v := by
  obtain ⟨c, hc, _, hmin⟩ := takeClosest_spec vs v (List.ne_nil_of_mem h)
  have := hmin v h
  simp only [sub_self, abs_zero] at this
  have : v - c = 0 := abs_eq_zero.1 (le_antisymm this (abs_nonneg _))
  rw [hc, sub_eq_zero.1 this]

/-- Casting a row with the right number of components and valid types is a `Cast`. -/
theorem castRow_spec (ts : List (XType K)) (hok : ∀ t ∈ ts, TypeOk t) (x : List K)
    (hl : x.length = relaxedDim ts) : ∃ x', castRow ts x = .ok x' ∧ Cast ts x x' := by
  induction ts generalizing x with
  | nil =>
    have : x = [] := by simpa [relaxedDim] using hl
    subst this
    exact ⟨[], rfl, .nil⟩
  | cons t ts ih =>
    have hok' : ∀ t ∈ ts, TypeOk t := fun t ht => hok t (by simp [ht])
    have htok := hok t (by simp)
    cases t with
    | float l u =>
      simp only [relaxedDim, List.map_cons, List.sum_cons] at hl
      cases x with
      | nil => simp at hl; omega
      | cons a xs =>
        obtain ⟨x', h1, h2⟩ := ih hok' xs (by simp only [List.length_cons] at hl; simp only [relaxedDim]; omega)
        exact ⟨a :: x', by simp [castRow, h1, bind, Except.bind], .float h2⟩
    | int l u =>
      simp only [relaxedDim, List.map_cons, List.sum_cons] at hl
      cases x with
      | nil => simp at hl; omega
      | cons a xs =>
        obtain ⟨x', h1, h2⟩ := ih hok' xs (by simp only [List.length_cons] at hl; simp only [relaxedDim]; omega)
        exact ⟨(roundHalfAway a : K) :: x', by simp [castRow, h1, bind, Except.bind],
          .int (round_nearest a) h2⟩
    | ord vs =>
      simp only [relaxedDim, List.map_cons, List.sum_cons] at hl
      cases x with
      | nil => simp at hl; omega
      | cons a xs =>
        obtain ⟨x', h1, h2⟩ := ih hok' xs (by simp only [List.length_cons] at hl; simp only [relaxedDim]; omega)
        obtain ⟨c, hc, hm, hn⟩ := takeClosest_spec vs a htok
        exact ⟨c :: x', by simp [castRow, h1, hc, bind, Except.bind], .ord hm hn h2⟩
    | enum n =>
      simp only [relaxedDim, List.map_cons, List.sum_cons] at hl
      have hn : n ≤ x.length := by omega
      obtain ⟨x', h1, h2⟩ := ih hok' (x.drop n) (by simp only [List.length_drop, relaxedDim]; omega)
      have htl : (x.take n).length = n := by simp [hn]
      have hne : x.take n ≠ [] := by
        intro h0
        rw [h0] at htl
        simp only [List.length_nil] at htl
        have : 1 ≤ n := htok
        omega
      obtain ⟨k, hk, ha, hmax, hfirst⟩ := argmax_spec (x.take n) hne
      refine ⟨oneHot n k ++ x', ?_, ?_⟩
      · simp [castRow, hn, ha, h1, bind, Except.bind]
      · conv => arg 2; rw [← List.take_append_drop n x]
        refine Cast.enum htl (oneHot_isMask (by omega)) ?_ h2
        intro i hi hk'
        exact ⟨hmax _ (List.getElem_mem hi), fun hik => hfirst i hik⟩

omit [FloorRing K] in
theorem _root_.Verif.Spec.Cast.admissible {ts : List (XType K)} {x x' : List K} (h : Cast ts x x') :
    Admissible ts x' := by
  induction h with
  | nil => exact .nil
  | float _ ih => exact .float ih
  | int _ _ ih => exact .int ih
  | ord hm _ _ ih => exact .ord hm ih
  | enum _ hb _ _ ih => exact .enum hb ih

/-- Casting an admissible point changes nothing. -/
theorem castRow_admissible {ts : List (XType K)} {x : List K} (h : Admissible ts x) :
    castRow ts x = .ok x := by
  induction h with
  | nil => rfl
  | float _ ih => simp [castRow, ih, bind, Except.bind]
  | int _ ih => simp [castRow, ih, bind, Except.bind, round_int]
  | ord hm _ ih => simp [castRow, ih, bind, Except.bind, takeClosest_mem _ _ hm]
  | @enum n k b ts xs hb _ ih =>
    have hl := hb.1
    have htake : (b ++ xs).take n = b := by rw [← hl]; simp
    have hdrop : (b ++ xs).drop n = xs := by rw [← hl]; simp
    have hnl : n ≤ (b ++ xs).length := by simp; omega
    rw [castRow, if_pos hnl, htake, hdrop, argmax_mask hb, ih]
    simp [bind, Except.bind, ← isMask_eq_oneHot hb]

omit [FloorRing K] in
theorem _root_.Verif.Spec.Relaxed.admissible {ts : List (XType K)} {x u : List K} (h : Relaxed ts x u) :
    Admissible ts u := by
  induction h with
  | nil => exact .nil
  | float _ _ _ ih => exact .float ih
  | int _ _ _ ih => exact .int ih
  | ord hm _ ih => exact .ord hm ih
  | enum hb _ ih => exact .enum hb ih

theorem asUsize_natCast (k : ℕ) : asUsize (k : K) = k := by simp [asUsize]

/-- `t` is a categorical variable. -/
def IsEnum (t : XType K) : Prop := ∃ n, t = .enum n

/-- Categorical variables placed before a non categorical one have a single level. -/
def EncodeOk (ts : List (XType K)) : Prop :=
  ts.Pairwise fun a b => ∀ n, a = .enum n → ¬ IsEnum b → n = 1

/-- Categorical variables placed before another categorical one have a single level. -/
def DecodeOk (ts : List (XType K)) : Prop :=
  ts.Pairwise fun a b => ∀ n, a = .enum n → IsEnum b → n = 1

theorem unfoldFrom_relaxed (ts : List (XType K)) (pre : List K) (u : ℕ) {xs us : List K}
    (h : Relaxed ts xs us) (hn : EncodeOk ts) (hu : u = pre.length ∨ ∀ t ∈ ts, IsEnum t) :
    unfoldFrom (pre ++ xs) pre.length u ts = .ok us := by
  induction h generalizing pre u with
  | nil => rfl
  | @float l up x ts xs us _ _ _ ih =>
    rcases hu with rfl | hu
    · have := ih (pre ++ [x]) (pre.length + 1) (List.pairwise_cons.1 hn).2 (Or.inl (by simp))
      simp only [List.append_assoc, List.singleton_append, List.length_append, List.length_singleton] at this
      simp [unfoldFrom, this, bind, Except.bind]
    · obtain ⟨n, hn⟩ := hu (.float l up) (by simp)
      cases hn
  | @int l up z ts xs us _ _ _ ih =>
    rcases hu with rfl | hu
    · have := ih (pre ++ [(z : K)]) (pre.length + 1) (List.pairwise_cons.1 hn).2 (Or.inl (by simp))
      simp only [List.append_assoc, List.singleton_append, List.length_append, List.length_singleton] at this
      simp [unfoldFrom, this, bind, Except.bind]
    · obtain ⟨n, hn⟩ := hu (.int l up) (by simp)
      cases hn
  | @ord vs x ts xs us _ _ ih =>
    rcases hu with rfl | hu
    · have := ih (pre ++ [x]) (pre.length + 1) (List.pairwise_cons.1 hn).2 (Or.inl (by simp))
      simp only [List.append_assoc, List.singleton_append, List.length_append, List.length_singleton] at this
      simp [unfoldFrom, this, bind, Except.bind]
    · obtain ⟨n, hn⟩ := hu (.ord vs) (by simp)
      cases hn
  | @enum n k b ts xs us hb hr ih =>
    have hk := hb.2.1
    obtain ⟨h1, h2⟩ := List.pairwise_cons.1 hn
    have := ih (pre ++ [(k : K)]) (u + n) h2 (by
      by_cases hall : ∀ t ∈ ts, IsEnum t
      · exact Or.inr hall
      · push Not at hall
        obtain ⟨t, ht, hne⟩ := hall
        have h1n := h1 t ht n rfl hne
        rcases hu with rfl | hu
        · left; simp [h1n]
        · exact absurd (hu t (by simp [ht])) hne)
    simp only [List.append_assoc, List.singleton_append, List.length_append, List.length_singleton] at this
    simp [unfoldFrom, asUsize_natCast, hk, this, bind, Except.bind, isMask_eq_oneHot hb]

theorem foldFrom_relaxed (ts : List (XType K)) (pre : List K) (j : ℕ) {xs us : List K}
    (h : Relaxed ts xs us) (hn : DecodeOk ts) (hj : j = pre.length ∨ ∀ t ∈ ts, ¬ IsEnum t) :
    foldFrom (pre ++ us) j pre.length ts = .ok xs := by
  induction h generalizing pre j with
  | nil => rfl
  | @float l up x ts xs us _ _ _ ih =>
    have := ih (pre ++ [x]) (j + 1) (List.pairwise_cons.1 hn).2 (by
      rcases hj with rfl | hj
      · left; simp
      · right; exact fun t ht => hj t (by simp [ht]))
    simp only [List.append_assoc, List.singleton_append, List.length_append, List.length_singleton] at this
    simp [foldFrom, this, bind, Except.bind]
  | @int l up z ts xs us _ _ _ ih =>
    have := ih (pre ++ [(z : K)]) (j + 1) (List.pairwise_cons.1 hn).2 (by
      rcases hj with rfl | hj
      · left; simp
      · right; exact fun t ht => hj t (by simp [ht]))
    simp only [List.append_assoc, List.singleton_append, List.length_append, List.length_singleton] at this
    simp [foldFrom, this, bind, Except.bind]
  | @ord vs x ts xs us _ _ ih =>
    have := ih (pre ++ [x]) (j + 1) (List.pairwise_cons.1 hn).2 (by
      rcases hj with rfl | hj
      · left; simp
      · right; exact fun t ht => hj t (by simp [ht]))
    simp only [List.append_assoc, List.singleton_append, List.length_append, List.length_singleton] at this
    simp [foldFrom, this, bind, Except.bind]
  | @enum n k b ts xs us hb hr ih =>
    have hl := hb.1
    rcases hj with rfl | hj
    · have htake : ((pre ++ (b ++ us)).drop pre.length).take n = b := by
        rw [List.drop_left, ← hl, List.take_left]
      have hle : pre.length + n ≤ (pre ++ (b ++ us)).length := by simp; omega
      obtain ⟨h1, h2⟩ := List.pairwise_cons.1 hn
      have := ih (pre ++ b) (pre.length + 1) h2 (by
        by_cases hall : ∀ t ∈ ts, ¬ IsEnum t
        · exact Or.inr hall
        · push Not at hall
          obtain ⟨t, ht, he⟩ := hall
          left
          simp [hl, h1 t ht n rfl he])
      simp only [List.append_assoc, List.length_append, hl] at this
      rw [foldFrom, if_pos hle, htake, argmax_mask hb]
      simp only [bind, Except.bind, this]
    · exact absurd ⟨n, rfl⟩ (hj (.enum n) (by simp))

theorem limits_spec (ts : List (XType K)) (hok : ∀ t ∈ ts, TypeOk t) :
    ∃ lim, continuousLimits ts = .ok lim ∧ lim.length = relaxedDim ts ∧ (∀ l ∈ lim, l.1 ≤ l.2) ∧
      (∀ x u, Relaxed ts x u → InLimits lim u) ∧
      (∀ x x', InLimits lim x → Cast ts x x' → InLimits lim x') := by
  induction ts with
  | nil =>
    refine ⟨[], rfl, rfl, by simp, ?_, ?_⟩
    · intro x u h; cases h; exact List.Forall₂.nil
    · intro x x' _ h; cases h; exact List.Forall₂.nil
  | cons t ts ih =>
    obtain ⟨lim, h1, h2, h3, h4, h5⟩ := ih (fun t ht => hok t (by simp [ht]))
    have htok := hok t (by simp)
    cases t with
    | float l u =>
      refine ⟨(l, u) :: lim, by simp [continuousLimits, h1, bind, Except.bind], ?_, ?_, ?_, ?_⟩
      · simp only [relaxedDim, List.map_cons, List.sum_cons, List.length_cons] at h2 ⊢; omega
      · intro p hp
        rcases List.mem_cons.1 hp with rfl | hp
        · exact htok
        · exact h3 p hp
      · intro x u h; cases h with
        | float ha hb hr => exact List.Forall₂.cons ⟨ha, hb⟩ (h4 _ _ hr)
      · intro x x' hx h; cases h with
        | float hr => cases hx with
          | cons ha hb => exact List.Forall₂.cons ha (h5 _ _ hb hr)
    | int l u =>
      refine ⟨((l : K), (u : K)) :: lim, by simp [continuousLimits, h1, bind, Except.bind], ?_, ?_, ?_, ?_⟩
      · simp only [relaxedDim, List.map_cons, List.sum_cons, List.length_cons] at h2 ⊢; omega
      · intro p hp
        rcases List.mem_cons.1 hp with rfl | hp
        · have : l ≤ u := htok
          simp only
          exact_mod_cast this
        · exact h3 p hp
      · intro x u h; cases h with
        | int ha hb hr =>
          exact List.Forall₂.cons ⟨Int.cast_le.2 ha, Int.cast_le.2 hb⟩ (h4 _ _ hr)
      · intro x x' hx h; cases h with
        | @int _ _ a z ts xs us hnear hr => cases hx with
          | cons ha hb =>
            refine List.Forall₂.cons ?_ (h5 _ _ hb hr)
            obtain ⟨ha1, ha2⟩ := ha
            simp only at ha1 ha2 ⊢
            have g1 := hnear l
            have g2 := hnear u
            rw [abs_of_nonneg (sub_nonneg.2 ha1)] at g1
            rw [abs_sub_comm a (u : K), abs_of_nonneg (sub_nonneg.2 ha2)] at g2
            have := abs_le.1 g1
            have := abs_le.1 g2
            -- nearest to a between l and u
            constructor
            · linarith
            · linarith
    | ord vs =>
      cases vs with
      | nil => exact absurd rfl htok
      | cons v vs =>
        have hmin : ∀ (vs : List K) (v w : K), w ∈ v :: vs → vs.foldl min v ≤ w := by
          intro vs
          induction vs with
          | nil => intro v w hw; simp at hw; simp [hw]
          | cons a vs ihv =>
            intro v w hw
            simp only [List.foldl_cons]
            rcases List.mem_cons.1 hw with rfl | hw
            · exact le_trans (ihv (min w a) (min w a) (by simp)) (min_le_left _ _)
            · rcases List.mem_cons.1 hw with rfl | hw
              · exact le_trans (ihv (min v w) (min v w) (by simp)) (min_le_right _ _)
              · exact ihv (min v a) w (by simp [hw])
        have hmax : ∀ (vs : List K) (v w : K), w ∈ v :: vs → w ≤ vs.foldl max v := by
          intro vs
          induction vs with
          | nil => intro v w hw; simp at hw; simp [hw]
          | cons a vs ihv =>
            intro v w hw
            simp only [List.foldl_cons]
            rcases List.mem_cons.1 hw with rfl | hw
            · exact le_trans (le_max_left _ _) (ihv (max w a) (max w a) (by simp))
            · rcases List.mem_cons.1 hw with rfl | hw
              · exact le_trans (le_max_right _ _) (ihv (max v w) (max v w) (by simp))
              · exact ihv (max v a) w (by simp [hw])
        refine ⟨(vs.foldl min v, vs.foldl max v) :: lim,
          by simp [continuousLimits, h1, bind, Except.bind], ?_, ?_, ?_, ?_⟩
        · simp only [relaxedDim, List.map_cons, List.sum_cons, List.length_cons] at h2 ⊢; omega
        · intro p hp
          rcases List.mem_cons.1 hp with rfl | hp
          · exact le_trans (hmin vs v v (by simp)) (hmax vs v v (by simp))
          · exact h3 p hp
        · intro x u h; cases h with
          | ord hm hr => exact List.Forall₂.cons ⟨hmin _ _ _ hm, hmax _ _ _ hm⟩ (h4 _ _ hr)
        · intro x x' hx h; cases h with
          | ord hm _ hr => cases hx with
            | cons ha hb =>
              exact List.Forall₂.cons ⟨hmin _ _ _ hm, hmax _ _ _ hm⟩ (h5 _ _ hb hr)
    | enum n =>
      have hrep : ∀ (b : List K), (∀ e ∈ b, 0 ≤ e ∧ e ≤ 1) → b.length = n →
          List.Forall₂ (fun (l : K × K) v => l.1 ≤ v ∧ v ≤ l.2) (List.replicate n (0, 1)) b := by
        intro b hb hl
        clear hok htok
        subst hl
        induction b with
        | nil => exact List.Forall₂.nil
        | cons e b ihb =>
          exact List.Forall₂.cons (hb e (by simp)) (ihb (fun e he => hb e (by simp [he])))
      have hmask : ∀ (k : ℕ) (b : List K), IsMask n k b → ∀ e ∈ b, 0 ≤ e ∧ e ≤ 1 := by
        intro k b hb e he
        obtain ⟨i, hi, rfl⟩ := List.mem_iff_getElem.1 he
        rw [hb.2.2 i hi]
        split_ifs <;> simp
      refine ⟨List.replicate n (0, 1) ++ lim, by simp [continuousLimits, h1, bind, Except.bind],
        ?_, ?_, ?_, ?_⟩
      · simp only [relaxedDim, List.map_cons, List.sum_cons, List.length_append,
          List.length_replicate] at h2 ⊢; omega
      · intro p hp
        rcases List.mem_append.1 hp with hp | hp
        · rw [List.eq_of_mem_replicate hp]; exact zero_le_one
        · exact h3 p hp
      · intro x u h; cases h with
        | enum hb hr => exact List.rel_append (hrep _ (hmask _ _ hb) hb.1) (h4 _ _ hr)
      · intro x x' hx h; cases h with
        | @enum _ k a b ts xs us hal hb _ hr =>
          refine List.rel_append (hrep _ (hmask _ _ hb) hb.1) (h5 _ _ ?_ hr)
          have := List.forall₂_drop_append _ a xs hx
          rw [hal] at this
          have hd : (List.replicate n ((0 : K), (1 : K)) ++ lim).drop n = lim := by
            conv => lhs; arg 1; rw [← List.length_replicate (n := n) (a := ((0 : K), (1 : K)))]
            exact List.drop_left
          rwa [hd] at this

end Verif.MixInt
