import Verif.Model.Steps
import Verif.Spec.Steps
import Verif.Props.Doe
import Mathlib.Analysis.InnerProductSpace.PiL2

/-!
# Properties of the steps of the optimization (C31-C35, C68, C69)
-/

set_option autoImplicit false

namespace Verif.Props

open Verif Verif.Doe Verif.Steps

variable {n d : ℕ}

/-! ## Start points -/

theorem scaledDist_eq (lower upper a b : Fin d → ℝ) :
    Steps.scaledDist (fun j => upper j - lower j) a b = Spec.scaledDist lower upper a b := rfl

theorem scaledDist_comm (r a b : Fin d → ℝ) : Steps.scaledDist r a b = Steps.scaledDist r b a := by
  unfold Steps.scaledDist
  congr 1
  refine Finset.sum_congr rfl fun j _ => ?_
  rw [← neg_sub, neg_div, neg_sq]

theorem scaledDist_norm (r a b : Fin d → ℝ) : Steps.scaledDist r a b =
    dist (WithLp.toLp 2 (fun j => a j / r j) : EuclideanSpace ℝ (Fin d)) (WithLp.toLp 2 fun j => b j / r j) := by
  rw [EuclideanSpace.dist_eq]
  unfold Steps.scaledDist
  congr 1
  refine Finset.sum_congr rfl fun j _ => ?_
  rw [Real.dist_eq, sq_abs, sub_div]

theorem scaledDist_triangle (r a b c : Fin d → ℝ) :
    Steps.scaledDist r a c ≤ Steps.scaledDist r a b + Steps.scaledDist r b c := by
  simp only [scaledDist_norm]; exact dist_triangle _ _ _

theorem scaledDist_middle_left (r a b : Fin d → ℝ) :
    Steps.scaledDist r a (middle a b) = Steps.scaledDist r a b / 2 := by
  unfold Steps.scaledDist middle
  rw [show (2 : ℝ) = Real.sqrt 4 by rw [show (4 : ℝ) = 2 ^ 2 by norm_num, Real.sqrt_sq (by norm_num)],
    ← Real.sqrt_div (Finset.sum_nonneg fun j _ => sq_nonneg _), Finset.sum_div]
  rw [show Real.sqrt 4 = 2 by rw [show (4 : ℝ) = 2 ^ 2 by norm_num, Real.sqrt_sq (by norm_num)]]
  congr 1
  refine Finset.sum_congr rfl fun j _ => ?_
  rw [show a j - (a j + b j) / 2 = (a j - b j) / 2 by ring]
  ring

theorem middle_comm (a b : Fin d → ℝ) : middle a b = middle b a := by
  funext j; simp only [middle, add_comm]

theorem scaledDist_middle_right (r a b : Fin d → ℝ) :
    Steps.scaledDist r b (middle a b) = Steps.scaledDist r a (middle a b) := by
  rw [scaledDist_middle_left, middle_comm, scaledDist_middle_left, scaledDist_comm]

theorem middle_isMiddle (a b : Fin d → ℝ) : Spec.IsMiddle a b (middle a b) := fun j => by
  simp only [middle]; ring

theorem isMiddle_eq {a b m : Fin d → ℝ} (h : Spec.IsMiddle a b m) : m = middle a b := by
  funext j; have := h j; simp only [middle]; linarith

theorem mem_startPairs (p : Fin n × Fin n) : p ∈ startPairs n ↔ p.2 < p.1 := by
  obtain ⟨i, j⟩ := p
  simp [startPairs]

theorem mem_sortedPairs (x : Design n d) (r : Fin d → ℝ) (p : Fin n × Fin n) :
    p ∈ sortedPairs x r ↔ p.2 < p.1 := by
  rw [sortedPairs, List.mem_mergeSort, mem_startPairs]

theorem sortedPairs_pairwise (x : Design n d) (r : Fin d → ℝ) :
    (sortedPairs x r).Pairwise fun a b =>
      Steps.scaledDist r (x a.1) (x a.2) ≤ Steps.scaledDist r (x b.1) (x b.2) := by
  have := List.pairwise_mergeSort (le := fun a b : Fin n × Fin n =>
    decide (Steps.scaledDist r (x a.1) (x a.2) ≤ Steps.scaledDist r (x b.1) (x b.2)))
    (by intro a b c h1 h2; simp only [decide_eq_true_eq] at *; exact h1.trans h2)
    (by intro a b; simp only [Bool.or_eq_true, decide_eq_true_eq]; exact le_total _ _) (startPairs n)
  simpa [sortedPairs] using this

open Classical in
/-- One turn of the loop. -/
noncomputable def startStep (x : Design n d) (r : Fin d → ℝ) (st : List (Fin d → ℝ)) (p : Fin n × Fin n) :
    List (Fin d → ℝ) := if isGood x r st p.1 p.2 then st ++ [middle (x p.1) (x p.2)] else st

theorem startStep_prefix (x : Design n d) (r : Fin d → ℝ) (st : List (Fin d → ℝ)) (p : Fin n × Fin n) :
    st <+: startStep x r st p := by
  unfold startStep; split_ifs
  · exact List.prefix_append _ _
  · exact List.prefix_rfl

theorem startStep_length (x : Design n d) (r : Fin d → ℝ) (st : List (Fin d → ℝ)) (p : Fin n × Fin n) :
    (startStep x r st p).length ≤ st.length + 1 := by
  unfold startStep; split_ifs <;> simp

theorem foldl_prefix (x : Design n d) (r : Fin d → ℝ) (ps : List (Fin n × Fin n)) :
    ∀ st, st <+: ps.foldl (startStep x r) st := by
  induction ps with
  | nil => intro st; exact List.prefix_rfl
  | cons p ps ih => intro st; exact (startStep_prefix x r st p).trans (ih _)

theorem startLoop_none (x : Design n d) (r : Fin d → ℝ) (ps : List (Fin n × Fin n)) :
    ∀ st, startLoop x r none ps st = ps.foldl (startStep x r) st := by
  induction ps with
  | nil => intro st; rfl
  | cons p ps ih =>
    intro st
    simp only [startLoop, List.foldl_cons]
    rw [if_neg (by simp)]
    exact ih _

theorem startLoop_some (x : Design n d) (r : Fin d → ℝ) (m : ℕ) (ps : List (Fin n × Fin n)) :
    ∀ st : List (Fin d → ℝ), st.length < m →
      startLoop x r (some m) ps st = (ps.foldl (startStep x r) st).take m := by
  induction ps with
  | nil => intro st h; simp only [startLoop, List.foldl_nil]; rw [List.take_of_length_le h.le]
  | cons p ps ih =>
    intro st h
    simp only [startLoop, List.foldl_cons]
    change (if ∃ m', some m = some m' ∧ (startStep x r st p).length ≥ m' then startStep x r st p
      else startLoop x r (some m) ps (startStep x r st p)) = _
    have hl := startStep_length x r st p
    split_ifs with hc
    · obtain ⟨m', he, hm⟩ := hc
      cases he
      obtain ⟨t, ht⟩ := foldl_prefix x r ps (startStep x r st p)
      rw [← ht, List.take_append_of_le_length hm, List.take_of_length_le (by omega)]
    · refine ih _ ?_
      by_contra hge
      exact hc ⟨m, rfl, by omega⟩

/-- Properties of the starts obtained from the list of pairs. -/
structure Picked (x : Design n d) (r : Fin d → ℝ) (ps : List (Fin n × Fin n)) (st : List (Fin d → ℝ)) : Prop where
  good : ∀ a s b, st = a ++ s :: b → ∃ p ∈ ps, s = middle (x p.1) (x p.2) ∧ isGood x r a p.1 p.2
  all : ∀ p ∈ ps, middle (x p.1) (x p.2) ∈ st ∨ ¬ isGood x r st p.1 p.2

theorem isGood_mono {x : Design n d} {r : Fin d → ℝ} {st st' : List (Fin d → ℝ)} (h : st <+: st') {i j : Fin n}
    (hg : isGood x r st' i j) : isGood x r st i j :=
  ⟨hg.1, fun s hs => hg.2 s (h.subset hs)⟩

theorem foldl_picked (x : Design n d) (r : Fin d → ℝ) (ps : List (Fin n × Fin n)) :
    Picked x r ps (ps.foldl (startStep x r) []) := by
  induction ps using List.reverseRecOn with
  | nil => exact ⟨by simp, by simp⟩
  | append_singleton ps p ih =>
    rw [List.foldl_append, List.foldl_cons, List.foldl_nil]
    set st := ps.foldl (startStep x r) [] with hst
    have hpre := startStep_prefix x r st p
    constructor
    · intro a s b h
      by_cases hg : isGood x r st p.1 p.2
      · rw [startStep, if_pos hg] at h
        rcases List.eq_nil_or_concat b with rfl | ⟨b', z, rfl⟩
        · have := List.append_inj' h rfl
          obtain ⟨h1, h2⟩ := this
          refine ⟨p, by simp, ?_, h1 ▸ hg⟩
          simpa using h2.symm
        · rw [List.concat_eq_append, ← List.cons_append, ← List.append_assoc] at h
          have h1 := (List.append_inj' h rfl).1
          obtain ⟨q, hq, h2, h3⟩ := ih.good a s b' h1
          exact ⟨q, by simp [hq], h2, h3⟩
      · rw [startStep, if_neg hg] at h
        obtain ⟨q, hq, h2, h3⟩ := ih.good a s b h
        exact ⟨q, by simp [hq], h2, h3⟩
    · intro q hq
      rcases List.mem_append.mp hq with hq | hq
      · rcases ih.all q hq with h | h
        · exact Or.inl (hpre.subset h)
        · exact Or.inr fun hg => h (isGood_mono hpre hg)
      · simp only [List.mem_singleton] at hq
        subst hq
        by_cases hg : isGood x r st q.1 q.2
        · left; rw [startStep, if_pos hg]; simp
        · right; intro hg'; exact hg (isGood_mono hpre hg')

/-- C31. With a limit `m ≥ 1`, the starts are the first `m` starts found without limit. -/
theorem C31_limit_keeps_first (x : Design n d) (xl xu : Fin d → ℝ) (m : ℕ) (hm : 1 ≤ m) :
    startPoints x xl xu (some m) = (startPoints x xl xu none).take m := by
  simp only [startPoints]
  rw [startLoop_none, startLoop_some _ _ _ _ _ (by simp; omega)]

/-- The first pair is a closest one: its middle is good. -/
theorem first_good (x : Design n d) (r : Fin d → ℝ) (p : Fin n × Fin n) (ps : List (Fin n × Fin n))
    (h : sortedPairs x r = p :: ps) : isGood x r [] p.1 p.2 := by
  refine ⟨fun k hki hkj hlt => ?_, by simp⟩
  have hs := sortedPairs_pairwise x r
  have hmem : ∀ q : Fin n × Fin n, q.2 < q.1 →
      Steps.scaledDist r (x p.1) (x p.2) ≤ Steps.scaledDist r (x q.1) (x q.2) := by
    intro q hq
    have hin := (mem_sortedPairs x r q).mpr hq
    rw [h] at hs hin
    rcases List.mem_cons.mp hin with rfl | hin
    · exact le_rfl
    · exact List.rel_of_pairwise_cons hs hin
  have hle : Steps.scaledDist r (x p.1) (x p.2) ≤ Steps.scaledDist r (x k) (x p.1) := by
    rcases lt_or_gt_of_ne hki with hk | hk
    · rw [scaledDist_comm r (x k)]; exact hmem (p.1, k) hk
    · exact hmem (k, p.1) hk
  have ht := scaledDist_triangle r (x k) (middle (x p.1) (x p.2)) (x p.1)
  rw [scaledDist_comm r (middle _ _)] at ht
  rw [scaledDist_middle_left] at hlt ht
  linarith

theorem startPoints_some_zero (x : Design n d) (xl xu : Fin d → ℝ) :
    startPoints x xl xu (some 0) = (startPoints x xl xu none).take 1 := by
  simp only [startPoints]
  rw [startLoop_none]
  cases hp : sortedPairs x fun j => xu j - xl j with
  | nil => simp [startLoop]
  | cons p ps =>
    have hg := first_good x _ p ps hp
    simp only [startLoop, List.foldl_cons]
    rw [if_pos ⟨0, rfl, by simp⟩, if_pos hg]
    obtain ⟨t, ht⟩ := foldl_prefix x (fun j => xu j - xl j) ps (startStep x (fun j => xu j - xl j) [] p)
    rw [← ht, startStep, if_pos hg]
    simp

/-- All starts are a prefix of the starts without limit. -/
theorem startPoints_prefix (x : Design n d) (xl xu : Fin d → ℝ) (nMax : Option ℕ) :
    startPoints x xl xu nMax <+: startPoints x xl xu none := by
  cases nMax with
  | none => exact List.prefix_rfl
  | some m =>
    rcases Nat.eq_zero_or_pos m with rfl | hm
    · rw [startPoints_some_zero]; exact List.take_prefix _ _
    · rw [C31_limit_keeps_first x xl xu m hm]; exact List.take_prefix _ _

/-- C31. At most the requested number of starts, except that one may be given if none is requested. -/
theorem C31_count (x : Design n d) (xl xu : Fin d → ℝ) (m : ℕ) :
    (startPoints x xl xu (some m)).length ≤ max m 1 := by
  rcases Nat.eq_zero_or_pos m with rfl | hm
  · rw [startPoints_some_zero]; simp
  · rw [C31_limit_keeps_first x xl xu m hm]; simp

theorem startPoints_picked (x : Design n d) (xl xu : Fin d → ℝ) (nMax : Option ℕ) (a b : List (Fin d → ℝ))
    (s : Fin d → ℝ) (h : startPoints x xl xu nMax = a ++ s :: b) :
    ∃ p : Fin n × Fin n, p.2 < p.1 ∧ s = middle (x p.1) (x p.2) ∧
      isGood x (fun j => xu j - xl j) a p.1 p.2 := by
  obtain ⟨t, ht⟩ := startPoints_prefix x xl xu nMax
  rw [h, List.append_assoc, List.cons_append] at ht
  have hpk := foldl_picked x (fun j => xu j - xl j) (sortedPairs x fun j => xu j - xl j)
  rw [← startLoop_none] at hpk
  obtain ⟨p, hp, h1, h2⟩ := hpk.good a s (b ++ t) ht.symm
  exact ⟨p, (mem_sortedPairs _ _ _).mp hp, h1, h2⟩

theorem nearest_of_good {x : Design n d} {xl xu : Fin d → ℝ} {a : List (Fin d → ℝ)} {i j : Fin n}
    (h : isGood x (fun j => xu j - xl j) a i j) :
    Spec.IsNearest xl xu x (middle (x i) (x j)) i ∧ Spec.IsNearest xl xu x (middle (x i) (x j)) j := by
  have key : ∀ k, Steps.scaledDist (fun j => xu j - xl j) (x i) (middle (x i) (x j)) ≤
      Steps.scaledDist (fun j => xu j - xl j) (x k) (middle (x i) (x j)) := by
    intro k
    by_cases hi : k = i
    · rw [hi]
    · by_cases hj : k = j
      · rw [hj, scaledDist_middle_right]
      · exact not_lt.mp (h.1 k hi hj)
  refine ⟨key, fun k => ?_⟩
  have := key k
  rw [← scaledDist_middle_right] at this
  exact this

/-- C31. Every start is the middle of two distinct data points which are its nearest data points. -/
theorem C31_midpoints (x : Design n d) (xl xu : Fin d → ℝ) (nMax : Option ℕ) (s : Fin d → ℝ)
    (h : s ∈ startPoints x xl xu nMax) :
    ∃ i j, i ≠ j ∧ Spec.IsMiddle (x i) (x j) s ∧ Spec.IsNearest xl xu x s i ∧ Spec.IsNearest xl xu x s j := by
  obtain ⟨a, b, hab⟩ := List.append_of_mem h
  obtain ⟨p, hp, rfl, hg⟩ := startPoints_picked x xl xu nMax a b s hab
  exact ⟨p.1, p.2, (ne_of_lt hp).symm, middle_isMiddle _ _, nearest_of_good hg⟩

/-- C31. If the data are within the bounds, so are the starts. -/
theorem C31_in_bounds (x : Design n d) (xl xu : Fin d → ℝ) (hb : Spec.InBounds xl xu x) (nMax : Option ℕ)
    (s : Fin d → ℝ) (h : s ∈ startPoints x xl xu nMax) : ∀ j, xl j ≤ s j ∧ s j ≤ xu j := by
  obtain ⟨i, j, _, hm, _⟩ := C31_midpoints x xl xu nMax s h
  intro c
  have h1 := hb i c; have h2 := hb j c; have h3 := hm c
  constructor <;> linarith

/-- C31. No start is closer to a start found before it than to its nearest data points. -/
theorem C31_starts_apart (x : Design n d) (xl xu : Fin d → ℝ) (nMax : Option ℕ) :
    (startPoints x xl xu nMax).Pairwise fun s t =>
      ∃ i, Spec.IsNearest xl xu x t i ∧ Spec.scaledDist xl xu (x i) t ≤ Spec.scaledDist xl xu s t := by
  rw [List.pairwise_iff_forall_sublist]
  intro s t hst
  obtain ⟨a, b, hab, h1, h2⟩ := List.cons_sublist_iff.mp hst
  obtain ⟨b1, b2, hb⟩ := List.append_of_mem (List.singleton_sublist.mp h2)
  rw [hb, ← List.append_assoc] at hab
  obtain ⟨p, hp, rfl, hg⟩ := startPoints_picked x xl xu nMax (a ++ b1) b2 t hab
  exact ⟨p.1, (nearest_of_good hg).1, not_lt.mp (hg.2 s (by simp [h1]))⟩

/-- C31. Without limit, the middle of two data points is a start unless some data point or some start is
closer to it than these two data points. -/
theorem C31_exhaustive (x : Design n d) (xl xu : Fin d → ℝ) (i j : Fin n) (hij : i ≠ j) (m : Fin d → ℝ)
    (hm : Spec.IsMiddle (x i) (x j) m) :
    m ∈ startPoints x xl xu none ∨
      (∃ k, Spec.scaledDist xl xu (x k) m < Spec.scaledDist xl xu (x i) m) ∨
      ∃ s ∈ startPoints x xl xu none, Spec.scaledDist xl xu s m < Spec.scaledDist xl xu (x i) m := by
  have hpk := foldl_picked x (fun j => xu j - xl j) (sortedPairs x fun j => xu j - xl j)
  rw [← startLoop_none] at hpk
  have key : ∀ i j : Fin n, j < i → middle (x i) (x j) ∈ startPoints x xl xu none ∨
      (∃ k, Spec.scaledDist xl xu (x k) (middle (x i) (x j)) < Spec.scaledDist xl xu (x i) (middle (x i) (x j))) ∨
      ∃ s ∈ startPoints x xl xu none, Spec.scaledDist xl xu s (middle (x i) (x j)) <
        Spec.scaledDist xl xu (x i) (middle (x i) (x j)) := by
    intro i j h
    rcases hpk.all (i, j) ((mem_sortedPairs _ _ _).mpr h) with h | h
    · exact Or.inl h
    · right
      simp only [isGood, not_and_or, not_forall, not_not] at h
      rcases h with ⟨k, _, _, h⟩ | ⟨s, hs, h⟩
      · exact Or.inl ⟨k, h⟩
      · exact Or.inr ⟨s, hs, h⟩
  rw [isMiddle_eq hm]
  rcases lt_or_gt_of_ne hij with h | h
  · have := key j i h
    rw [middle_comm]
    have e : Spec.scaledDist xl xu (x i) (middle (x j) (x i)) = Spec.scaledDist xl xu (x j) (middle (x j) (x i)) := by
      rw [← scaledDist_eq, ← scaledDist_eq, scaledDist_middle_right]
    rw [e]; exact this
  · exact key i j h

/-- C31. With at least two data points there is at least one start, the first being the middle of two data
points with the smallest distance. -/
theorem C31_first_start (x : Design n d) (xl xu : Fin d → ℝ) (hn : 2 ≤ n) (nMax : Option ℕ) :
    ∃ s, (startPoints x xl xu nMax).head? = some s ∧ ∃ i j, i ≠ j ∧ Spec.IsMiddle (x i) (x j) s ∧
      ∀ k l, k ≠ l → Spec.scaledDist xl xu (x i) (x j) ≤ Spec.scaledDist xl xu (x k) (x l) := by
  cases hp : sortedPairs x fun j => xu j - xl j with
  | nil =>
    have h1 := (mem_sortedPairs x (fun j => xu j - xl j) (⟨1, by omega⟩, ⟨0, by omega⟩)).mpr
      (by simp)
    rw [hp] at h1; simp at h1
  | cons p ps =>
    have hg := first_good x _ p ps hp
    have hnone : (startPoints x xl xu none).head? = some (middle (x p.1) (x p.2)) := by
      simp only [startPoints]
      rw [startLoop_none, hp, List.foldl_cons]
      obtain ⟨t, ht⟩ := foldl_prefix x (fun j => xu j - xl j) ps (startStep x (fun j => xu j - xl j) [] p)
      rw [← ht, startStep, if_pos hg]; rfl
    refine ⟨middle (x p.1) (x p.2), ?_, p.1, p.2, ?_, middle_isMiddle _ _, ?_⟩
    · cases nMax with
      | none => exact hnone
      | some m =>
        rcases Nat.eq_zero_or_pos m with rfl | hm
        · rw [startPoints_some_zero, List.head?_take]; simpa using hnone
        · rw [C31_limit_keeps_first x xl xu m hm, List.head?_take, if_neg (by omega)]; exact hnone
    · exact (ne_of_lt ((mem_sortedPairs x (fun j => xu j - xl j) p).mp (by rw [hp]; simp))).symm
    · have hs := sortedPairs_pairwise x fun j => xu j - xl j
      have hmem : ∀ q : Fin n × Fin n, q.2 < q.1 →
          Spec.scaledDist xl xu (x p.1) (x p.2) ≤ Spec.scaledDist xl xu (x q.1) (x q.2) := by
        intro q hq
        have hin := (mem_sortedPairs x (fun j => xu j - xl j) q).mpr hq
        rw [hp] at hs hin
        rcases List.mem_cons.mp hin with rfl | hin
        · exact le_rfl
        · exact List.rel_of_pairwise_cons hs hin
      intro k l hkl
      rcases lt_or_gt_of_ne hkl with h | h
      · have := hmem (l, k) h
        rw [← scaledDist_eq xl xu (x l), scaledDist_comm] at this
        exact this
      · exact hmem (k, l) h

/-- Case: two points in dimension 1, the start is their middle. -/
example : startPoints (fun (i : Fin 2) (_ : Fin 1) => (i : ℝ)) (fun _ => 0) (fun _ => 1) (some 3) = [fun _ => 1 / 2] := by
  rw [C31_limit_keeps_first _ _ _ _ (by norm_num)]
  simp only [startPoints]
  rw [startLoop_none]
  have hp : sortedPairs (fun (i : Fin 2) (_ : Fin 1) => (i : ℝ)) (fun _ => (1 : ℝ) - 0) = [(1, 0)] := by
    have : startPairs 2 = [(1, 0)] := by decide
    rw [sortedPairs, this, List.mergeSort_singleton]
  rw [hp, List.foldl_cons, List.foldl_nil, startStep, if_pos (first_good _ _ _ _ hp)]
  simp only [List.nil_append, List.take_succ_cons, List.take_nil]
  congr 1
  funext j
  simp [middle]

/-! ## Multistart -/

/-- C68. The multistart of the global infill optimization gives exactly the requested number of starts (at least
one), all within the bounds, whatever the data points (within the bounds) and the random numbers. -/
theorem C68_multistart (x : Design n d) (xl xu : Fin d → ℝ) (hl : ∀ j, xl j ≤ xu j) (hb : Spec.InBounds xl xu x)
    (nStart : ℕ) (hn : 1 ≤ nStart) (lhs : (m : ℕ) → Draw m d × List (Draw m d))
    (hu : ∀ m, UniformCall (.maximin (lhs m).1 (lhs m).2)) :
    ∃ starts, multistart x xl xu nStart lhs = .ok starts ∧ starts.length = nStart ∧
      (∀ s ∈ starts, ∀ j, xl j ≤ s j ∧ s j ≤ xu j) ∧
      startPoints x xl xu (some nStart) <+: starts := by
  have hc := C31_count x xl xu nStart
  rw [max_eq_left hn] at hc
  unfold multistart
  simp only
  split_ifs with h
  · exact ⟨_, rfl, by omega, C31_in_bounds x xl xu hb _, List.prefix_rfl⟩
  · set missing := nStart - (startPoints x xl xu (some nStart)).length with hmi
    obtain ⟨z, hz⟩ := C02_returns_partial (ns := max missing 3) (nx := d) (le_trans (by norm_num) (le_max_right _ _))
      (.maximin (lhs (max missing 3)).1 (lhs (max missing 3)).2) trivial
    refine ⟨_, by rw [hz]; rfl, ?_, ?_, List.prefix_append _ _⟩
    · rw [List.length_append, List.length_take, List.length_ofFn, min_eq_left (le_max_left _ _)]
      omega
    · intro s hs
      rcases List.mem_append.mp hs with hs | hs
      · exact C31_in_bounds x xl xu hb _ s hs
      · obtain ⟨i, rfl⟩ := List.mem_ofFn' .. |>.mp (List.mem_of_mem_take hs)
        intro j
        exact C01_lhs_in_bounds xl xu hl _ (hu _) z hz i j

/-- Case: hypotheses of `C68_multistart` are met by draws equal to 1/2 without permutation. -/
example : ∃ starts, multistart (fun (i : Fin 2) (_ : Fin 1) => (i : ℝ)) (fun _ => 0) (fun _ => 1) 5
    (fun _ => (⟨fun _ _ => 1 / 2, fun _ => 1⟩, [])) = .ok starts ∧ starts.length = 5 := by
  obtain ⟨starts, h1, h2, _⟩ := C68_multistart (fun (i : Fin 2) (_ : Fin 1) => (i : ℝ)) (fun _ => 0) (fun _ => 1)
    (fun _ => zero_le_one) (fun i j => by fin_cases i <;> simp) 5 (by norm_num)
    (fun _ => (⟨fun _ _ => 1 / 2, fun _ => 1⟩, [])) (fun m => by
      intro e he i j; simp only [List.mem_singleton] at he; subst he; norm_num)
  exact ⟨starts, h1, h2⟩

/-! ## TREGO -/

/-- C32. The local box is the part of the design space within the configured distances below and above the best
point; it contains the best point. -/
theorem C32_local_box (lims dist : ℝ × ℝ) (x : ℝ) :
    (∀ v, (localBox lims dist x).1 ≤ v ∧ v ≤ (localBox lims dist x).2 ↔
      (lims.1 ≤ v ∧ v ≤ lims.2) ∧ x - dist.1 ≤ v ∧ v ≤ x + dist.2) ∧
    (lims.1 ≤ x → x ≤ lims.2 → 0 ≤ dist.1 → 0 ≤ dist.2 →
      (localBox lims dist x).1 ≤ x ∧ x ≤ (localBox lims dist x).2) := by
  refine ⟨fun v => ?_, fun h1 h2 h3 h4 => ?_⟩
  · simp only [localBox, max_le_iff, le_min_iff]; tauto
  · simp only [localBox, max_le_iff, le_min_iff]
    refine ⟨⟨h1, by linarith⟩, h2, by linarith⟩

/-- Case: with the default distances the box extends by 1 above the best point and by 1e-6 below it. -/
example : localBox (0, 10) (1e-6, 1) 5 = (5 - 1e-6, 6) := by
  simp only [localBox]; norm_num

/-- Parameters of TREGO for which the size of the region makes sense. -/
structure TregoOk (cfg : TregoCfg) : Prop where
  gamma : 1 < cfg.gamma
  beta_pos : 0 < cfg.beta
  beta : cfg.beta < 1

/-- C32. The trust size grows exactly after an iteration with a decrease of more than the squared size, and
shrinks exactly after a local step without such a decrease; the initial iteration leaves it unchanged. -/
theorem C32_sigma (cfg : TregoCfg) (hc : TregoOk cfg) (s : TregoSt) (hs : 0 < s.sigma) (y yPrev : ℝ) :
    let s' := tregoNext cfg s y yPrev
    (s.sigma < s'.sigma ↔ s.iter ≠ 0 ∧ y < yPrev - s.sigma ^ 2) ∧
    (s'.sigma < s.sigma ↔ s.iter ≠ 0 ∧ ¬ y < yPrev - s.sigma ^ 2 ∧ s.prevStepEgo = false) ∧
    0 < s'.sigma := by
  have h1 : s.sigma < s.sigma * cfg.gamma := by nlinarith [hc.gamma]
  have h2 : s.sigma * cfg.beta < s.sigma := by nlinarith [hc.beta]
  have h3 : 0 < s.sigma * cfg.beta := mul_pos hs hc.beta_pos
  simp only [tregoNext, nextSigma, success, ← sq]
  cases hp : s.prevStepEgo <;> by_cases hi : s.iter = 0 <;> by_cases hy : y < yPrev - s.sigma ^ 2 <;>
    simp [hi, hy, hs, h1, h2, h3, hs.trans h1, hc.gamma.le, hc.beta.le]

/-- C32. Along any run the size stays positive, and is bounded by the powers of the factors. -/
theorem C32_sigma_run (cfg : TregoCfg) (hc : TregoOk cfg) (s0 : TregoSt) (hs : 0 < s0.sigma) (ys : ℕ → ℝ × ℝ)
    (t : ℕ) : s0.sigma * cfg.beta ^ t ≤ (tregoRun cfg s0 ys t).sigma ∧
      (tregoRun cfg s0 ys t).sigma ≤ s0.sigma * cfg.gamma ^ t ∧ 0 < (tregoRun cfg s0 ys t).sigma := by
  have hg := hc.gamma; have hb := hc.beta; have hb0 := hc.beta_pos
  induction t with
  | zero => simp [tregoRun, hs]
  | succ t ih =>
    obtain ⟨h1, h2, h3⟩ := ih
    have hstep : (tregoRun cfg s0 ys (t + 1)).sigma = (tregoRun cfg s0 ys t).sigma * cfg.gamma ∨
        (tregoRun cfg s0 ys (t + 1)).sigma = (tregoRun cfg s0 ys t).sigma * cfg.beta ∨
        (tregoRun cfg s0 ys (t + 1)).sigma = (tregoRun cfg s0 ys t).sigma := by
      simp only [tregoRun, tregoNext, nextSigma]
      split_ifs <;> simp
    have e1 : 0 < cfg.beta ^ t := pow_pos hb0 t
    have e2 : 0 < cfg.gamma ^ t := pow_pos (by linarith) t
    set σ := (tregoRun cfg s0 ys t).sigma with hσ
    have p1 : s0.sigma * cfg.beta ^ (t + 1) ≤ σ * cfg.beta := by rw [pow_succ, ← mul_assoc]; gcongr
    have p2 : σ * cfg.gamma ≤ s0.sigma * cfg.gamma ^ (t + 1) := by rw [pow_succ, ← mul_assoc]; gcongr
    have p3 : σ * cfg.beta ≤ σ := by nlinarith
    have p4 : σ ≤ σ * cfg.gamma := by nlinarith
    rcases hstep with h | h | h <;> rw [h] <;> refine ⟨by linarith, by linarith, ?_⟩ <;> positivity

theorem tregoRun_iter (cfg : TregoCfg) (s0 : TregoSt) (ys : ℕ → ℝ × ℝ) (t : ℕ) :
    (tregoRun cfg s0 ys t).iter = s0.iter + t := by
  induction t with
  | zero => rfl
  | succ t ih => simp only [tregoRun, tregoNext, ih]; omega

theorem tregoNext_ego (cfg : TregoCfg) (s : TregoSt) (y yPrev : ℝ) :
    (tregoNext cfg s y yPrev).prevStepEgo = true ↔ isGlobal cfg s y yPrev := by
  simp [tregoNext]

/-- C32. Among any `1 + n_local_steps` consecutive iterations there is a global step. -/
theorem C32_global_step (cfg : TregoCfg) (s0 : TregoSt) (ys : ℕ → ℝ × ℝ) (t : ℕ) :
    ∃ t', t ≤ t' ∧ t' ≤ t + cfg.nLocal ∧ (tregoRun cfg s0 ys (t' + 1)).prevStepEgo = true := by
  have hpos : 0 < 1 + cfg.nLocal := by omega
  -- the next multiple
  set m := 1 + cfg.nLocal with hm
  set a := s0.iter + t with ha
  refine ⟨t + (m - 1 - (a + (m - 1)) % m), by omega, ?_, ?_⟩
  · omega
  · rw [tregoRun, tregoNext_ego]
    right
    rw [tregoRun_iter]
    have hlt := Nat.mod_lt (a + (m - 1)) hpos
    have e : s0.iter + (t + (m - 1 - (a + (m - 1)) % m)) = m * ((a + (m - 1)) / m) := by
      have := Nat.div_add_mod (a + (m - 1)) m
      omega
    rw [e]
    exact dvd_mul_right _ _

/-- C32. A step is global exactly when its index is a multiple of `1 + n_local_steps` or it follows a successful
global step. -/
theorem C32_phase (cfg : TregoCfg) (s0 : TregoSt) (ys : ℕ → ℝ × ℝ) (t : ℕ) :
    (tregoRun cfg s0 ys (t + 1)).prevStepEgo = true ↔ (1 + cfg.nLocal) ∣ s0.iter + t ∨
      ((tregoRun cfg s0 ys t).prevStepEgo = true ∧
        (ys t).1 < (ys t).2 - (tregoRun cfg s0 ys t).sigma ^ 2) := by
  rw [tregoRun, tregoNext_ego]
  simp only [isGlobal, success, tregoRun_iter, sq]
  tauto

/-- Case: the default parameters, no progress: iterations 0 and 5 are global. -/
example : TregoOk ⟨4, 0.9, 10 / 9⟩ ∧
    (tregoRun ⟨4, 0.9, 10 / 9⟩ ⟨0, 0.1, false⟩ (fun _ => (0, 0)) 1).prevStepEgo = true ∧
    (tregoRun ⟨4, 0.9, 10 / 9⟩ ⟨0, 0.1, false⟩ (fun _ => (0, 0)) 2).prevStepEgo = false ∧
    (tregoRun ⟨4, 0.9, 10 / 9⟩ ⟨0, 0.1, false⟩ (fun _ => (0, 0)) 2).sigma = 0.1 ∧
    (tregoRun ⟨4, 0.9, 10 / 9⟩ ⟨0, 0.1, false⟩ (fun _ => (0, 0)) 3).sigma = 0.1 * 0.9 := by
  refine ⟨⟨by norm_num, by norm_num, by norm_num⟩, ?_, ?_, ?_, ?_⟩ <;>
    norm_num [tregoRun, tregoNext, isGlobal, nextSigma, success]

theorem foldl_pick_mem {α : Type} (l : List (Flt × α)) : ∀ a : Flt × α,
    l.foldl Coego.pick a = a ∨ l.foldl Coego.pick a ∈ l := by
  induction l with
  | nil => intro a; exact Or.inl rfl
  | cons b l ih =>
    intro a
    rw [List.foldl_cons]
    rcases ih (Coego.pick a b) with h | h
    · rw [h]
      unfold Coego.pick
      split_ifs <;> simp
    · exact Or.inr (List.mem_cons_of_mem _ h)

/-- C69 (part). The point proposed by a local step is the best point or the result of the optimizer started in
the local box; it is within the design space if the optimizer honours the bounds it is given. The full claim,
that it is in the local box, fails: see `C69_refuted_outside_local_box`. -/
theorem C69_start_in_local_box_partial (opt : (Fin d → ℝ × ℝ) → (Fin d → ℝ) → Flt × (Fin d → ℝ))
    (lims : Fin d → ℝ × ℝ) (dist : ℝ × ℝ) (best : Fin d → ℝ) (z : Design n d) (hz : Spec.InUnit z)
    (h0 : 0 ≤ dist.1) (h1 : 0 ≤ dist.2) (hb : ∀ j, (lims j).1 ≤ best j ∧ best j ≤ (lims j).2)
    (hopt : ∀ b s, (∀ j, (b j).1 ≤ s j ∧ s j ≤ (b j).2) → ∀ j, (b j).1 ≤ (opt b s).2 j ∧ (opt b s).2 j ≤ (b j).2) :
    let x := (localStep opt lims dist best z).2
    (∀ j, (lims j).1 ≤ x j ∧ x j ≤ (lims j).2) ∧
    (x = best ∨ ∃ start, x = (opt lims start).2 ∧
      ∀ j, (lims j).1 ≤ start j ∧ start j ≤ (lims j).2 ∧ best j - dist.1 ≤ start j ∧ start j ≤ best j + dist.2) := by
  intro x
  have hbox : ∀ j, (localBox (lims j) dist (best j)).1 ≤ (localBox (lims j) dist (best j)).2 := fun j =>
    have h := (C32_local_box (lims j) dist (best j)).2 (hb j).1 (hb j).2 h0 h1
    h.1.trans h.2
  have key : x = best ∨ ∃ start, x = (opt lims start).2 ∧
      ∀ j, (lims j).1 ≤ start j ∧ start j ≤ (lims j).2 ∧ best j - dist.1 ≤ start j ∧ start j ≤ best j + dist.2 := by
    rcases foldl_pick_mem (List.ofFn fun i => opt lims (sample
      (fun j => (localBox (lims j) dist (best j)).1) (fun j => (localBox (lims j) dist (best j)).2) z i))
      (Flt.pinf, best) with h | h
    · left; change (List.foldl Coego.pick (Flt.pinf, best) _).2 = best; rw [h]
    · right
      obtain ⟨i, hi⟩ := List.mem_ofFn' .. |>.mp h
      refine ⟨_, congrArg Prod.snd hi.symm, fun j => ?_⟩
      have hs := sample_inBounds _ _ hbox z hz i j
      have := ((C32_local_box (lims j) dist (best j)).1 _).mp hs
      exact ⟨this.1.1, this.1.2, this.2.1, this.2.2⟩
  refine ⟨?_, key⟩
  rcases key with h | ⟨start, h, hs⟩
  · rw [h]; exact hb
  · rw [h]; exact hopt _ _ fun j => ⟨(hs j).1, (hs j).2.1⟩

/-- C69 fails: the optimizer is given the whole design space, so that the point proposed by the local step can be
outside of the local box although the optimizer honours its bounds. -/
theorem C69_refuted_outside_local_box :
    ∃ (opt : (Fin 1 → ℝ × ℝ) → (Fin 1 → ℝ) → Flt × (Fin 1 → ℝ)) (lims : Fin 1 → ℝ × ℝ) (dist : ℝ × ℝ)
      (best : Fin 1 → ℝ) (z : Design 1 1),
      Spec.InUnit z ∧ 0 ≤ dist.1 ∧ 0 ≤ dist.2 ∧ (∀ j, (lims j).1 ≤ best j ∧ best j ≤ (lims j).2) ∧
      (∀ b s, (∀ j, (b j).1 ≤ s j ∧ s j ≤ (b j).2) → ∀ j, (b j).1 ≤ (opt b s).2 j ∧ (opt b s).2 j ≤ (b j).2) ∧
      ¬ (localStep opt lims dist best z).2 0 ≤ best 0 + dist.2 := by
  refine ⟨fun b _ => (.fin 0, fun j => (b j).2), fun _ => (0, 10), (1e-6, 1), fun _ => 5, fun _ _ => 0,
    fun _ _ => by simp, by norm_num, by norm_num, fun _ => by norm_num, ?_, ?_⟩
  · intro b s h j; exact ⟨(h j).1.trans (h j).2, le_rfl⟩
  · simp [localStep, Coego.pick, Flt.lt, Flt.cmp]
    norm_num

/-! ## Schedules -/

/-- C33. Reclustering is decided exactly when clustering is automatic, the number of points is a positive
multiple of 10 and it has grown (it never decreases). -/
theorem C33_recluster (c : NbClusters) (added prev : ℕ) (h : prev ≤ added) :
    ∃ b, haveToRecluster c added prev = .ok b ∧
      (b = true ↔ (∃ m, c = .auto m) ∧ (∃ k, 1 ≤ k ∧ added = 10 * k) ∧ prev < added) := by
  have hauto : c.isAuto = true ↔ ∃ m, c = .auto m := by cases c <;> simp [NbClusters.isAuto]
  unfold haveToRecluster
  split_ifs with h1 h2
  · omega
  · refine ⟨_, rfl, ?_⟩
    rw [decide_eq_true_iff, ← hauto]
    constructor
    · intro h3; exact ⟨h1.1, ⟨added / 10, by omega, by omega⟩, by omega⟩
    · rintro ⟨_, _, h3⟩; omega
  · refine ⟨_, rfl, ?_⟩
    simp only [Bool.false_eq_true, false_iff, ← hauto]
    rintro ⟨h3, ⟨k, hk, rfl⟩, _⟩
    exact h1 ⟨h3, by omega, by omega⟩

/-- C33. If the number of points could decrease the decision would panic (subtraction of unsigned integers), exactly
when it is reached. -/
theorem C33_recluster_decrease (c : NbClusters) (added prev : ℕ) (e : Panic) :
    haveToRecluster c added prev = .error e ↔
      e = .other ∧ (∃ m, c = .auto m) ∧ (∃ k, 1 ≤ k ∧ added = 10 * k) ∧ added < prev := by
  have hauto : c.isAuto = true ↔ ∃ m, c = .auto m := by cases c <;> simp [NbClusters.isAuto]
  unfold haveToRecluster
  rw [← hauto]
  split_ifs with h1 h2
  · simp only [Except.error.injEq]
    exact ⟨fun h => ⟨h.symm, h1.1, ⟨added / 10, by omega, by omega⟩, h2⟩, fun h => h.1.symm⟩
  · simp only [false_iff]
    rintro ⟨_, _, _, h⟩; exact h2 h
  · simp only [false_iff]
    rintro ⟨_, h3, ⟨k, hk, rfl⟩, _⟩
    exact h1 ⟨h3, by omega, by omega⟩

example : haveToRecluster (.auto none) 20 30 = .error .other := by decide

example : haveToRecluster (.auto none) 20 17 = .ok true ∧ haveToRecluster (.auto none) 21 17 = .ok false ∧
    haveToRecluster (.auto none) 20 20 = .ok false ∧ haveToRecluster (.fixed 3) 20 17 = .ok false := by decide

/-- C33. Along `N` iterations of `q` points, the hyperparameters are optimized for the points whose index is a
multiple of `q_optmod`, and only by the first member of the portfolio. -/
theorem C33_theta_schedule (q m N j : ℕ) :
    ((List.range N).flatMap fun iter => (List.range q).map fun i => optimizeTheta q m iter i j) =
      (List.range (N * q)).map fun k => decide (m ∣ k ∧ j = 0) := by
  have hm : ∀ a, isMultipleOf a m = decide (m ∣ a) := by
    intro a
    unfold isMultipleOf
    rw [Bool.eq_iff_iff]
    split_ifs with h0
    · subst h0; simp
    · simp [Nat.dvd_iff_mod_eq_zero]
  induction N with
  | zero => simp
  | succ N ih =>
    rw [List.range_succ, List.flatMap_append, ih, add_mul, one_mul, List.range_add, List.map_append]
    simp only [List.flatMap_cons, List.flatMap_nil, List.append_nil, List.map_map]
    congr 1
    refine List.map_congr_left fun i _ => ?_
    simp only [optimizeTheta, hm, Function.comp]
    by_cases hj : j = 0 <;> simp [hj]

example : optimizeTheta 3 2 1 0 0 = false ∧ optimizeTheta 3 2 1 1 0 = true := by decide

theorem recluster_hit (m : Option ℕ) (M : ℕ) (hM : 10 ∣ M) : ∀ (ks : List ℕ) (added prev : ℕ), prev ≤ added →
    (∀ k ∈ ks, k ≤ 1) → added < M → M ≤ added + ks.dropLast.sum →
    ∃ bs, reclusterings (.auto m) added prev ks = .ok bs ∧ true ∈ bs := by
  have htot : ∀ (ks : List ℕ) (added prev : ℕ), prev ≤ added →
      ∃ bs, reclusterings (.auto m) added prev ks = .ok bs := by
    intro ks
    induction ks with
    | nil => intro a p _; exact ⟨[], rfl⟩
    | cons k ks ih =>
      intro a p h
      obtain ⟨b, hb, _⟩ := C33_recluster (.auto m) a p h
      obtain ⟨bs, hbs⟩ := ih (a + k) a (by omega)
      exact ⟨b :: bs, by simp only [reclusterings, hb, hbs, bind, Except.bind]⟩
  intro ks
  induction ks with
  | nil => intro a p _ _ h1 h2; simp at h2; omega
  | cons k ks ih =>
    intro a p hp hk h1 h2
    obtain ⟨b, hb, _⟩ := C33_recluster (.auto m) a p hp
    cases ks with
    | nil => simp at h2; omega
    | cons k' ks =>
      have hk1 := hk k (by simp)
      rw [List.dropLast_cons_cons, List.sum_cons] at h2
      by_cases hc : a + k < M
      · obtain ⟨bs, hbs, ht⟩ := ih (a + k) a (by omega) (fun q hq => hk q (List.mem_cons_of_mem _ hq)) hc (by omega)
        exact ⟨b :: bs, by simp only [reclusterings, hb, bind, Except.bind] at hbs ⊢; rw [hbs], by simp [ht]⟩
      · obtain ⟨b', hb', hiff⟩ := C33_recluster (.auto m) (a + k) a (by omega)
        obtain ⟨bs, hbs⟩ := htot ks (a + k + k') (a + k) (by omega)
        have : b' = true := hiff.mpr ⟨⟨m, rfl⟩, by obtain ⟨c, hc'⟩ := hM; exact ⟨c, by omega, by omega⟩, by omega⟩
        exact ⟨b :: b' :: bs, by simp only [reclusterings, hb, hb', hbs, bind, Except.bind], by simp [this]⟩

/-- C70 (part). If clustering is automatic and every iteration adds at most one point, then over iterations
adding ten points or more (not counting the last one) a reclustering is decided. The full claim, for any number
of points per iteration, fails: see `C70_refuted_batches`. -/
theorem C70_single_points_partial (m : Option ℕ) (added prev : ℕ) (hp : prev ≤ added) (ks : List ℕ)
    (hk : ∀ k ∈ ks, k ≤ 1) (htot : 10 ≤ ks.dropLast.sum) :
    ∃ bs, reclusterings (.auto m) added prev ks = .ok bs ∧ true ∈ bs :=
  recluster_hit m (10 * (added / 10 + 1)) (dvd_mul_right _ _) ks added prev hp hk (by omega) (by omega)

example : reclusterings (.auto none) 5 0 [1, 0, 1, 1, 1, 1, 1, 1] =
    .ok [false, false, false, false, false, false, true, false] := by decide

/-- C70 fails for batches: starting from 5 points (the default number for at most 4 variables) and adding two
points per iteration, automatic reclustering never happens. -/
theorem C70_refuted_batches (m : Option ℕ) (N : ℕ) :
    reclusterings (.auto m) 5 0 (List.replicate N 2) = .ok (List.replicate N false) := by
  have key : ∀ N added prev, added % 2 = 1 →
      reclusterings (.auto m) added prev (List.replicate N 2) = .ok (List.replicate N false) := by
    intro N
    induction N with
    | zero => intros; rfl
    | succ N ih =>
      intro a p h
      have h1 : haveToRecluster (.auto m) a p = .ok false := by
        unfold haveToRecluster; rw [if_neg (by omega)]
      simp only [List.replicate_succ, reclusterings, h1, ih (a + 2) a (by omega), bind, Except.bind]
  exact key N 5 0 rfl

/-! ## Portfolio -/

/-- C34. Whatever the result of the clustering and the order of the hash map, the points selected from a non-empty
portfolio are points of members of the portfolio: the first member of each cluster if there are several clusters,
the first member of the portfolio otherwise. -/
theorem C34_portfolio {α : Type} (rows : List α) (hr : rows ≠ []) (labels : List (Option ℕ))
    (hl : labels.length = rows.length) (order : List ℕ) (hnd : order.Nodup)
    (hord : ∀ l, l ∈ order ↔ some l ∈ labels) :
    ∃ sel, selectFromPortfolio rows labels order = .ok sel ∧ (∀ p ∈ sel, p ∈ rows) ∧
      sel.length = max 1 (labels.filterMap id).toFinset.card ∧
      (order.length ≤ 1 → sel = [rows.head hr]) ∧
      (1 < order.length → List.Forall₂ (fun l p => ∃ i : ℕ, rows[i]? = some p ∧ labels[i]? = some (some l) ∧
        ∀ k, k < i → labels[k]? ≠ some (some l)) order sel) := by
  cases rows with
  | nil => exact absurd rfl hr
  | cons r rs =>
    have hlen : (clusterIndices labels order).length = order.length := by simp [clusterIndices]
    have hcard : (labels.filterMap id).toFinset.card = order.length := by
      rw [← List.toFinset_card_of_nodup hnd]
      congr 1
      ext l; simp [hord]
    rw [hcard]
    unfold selectFromPortfolio
    simp only [hlen]
    split_ifs with h
    · have key : ∀ os : List ℕ, (∀ l ∈ os, some l ∈ labels) → ∃ sel,
          (clusterIndices labels os).mapM (fun i => match (r :: rs)[i]? with
            | some a => (Except.ok a : Except Panic α)
            | none => .error .outOfBounds) = .ok sel ∧
          List.Forall₂ (fun l p => ∃ i : ℕ, (r :: rs)[i]? = some p ∧ labels[i]? = some (some l) ∧
            ∀ k, k < i → labels[k]? ≠ some (some l)) os sel := by
        intro os
        induction os with
        | nil => intro _; exact ⟨[], rfl, .nil⟩
        | cons l os ih =>
          intro hos
          obtain ⟨sel, h1, h2⟩ := ih fun l' hl' => hos l' (List.mem_cons_of_mem _ hl')
          have hmem := hos l (by simp)
          set i := labels.findIdx (· == some l) with hi
          have hlt : i < labels.length := List.findIdx_lt_length_of_exists ⟨some l, hmem, by simp⟩
          have hat : labels[i]? = some (some l) := by
            rw [List.getElem?_eq_getElem hlt]
            have := List.findIdx_getElem (xs := labels) (p := (· == some l)) (w := hlt)
            simpa using this
          have hbefore : ∀ k, k < i → labels[k]? ≠ some (some l) := by
            intro k hk he
            have := List.not_of_lt_findIdx (xs := labels) (p := (· == some l)) hk
            rw [List.getElem?_eq_getElem (by omega)] at he
            simp only [Option.some.injEq] at he
            simp [he] at this
          have hget : (r :: rs)[i]? = some ((r :: rs)[i]'(by omega)) := List.getElem?_eq_getElem _
          refine ⟨(r :: rs)[i]'(by omega) :: sel, ?_, .cons ⟨i, hget, hat, hbefore⟩ h2⟩
          simp only [clusterIndices, List.map_cons, List.mapM_cons]
          rw [← hi, hget]
          simp only [clusterIndices] at h1
          rw [h1]; rfl
      obtain ⟨sel, h1, h2⟩ := key order fun l hl' => (hord l).mp hl'
      refine ⟨sel, h1, ?_, by rw [← h2.length_eq]; omega, fun h' => absurd h' (by omega), fun _ => h2⟩
      · intro p hp
        obtain ⟨k, hk, rfl⟩ := List.getElem_of_mem hp
        have := (List.forall₂_iff_get.mp h2).2 k (by rw [h2.length_eq]; exact hk) hk
        obtain ⟨i, hi, _⟩ := this
        exact List.mem_of_getElem? hi
    · exact ⟨[r], rfl, by simp, by simp; omega, fun _ => rfl, fun h' => absurd h' (by omega)⟩

example : selectFromPortfolio ["a", "b", "c", "d"] [some 0, none, some 1, some 0] [1, 0] = .ok ["c", "a"] ∧
    selectFromPortfolio ["a", "b"] [none, some 0] [0] = .ok ["a"] := by decide

/-! ## Virtual points -/

/-- C35 (part). The virtual objective of the Kriging believer strategies is the prediction, or three standard
deviations below or above; virtual constraints are the predictions. -/
theorem C35_believers_partial (y : List (List ℝ)) (pred var : ℝ) (cpred : List ℝ) :
    ∃ lb ub, virtualPoint .kb y pred var cpred = .ok (pred :: cpred) ∧
      virtualPoint .kblb y pred var cpred = .ok (lb :: cpred) ∧
      virtualPoint .kbub y pred var cpred = .ok (ub :: cpred) ∧
      lb = pred - 3 * Real.sqrt var ∧ ub = pred + 3 * Real.sqrt var ∧ lb ≤ pred ∧ pred ≤ ub := by
  have h := Real.sqrt_nonneg var
  refine ⟨pred + -3 * Real.sqrt var, pred + 3 * Real.sqrt var, ?_, rfl, rfl, by ring, rfl, by linarith, by linarith⟩
  simp [virtualPoint]

/-- C35 (part). With the constant liar strategy, the virtual outputs are the objective and the constraints stored
for the first point with the smallest stored objective (as many constraints as there are in the configuration). The
full claim, that virtual constraints are predictions, fails: see `C35_refuted_constant_liar`. -/
theorem C35_constant_liar_partial (y : List (ℝ × List ℝ)) (hy : y ≠ []) (pred var : ℝ) (cpred : List ℝ)
    (hc : ∀ r ∈ y, cpred.length ≤ r.2.length) :
    ∃ r ∈ y, virtualPoint .clmin (y.map fun r => r.1 :: r.2) pred var cpred = .ok (r.1 :: r.2.take cpred.length) ∧
      ∀ r' ∈ y, r.1 ≤ r'.1 := by
  have hm : (y.map fun r => r.1 :: r.2).mapM objective = .ok (y.map Prod.fst) := by
    clear hy hc
    induction y with
    | nil => rfl
    | cons r y ih => simp only [List.map_cons, List.mapM_cons, ih]; rfl
  obtain ⟨k, hk, ha, hmin, _⟩ := MixInt.argmin_spec (y.map Prod.fst) (by simpa using hy)
  have hk' : k < y.length := by simpa using hk
  refine ⟨y[k], List.getElem_mem _, ?_, ?_⟩
  · have hlen := hc y[k] (List.getElem_mem _)
    simp only [virtualPoint, hm, ha, bind, Except.bind, List.getElem?_map, List.getElem?_eq_getElem hk',
      Option.map_some, List.length_cons, Nat.add_le_add_iff_right, hlen, if_true, List.take_succ_cons]
  · intro r' hr'
    have := hmin r'.1 (List.mem_map_of_mem hr')
    simpa using this

/-- C35 fails for the constant liar strategy: the virtual constraint is the stored one, not the prediction. -/
theorem C35_refuted_constant_liar :
    virtualPoint .clmin [[1, 5]] 0 0 [7] = .ok [1, 5] ∧ ([1, 5] : List ℝ) ≠ [1, 7] := by
  refine ⟨?_, by norm_num⟩
  obtain ⟨r, hr, h, _⟩ := C35_constant_liar_partial [((1 : ℝ), [(5 : ℝ)])] (by simp) 0 0 [7] (by simp)
  simp only [List.mem_singleton] at hr
  subst hr
  exact h

end Verif.Props
