import Verif.Model.Means
import Verif.Lemmas.Run
import Mathlib.Analysis.Calculus.Deriv.Mul
import Mathlib.Analysis.Calculus.Deriv.Add
import Mathlib.Algebra.BigOperators.Intervals
import Mathlib.Data.List.OfFn

/-!
# C42: regression models
-/

set_option autoImplicit false

namespace Verif.Props

open Verif.Means

variable {n : ℕ}

/-- Number of basis functions announced for each mean. -/
def basisSize : Mean → ℕ → ℕ
  | .constant, _ => 1
  | .linear, n => 1 + n
  | .quadratic, n => 1 + n + n * (n + 1) / 2

/-- `quadValue` after the first `i` iterations. -/
def quadPrefix (i : ℕ) (x : Fin n → ℝ) : List ℝ :=
  ((List.finRange n).take i).foldl (fun res k => res ++ quadPart x k) ([1] ++ List.ofFn x)

theorem quadPrefix_succ (x : Fin n → ℝ) (i : Fin n) :
    quadPrefix (i + 1) x = quadPrefix i x ++ quadPart x i := by
  unfold quadPrefix
  rw [List.take_add_one, List.foldl_append]
  simp

theorem quadPrefix_all (x : Fin n → ℝ) : quadPrefix n x = quadValue x := by
  unfold quadPrefix quadValue
  rw [List.take_of_length_le (by simp)]

theorem length_quadPart (x : Fin n → ℝ) (i : Fin n) : (quadPart x i).length = n - i := by
  simp [quadPart]

theorem length_quadPrefix (x : Fin n → ℝ) (i : ℕ) (hi : i ≤ n) :
    (quadPrefix i x).length = 1 + n + ∑ k ∈ Finset.range i, (n - k) := by
  induction i with
  | zero => simp [quadPrefix]; omega
  | succ i ih =>
    have := quadPrefix_succ x ⟨i, hi⟩
    simp only at this
    rw [this, List.length_append, ih (by omega), length_quadPart, Finset.sum_range_succ]
    simp only
    omega

theorem sum_countdown (n : ℕ) : ∑ k ∈ Finset.range n, (n - k) = n * (n + 1) / 2 := by
  have h := Finset.sum_range_reflect (fun k => k + 1) n
  have h2 : ∑ j ∈ Finset.range n, (n - 1 - j + 1) = ∑ k ∈ Finset.range n, (n - k) :=
    Finset.sum_congr rfl fun k hk => by have := Finset.mem_range.1 hk; omega
  rw [h2] at h
  rw [h]
  have h3 := Finset.sum_range_id_mul_two (n + 1)
  rw [Finset.sum_range_succ'] at h3
  simp only [add_zero] at h3
  have : n * (n + 1) = (∑ k ∈ Finset.range n, (k + 1)) * 2 := by
    rw [h3]; simp; ring
  omega

theorem hasDerivAt_update (x : Fin n → ℝ) (c j : Fin n) :
    HasDerivAt (fun t => Function.update x j t c) (if c = j then 1 else 0) (x j) := by
  by_cases hc : c = j
  · subst hc
    simp only [Function.update_self, if_true]
    exact hasDerivAt_id _
  · simp only [Function.update_of_ne hc, hc, if_false]
    exact hasDerivAt_const _ _

/-- What the state must satisfy after `i` iterations. -/
structure QInv (x : Fin n → ℝ) (i : ℕ) (s : QState n) : Prop where
  o : s.o = (quadPrefix i x).length
  p : s.p = n - i
  zero : ∀ r c, s.o ≤ r → s.jac r c = 0
  deriv : ∀ r j, r < s.o →
    HasDerivAt (fun t => (quadPrefix i (Function.update x j t)).getD r 0) (s.jac r j) (x j)

theorem base_deriv (x : Fin n → ℝ) (r : ℕ) (hr : r < 1 + n) (j : Fin n) :
    HasDerivAt (fun t => ([1] ++ List.ofFn (Function.update x j t)).getD r 0)
      (if 1 ≤ r then eye (r - 1) j else 0) (x j) := by
  cases r with
  | zero => simp; exact hasDerivAt_const _ _
  | succ r =>
    have hr' : r < n := by omega
    have : (fun t => ([1] ++ List.ofFn (Function.update x j t)).getD (r + 1) 0) =
        fun t => Function.update x j t ⟨r, hr'⟩ := by
      funext t
      simp [List.getD, hr']
    rw [this]
    refine (hasDerivAt_update x ⟨r, hr'⟩ j).congr_deriv ?_
    simp [eye, Fin.ext_iff]

theorem qinv_init (x : Fin n → ℝ) :
    QInv x 0 ⟨fun r c => if 1 ≤ r ∧ r < n + 1 then eye (r - 1) c else 0, 1 + n, n⟩ where
  o := by simp [quadPrefix]; omega
  p := by simp
  zero := by
    intro r c hr
    have : ¬ (1 ≤ r ∧ r < n + 1) := by simp only at hr; omega
    simp only [this, if_false]
  deriv := by
    intro r j hr
    simp only at hr
    have : ∀ t, quadPrefix 0 (Function.update x j t) = [1] ++ List.ofFn (Function.update x j t) := by
      intro t; simp [quadPrefix]
    simp only [this]
    refine (base_deriv x r hr j).congr_deriv ?_
    have : (1 ≤ r ∧ r < n + 1) ↔ 1 ≤ r := by omega
    simp only [this]

theorem getD_quadPart (x : Fin n → ℝ) (i : Fin n) (a : ℕ) (ha : i.val + a < n) :
    (quadPart x i).getD a 0 = x ⟨i + a, ha⟩ * x i := by
  have h2 : a < n - i.val := by omega
  simp [quadPart, List.getD, h2]

theorem partI_deriv (x : Fin n → ℝ) (i j : Fin n) (a : ℕ) (ha : i.val + a < n) :
    HasDerivAt (fun t => (quadPart (Function.update x j t) i).getD a 0)
      (if i ≤ j then partI x i a (j - i) else 0) (x j) := by
  have h1 : (fun t => (quadPart (Function.update x j t) i).getD a 0) =
      fun t => Function.update x j t ⟨i + a, ha⟩ * Function.update x j t i := by
    funext t; exact getD_quadPart _ _ _ ha
  rw [h1]
  refine ((hasDerivAt_update x ⟨i + a, ha⟩ j).mul (hasDerivAt_update x i j)).congr_deriv ?_
  simp only [Function.update_eq_self, partI, ha, dif_pos, eye]
  have e1 : (⟨i.val + a, ha⟩ : Fin n) = j ↔ i.val + a = j.val := by rw [Fin.ext_iff]
  have e2 : i = j ↔ i.val = j.val := Fin.ext_iff
  have e3 : i ≤ j ↔ i.val ≤ j.val := Iff.rfl
  simp only [e1, e2, e3]
  rcases lt_or_ge j.val i.val with hlt | hge
  · have : ¬ i.val + a = j.val := by omega
    have : ¬ i.val = j.val := by omega
    have : ¬ i.val ≤ j.val := by omega
    simp [*]
  · by_cases e4 : i.val = j.val
    · have : j.val - i.val = 0 := by omega
      by_cases e5 : a = 0
      · subst e5; simp [e4]; ring
      · have : ¬ j.val + a = j.val := by omega
        simp [e4, e5]
    · have h6 : j.val - i.val ≠ 0 := by omega
      by_cases e5 : i.val + a = j.val
      · have : a = j.val - i.val := by omega
        simp [e4, hge, h6, this]
      · have : a ≠ j.val - i.val := by omega
        simp [e4, e5, hge, h6, this]

theorem qstep_spec (x : Fin n → ℝ) (i : Fin n) (s : QState n) (hs : QInv x i s) :
    ∃ s', qstep x s i = .ok s' ∧ QInv x (i + 1) s' := by
  have hi := i.2
  have hlen := length_quadPrefix x i hi.le
  have hlen' := length_quadPrefix x (i + 1) hi
  have hsum : ∑ k ∈ Finset.range (i + 1), (n - k) ≤ ∑ k ∈ Finset.range n, (n - k) :=
    Finset.sum_le_sum_of_subset (Finset.range_mono hi)
  rw [sum_countdown] at hsum
  have hsum' := Finset.sum_range_succ (fun k => n - k) i.val
  have hadd : s.o + n - i = s.o + (n - i) := by omega
  refine ⟨{
      jac := fun r c => if s.o ≤ r ∧ r < s.o + n - i ∧ i ≤ c then partI x i (r - s.o) (c - i) else s.jac r c
      o := s.o + s.p
      p := s.p - 1 }, ?_, ?_⟩
  · rw [qstep, if_neg (by simp [hs.p]), if_neg ?_]
    rw [hadd, hs.o, hlen]
    omega
  · constructor
    · simp only
      rw [hs.o, hs.p, quadPrefix_succ, List.length_append, length_quadPart]
    · simp only [hs.p]; omega
    · intro r c hr
      simp only [hs.p] at hr
      have : ¬ (s.o ≤ r ∧ r < s.o + n - i ∧ i ≤ c) := by omega
      simp only [this, if_false]
      exact hs.zero r c (by omega)
    · intro r j hr
      simp only [hs.p] at hr
      have hq : ∀ t, (quadPrefix (i + 1) (Function.update x j t)).getD r 0 =
          if r < s.o then (quadPrefix i (Function.update x j t)).getD r 0
          else (quadPart (Function.update x j t) i).getD (r - s.o) 0 := by
        intro t
        have hl : (quadPrefix i (Function.update x j t)).length = s.o := by
          rw [hs.o, length_quadPrefix _ _ hi.le, hlen]
        rw [quadPrefix_succ]
        split_ifs with h
        · simp only [List.getD]; rw [List.getElem?_append_left (by omega)]
        · simp only [List.getD]; rw [List.getElem?_append_right (by omega), hl]
      simp only [hq]
      by_cases h : r < s.o
      · have : ¬ (s.o ≤ r ∧ r < s.o + n - i ∧ i ≤ j) := by omega
        simp only [h, if_true, this, if_false]
        exact hs.deriv r j h
      · simp only [h, if_false]
        refine (partI_deriv x i j (r - s.o) (by omega)).congr_deriv ?_
        have : (s.o ≤ r ∧ r < s.o + n - i ∧ i ≤ j) ↔ i ≤ j := by omega
        simp only [this]
        rw [hs.zero r j (by omega)]

theorem qloop_spec (x : Fin n → ℝ) (k : ℕ) (hk : k ≤ n) :
    ∃ s, ((List.finRange n).take k).foldlM (qstep x)
      ⟨fun r c => if 1 ≤ r ∧ r < n + 1 then eye (r - 1) c else 0, 1 + n, n⟩ = .ok s ∧ QInv x k s := by
  induction k with
  | zero => exact ⟨_, rfl, qinv_init x⟩
  | succ k ih =>
    obtain ⟨s, h1, h2⟩ := ih (by omega)
    obtain ⟨s', h3, h4⟩ := qstep_spec x ⟨k, hk⟩ s h2
    refine ⟨s', ?_, h4⟩
    rw [List.take_add_one, List.foldlM_append, h1]
    have : ((List.finRange n)[k]?).toList = [⟨k, hk⟩] := by
      rw [List.getElem?_eq_getElem (by simpa using hk)]
      simp
    rw [this]
    show ([⟨k, hk⟩] : List (Fin n)).foldlM (qstep x) s = _
    simp [h3]

/-- Number of basis functions. -/
theorem C42_basis_size (k : Mean) (x : Fin n → ℝ) : (k.value x).length = basisSize k n := by
  cases k with
  | constant => rfl
  | linear => simp [Mean.value, linValue, basisSize]; omega
  | quadratic =>
    show (quadValue x).length = _
    rw [← quadPrefix_all, length_quadPrefix x n le_rfl, sum_countdown]
    rfl

/-- The Jacobian is returned for every point, it has one row for each basis function, and the entry `(r, j)` is
the derivative of the basis function `r` along the component `j`. -/
theorem C42_jacobian (k : Mean) (x : Fin n → ℝ) :
    ∃ J, k.jacobian x = .ok J ∧ J.nrows = (k.value x).length ∧
      ∀ r < J.nrows, ∀ j, HasDerivAt (fun t => (k.value (Function.update x j t)).getD r 0) (J.at_ r j) (x j) := by
  cases k with
  | constant =>
    refine ⟨constJac x, rfl, rfl, fun r _ j => ?_⟩
    exact hasDerivAt_const (x j) (([1] : List ℝ).getD r 0)
  | linear =>
    refine ⟨linJac x, rfl, by simp [linJac, Mean.value, linValue], fun r hr j => ?_⟩
    exact base_deriv x r (by simp only [linJac] at hr; omega) j
  | quadratic =>
    obtain ⟨s, h1, h2⟩ := qloop_spec x n le_rfl
    rw [List.take_of_length_le (by simp)] at h1
    refine ⟨⟨1 + n + n * (n + 1) / 2, s.jac⟩, ?_, ?_, ?_⟩
    · show quadJac x = _
      unfold quadJac
      rw [h1]
      rfl
    · exact (C42_basis_size .quadratic x).symm
    · intro r hr j
      have h3 := h2.deriv r j (by
        rw [h2.o, quadPrefix_all]
        have := C42_basis_size .quadratic x
        simp only [Mean.value, basisSize] at this
        rw [this]
        exact hr)
      simp only [quadPrefix_all] at h3
      exact h3

/-- The basis functions themselves: constant first, then each component, then the products of pairs. -/
theorem C42_basis (x : Fin n → ℝ) :
    Mean.constant.value x = [1] ∧ Mean.linear.value x = 1 :: List.ofFn x ∧
    Mean.quadratic.value x = 1 :: List.ofFn x ++
      (List.finRange n).flatMap fun i => ((List.finRange n).filter fun j => i ≤ j).map fun j => x i * x j := by
  refine ⟨rfl, rfl, ?_⟩
  have hd : ∀ i : Fin n, (List.finRange n).drop i = (List.finRange n).filter fun j => decide (i ≤ j) := by
    intro i
    conv_rhs => rw [← List.take_append_drop i (List.finRange n), List.filter_append]
    have h1 : ((List.finRange n).take i).filter (fun j => decide (i ≤ j)) = [] := by
      rw [List.filter_eq_nil_iff]
      intro a ha
      obtain ⟨k, hk, he⟩ := List.mem_iff_getElem.1 ha
      rw [List.length_take] at hk
      simp only [List.getElem_take, List.getElem_finRange] at he
      have : a.val = k := by rw [← he]; simp
      simp only [decide_eq_true_eq, not_le, Fin.lt_def]
      omega
    have h2 : ((List.finRange n).drop i).filter (fun j => decide (i ≤ j)) = (List.finRange n).drop i := by
      rw [List.filter_eq_self]
      intro a ha
      obtain ⟨k, hk, he⟩ := List.mem_iff_getElem.1 ha
      simp only [List.getElem_drop, List.getElem_finRange] at he
      have : a.val = i.val + k := by rw [← he]; simp
      simp only [decide_eq_true_eq, Fin.le_def]
      omega
    rw [h1, h2, List.nil_append]
  have hf : ∀ (l : List (Fin n)) (acc : List ℝ), l.foldl (fun res k => res ++ quadPart x k) acc =
      acc ++ l.flatMap fun i => ((List.finRange n).filter fun j => i ≤ j).map fun j => x i * x j := by
    intro l
    induction l with
    | nil => simp
    | cons a l ih =>
      intro acc
      rw [List.foldl_cons, ih, List.flatMap_cons, List.append_assoc]
      congr 2
      rw [quadPart, hd]
      refine List.map_congr_left fun c _ => mul_comm _ _
  show quadValue x = _
  rw [quadValue, hf]
  rfl

example : ∃ J, quadJac (fun i : Fin 2 => (i : ℝ) + 1) = .ok J ∧ J.nrows = 6 := by
  obtain ⟨J, h1, h2, _⟩ := C42_jacobian .quadratic (fun i : Fin 2 => (i : ℝ) + 1)
  exact ⟨J, h1, by rw [h2, C42_basis_size]; rfl⟩

end Verif.Props
