import Verif.Model.FindResult
import Verif.Spec.Best
import Mathlib.Algebra.Order.BigOperators.Group.List
import Mathlib.Tactic.Linarith
import Mathlib.Tactic.NormNum
import Mathlib.Tactic.Push

set_option autoImplicit false

namespace Verif

open Spec FindResult

namespace Flt

theorem cmp_toE {a b : Flt} (ha : a ≠ nan) (hb : b ≠ nan) :
    cmp a b = some (if toE a < toE b then .lt else if toE b < toE a then .gt else .eq) := by
  cases a <;> cases b <;> simp_all [cmp, toE]

theorem lt_iff {a b : Flt} (ha : a ≠ nan) (hb : b ≠ nan) : lt a b = true ↔ toE a < toE b := by
  unfold lt; rw [cmp_toE ha hb]; split_ifs <;> simp_all

theorem gt_iff {a b : Flt} (ha : a ≠ nan) (hb : b ≠ nan) : gt a b = true ↔ toE b < toE a := by
  unfold gt; rw [cmp_toE ha hb]; split_ifs <;> simp_all
  exact le_of_lt ‹_›

theorem feq_iff {a b : Flt} (ha : a ≠ nan) (hb : b ≠ nan) : feq a b = true ↔ toE a = toE b := by
  unfold feq; rw [cmp_toE ha hb]
  rcases lt_trichotomy (toE a) (toE b) with h | h | h
  · simp [h, h.ne]
  · simp [h]
  · simp [h, h.ne', not_lt.mpr h.le]

end Flt

/-- A non-negative float. -/
def NonNeg : Flt → Prop
  | .pinf => True
  | .fin q => 0 ≤ q
  | _ => False

theorem NonNeg.ne_nan {a : Flt} (h : NonNeg a) : a ≠ .nan := by rintro rfl; exact h

theorem NonNeg.toE {a : Flt} (h : NonNeg a) : 0 ≤ toE a := by
  cases a <;> simp_all [NonNeg, Spec.toE]

theorem abs_sub_spec {c : Flt} {t : ℚ} (h : ((t : ℝ) : EReal) < toE c) (hc : c ≠ .nan) :
    NonNeg (Flt.abs (Flt.sub c (.fin t))) ∧
      toE (Flt.abs (Flt.sub c (.fin t))) = max 0 (toE c - ((t : ℝ) : EReal)) := by
  cases c with
  | nan => simp at hc
  | ninf => simp [toE] at h
  | pinf => simp [Flt.abs, Flt.sub, Flt.neg, Flt.add, NonNeg, toE]
  | fin q =>
    simp only [toE, EReal.coe_lt_coe_iff, Rat.cast_lt] at h
    have h' : (0:ℝ) ≤ (q:ℝ) - t := by
      have : (t:ℝ) < q := by exact_mod_cast h
      linarith
    have h2 : (0:ℚ) ≤ q + -t := by linarith
    simp only [Flt.abs, Flt.sub, Flt.neg, Flt.add, NonNeg, toE, abs_nonneg, true_and]
    rw [abs_of_nonneg h2, ← EReal.coe_sub, max_eq_right (by exact_mod_cast h')]
    push_cast
    simp [sub_eq_add_neg]

theorem add_nonNeg {a b : Flt} (ha : NonNeg a) (hb : NonNeg b) :
    NonNeg (Flt.add a b) ∧ toE (Flt.add a b) = toE a + toE b := by
  cases a <;> cases b <;> simp_all [NonNeg, Flt.add, toE]
  linarith

theorem violation_nonneg (tol : List ℚ) (cs : List Flt) : 0 ≤ violation tol cs := by
  apply List.sum_nonneg
  intro x hx
  rw [List.mem_iff_getElem] at hx
  obtain ⟨i, hi, rfl⟩ := hx
  simp

/-- `csumZip` computes the violation. -/
theorem csumZip_spec (tol : List ℚ) (cs : List Flt) (hc : ∀ c ∈ cs, c ≠ .nan) :
    ∀ acc, NonNeg acc → NonNeg (csumZip acc cs (tol.map .fin)) ∧
      toE (csumZip acc cs (tol.map .fin)) = toE acc + violation tol cs := by
  induction cs generalizing tol with
  | nil => intro acc h; simp [csumZip, h, violation]
  | cons c cs ih =>
    intro acc h
    cases tol with
    | nil => simp [csumZip, h, violation]
    | cons t ts =>
      have hcn : c ≠ .nan := hc c (by simp)
      have hcs : ∀ c ∈ cs, c ≠ .nan := fun c hm => hc c (by simp [hm])
      simp only [List.map_cons, csumZip]
      have hv : violation (t :: ts) (c :: cs)
          = max 0 (toE c - ((t : ℝ) : EReal)) + violation ts cs := by
        simp [violation]
      by_cases hgt : Flt.gt c (.fin t) = true
      · rw [if_pos hgt]
        rw [Flt.gt_iff hcn (by simp)] at hgt
        obtain ⟨h1, h2⟩ := abs_sub_spec (by simpa [toE] using hgt) hcn
        obtain ⟨h3, h4⟩ := add_nonNeg h h1
        obtain ⟨h5, h6⟩ := ih ts hcs _ h3
        refine ⟨h5, ?_⟩
        rw [h6, h4, h2, hv, add_assoc]
      · rw [if_neg hgt]
        rw [Flt.gt_iff hcn (by simp)] at hgt
        obtain ⟨h5, h6⟩ := ih ts hcs _ h
        refine ⟨h5, ?_⟩
        rw [h6, hv]
        have : toE c - ((t : ℝ) : EReal) ≤ 0 := by
          rw [EReal.sub_nonpos]
          · simpa [toE] using hgt
        rw [max_eq_left this, zero_add]

theorem cstrSumLoop_eq (acc : Flt) (cs tol : List Flt) (h : cs.length ≤ tol.length) :
    cstrSumLoop acc cs tol = .ok (csumZip acc cs tol) := by
  induction cs generalizing tol acc with
  | nil => simp [cstrSumLoop, csumZip]
  | cons c cs ih =>
    cases tol with
    | nil => simp at h
    | cons t ts =>
      simp only [List.length_cons, Nat.add_le_add_iff_right] at h
      simp only [cstrSumLoop, csumZip]
      split_ifs <;> exact ih _ _ h

/-- violation = 0 iff feasible -/
theorem violation_eq_zero_iff (tol : List ℚ) (cs : List Flt) (hl : cs.length = tol.length) :
    violation tol cs = 0 ↔ Feasible tol cs := by
  induction cs generalizing tol with
  | nil =>
    cases tol with
    | nil => simp [violation, Feasible]
    | cons t ts => simp at hl
  | cons c cs ih =>
    cases tol with
    | nil => simp at hl
    | cons t ts =>
      simp only [List.length_cons, Nat.add_right_cancel_iff] at hl
      have ih' := ih ts hl
      have hv : violation (t :: ts) (c :: cs)
          = max 0 (toE c - ((t : ℝ) : EReal)) + violation ts cs := by
        simp [violation]
      have h0 := violation_nonneg ts cs
      unfold Feasible at ih' ⊢
      rw [List.forall₂_cons, ← ih', hv]
      rw [add_eq_zero_iff_of_nonneg (le_max_left _ _) h0]
      apply and_congr_left
      intro _
      rw [max_eq_left_iff, EReal.sub_nonpos]

theorem zero_ne_nan : Flt.zero ≠ .nan := by simp [Flt.zero]
theorem toE_zero : toE Flt.zero = 0 := by simp [Flt.zero, toE]

/-- Main facts on the sum computed by the code on a comparable constraint row. -/
theorem csum_facts (tol : List ℚ) (cs : List Flt) (hl : cs.length = tol.length)
    (hc : ∀ c ∈ cs, c ≠ .nan) :
    let s := csumZip .zero cs (tol.map .fin)
    s ≠ .nan ∧ toE s = violation tol cs ∧ (Flt.feq s .zero = true ↔ Feasible tol cs) ∧
      (Flt.gt s .zero = true ↔ ¬ Feasible tol cs) := by
  intro s
  have hz : NonNeg Flt.zero := by simp [Flt.zero, NonNeg]
  obtain ⟨h1, h2⟩ := csumZip_spec tol cs hc _ hz
  rw [toE_zero, zero_add] at h2
  refine ⟨h1.ne_nan, h2, ?_, ?_⟩
  · rw [Flt.feq_iff h1.ne_nan zero_ne_nan, toE_zero]
    rw [← violation_eq_zero_iff tol cs hl, ← h2]
  · rw [Flt.gt_iff h1.ne_nan zero_ne_nan, toE_zero, ← violation_eq_zero_iff tol cs hl, ← h2]
    exact ⟨fun h => h.ne', fun h => lt_of_le_of_ne h1.toE (Ne.symm h)⟩

theorem objCmp_spec {a b : Flt} {l l' : List Flt} (ha : a ≠ .nan) (hb : b ≠ .nan) :
    objCmp (a :: l) (b :: l')
      = .ok (if toE a < toE b then .lt else if toE b < toE a then .gt else .eq) := by
  simp [objCmp, Flt.cmp_toE ha hb]

/-- The comparison of the code is the comparison of ranks. Holds as soon as objectives are not NaN. -/
theorem cstrMin_spec (tol : List ℚ) {o1 o2 : Flt} {c1 c2 : List Flt}
    (h1 : o1 ≠ .nan) (h2 : o2 ≠ .nan) (l1 : c1.length = tol.length) (l2 : c2.length = tol.length)
    (n1 : ∀ c ∈ c1, c ≠ .nan) (n2 : ∀ c ∈ c2, c ≠ .nan) :
    ∃ o, cstrMin (o1 :: c1) (o2 :: c2) (tol.map .fin) = .ok o ∧
      (o = .gt ↔ rank tol (o2 :: c2) < rank tol (o1 :: c1)) := by
  unfold cstrMin
  have hrank : ∀ (a : Flt) (cs : List Flt), Feasible tol cs →
      rank tol (a :: cs) = toLex (0, toE a) := by
    intro a cs h; simp [rank, h]
  have hrank' : ∀ (a : Flt) (cs : List Flt), ¬ Feasible tol cs →
      rank tol (a :: cs) = toLex (1, violation tol cs) := by
    intro a cs h; simp [rank, h]
  by_cases hlen : (o1 :: c1).length > 1
  · rw [if_pos hlen]
    obtain ⟨a1, a2, a3, a4⟩ := csum_facts tol c1 l1 n1
    obtain ⟨b1, b2, b3, b4⟩ := csum_facts tol c2 l2 n2
    simp only [cstrSum]
    rw [cstrSumLoop_eq _ _ _ (by simp [l1]), cstrSumLoop_eq _ _ _ (by simp [l2])]
    simp only [bind, Except.bind]
    by_cases f1 : Feasible tol c1 <;> by_cases f2 : Feasible tol c2
    · have g1 : Flt.gt (csumZip .zero c1 (tol.map .fin)) .zero = false := by
        rw [Bool.eq_false_iff]; intro h; exact (a4.1 h) f1
      rw [g1, a3.2 f1, b3.2 f2]
      simp only [Bool.false_and, Bool.and_self, Bool.false_eq_true, if_false, if_true]
      refine ⟨_, objCmp_spec h1 h2, ?_⟩
      rw [hrank _ _ f1, hrank _ _ f2]
      rw [Prod.Lex.toLex_lt_toLex]
      simp only [lt_self_iff_false, true_and, false_or]
      split_ifs with x y <;> simp_all
      exact le_of_lt x
    · have g1 : Flt.gt (csumZip .zero c1 (tol.map .fin)) .zero = false := by
        rw [Bool.eq_false_iff]; intro h; exact (a4.1 h) f1
      have g2 : Flt.feq (csumZip .zero c2 (tol.map .fin)) .zero = false := by
        rw [Bool.eq_false_iff]; intro h; exact f2 (b3.1 h)
      rw [g1, g2, a3.2 f1]
      refine ⟨.lt, by simp, ?_⟩
      rw [hrank _ _ f1, hrank' _ _ f2, Prod.Lex.toLex_lt_toLex]
      simp
    · have g1 : Flt.feq (csumZip .zero c1 (tol.map .fin)) .zero = false := by
        rw [Bool.eq_false_iff]; intro h; exact f1 (a3.1 h)
      have g2 : Flt.gt (csumZip .zero c2 (tol.map .fin)) .zero = false := by
        rw [Bool.eq_false_iff]; intro h; exact (b4.1 h) f2
      rw [g1, g2]
      refine ⟨.gt, by simp, ?_⟩
      rw [hrank' _ _ f1, hrank _ _ f2, Prod.Lex.toLex_lt_toLex]
      simp
    · rw [a4.2 f1, b4.2 f2, Flt.cmp_toE a1 b1]
      simp only [Bool.and_self, if_true]
      refine ⟨_, rfl, ?_⟩
      rw [hrank' _ _ f1, hrank' _ _ f2, Prod.Lex.toLex_lt_toLex, a2, b2]
      simp only [lt_self_iff_false, true_and, false_or]
      split_ifs with x y <;> simp_all
      exact le_of_lt x
  · rw [if_neg hlen]
    have e1 : c1 = [] := by
      cases c1 with
      | nil => rfl
      | cons => simp at hlen
    subst e1
    have e3 : tol = [] := by
      cases tol with
      | nil => rfl
      | cons => simp at l1
    subst e3
    have e2 : c2 = [] := by simpa using l2
    subst e2
    refine ⟨_, objCmp_spec h1 h2, ?_⟩
    have f : Feasible [] [] := List.Forall₂.nil
    rw [hrank _ _ f, hrank _ _ f, Prod.Lex.toLex_lt_toLex]
    simp only [lt_self_iff_false, true_and, false_or]
    split_ifs with x y <;> simp_all
    exact le_of_lt x

theorem cstrMin_valid (tol : List ℚ) {r1 r2 : List Flt} (h1 : Valid tol.length r1)
    (h2 : Valid tol.length r2) :
    ∃ o, cstrMin r1 r2 (tol.map .fin) = .ok o ∧ (o = .gt ↔ rank tol r2 < rank tol r1) := by
  obtain ⟨o1, c1, rfl, l1, a1, _, n1⟩ := h1
  obtain ⟨o2, c2, rfl, l2, a2, _, n2⟩ := h2
  exact cstrMin_spec tol a1 a2 l1 l2 n1 n2

/-- Result of the fold of the incremental search. -/
theorem minFold_spec (tol : List ℚ) (rs : List (List Flt)) :
    ∀ (acc : Option ℕ × List Flt) (i : ℕ), Valid tol.length acc.2 →
      (∀ r ∈ rs, Valid tol.length r) →
      ∃ m, minFold (tol.map .fin) acc i rs = .ok m ∧
        ((m = acc ∧ ∀ r ∈ rs, rank tol acc.2 ≤ rank tol r) ∨
         ∃ (j : ℕ) (hj : j < rs.length), m = (some (i + j), rs[j]) ∧
            rank tol rs[j] < rank tol acc.2 ∧ (∀ r ∈ rs, rank tol rs[j] ≤ rank tol r) ∧
            ∀ (k : ℕ) (hk : k < j), rank tol rs[j] < rank tol rs[k]) := by
  induction rs with
  | nil => intro acc i _ _; exact ⟨acc, rfl, Or.inl ⟨rfl, by simp⟩⟩
  | cons r rs ih =>
    intro acc i ha hr
    obtain ⟨o, ho, hog⟩ := cstrMin_valid tol ha (hr r (by simp))
    have hrs : ∀ r ∈ rs, Valid tol.length r := fun x hx => hr x (by simp [hx])
    have hstep : minFold (tol.map .fin) acc i (r :: rs)
        = if o = .gt then minFold (tol.map .fin) (some i, r) (i + 1) rs
          else minFold (tol.map .fin) acc (i + 1) rs := by
      simp only [minFold, ho, bind, Except.bind]
      cases o <;> simp
    rw [hstep]
    by_cases hgt : o = .gt
    · rw [if_pos hgt]
      have hlt := hog.1 hgt
      obtain ⟨m, hm, hcase⟩ := ih (some i, r) (i + 1) (hr r (by simp)) hrs
      refine ⟨m, hm, Or.inr ?_⟩
      rcases hcase with ⟨rfl, hall⟩ | ⟨j, hj, rfl, hl, hall, hfirst⟩
      · refine ⟨0, by simp, by simp, by simpa using hlt, ?_, by simp⟩
        intro x hx
        rcases List.mem_cons.1 hx with rfl | hx
        · simp
        · simpa using hall x hx
      · refine ⟨j + 1, by simpa using hj, ?_, ?_, ?_, ?_⟩
        · simp only [List.getElem_cons_succ, Prod.mk.injEq, Option.some.injEq, and_true]
          omega
        · simpa using lt_trans hl hlt
        · intro x hx
          rcases List.mem_cons.1 hx with rfl | hx
          · simpa using hl.le
          · simpa using hall x hx
        · intro k hk
          cases k with
          | zero => simpa using hl
          | succ k => simpa using hfirst k (by omega)
    · rw [if_neg hgt]
      have hnl : rank tol acc.2 ≤ rank tol r := by
        rw [← not_lt]; intro h; exact hgt (hog.2 h)
      obtain ⟨m, hm, hcase⟩ := ih acc (i + 1) ha hrs
      refine ⟨m, hm, ?_⟩
      rcases hcase with ⟨rfl, hall⟩ | ⟨j, hj, rfl, hl, hall, hfirst⟩
      · left
        refine ⟨rfl, ?_⟩
        intro x hx
        rcases List.mem_cons.1 hx with rfl | hx
        · exact hnl
        · exact hall x hx
      · right
        refine ⟨j + 1, by simpa using hj, ?_, ?_, ?_, ?_⟩
        · simp only [List.getElem_cons_succ, Prod.mk.injEq, Option.some.injEq, and_true]
          omega
        · simpa using hl
        · intro x hx
          rcases List.mem_cons.1 hx with rfl | hx
          · simpa using (lt_of_lt_of_le hl hnl).le
          · simpa using hall x hx
        · intro k hk
          cases k with
          | zero => simpa using lt_of_lt_of_le hl hnl
          | succ k => simpa using hfirst k (by omega)

theorem argminLoop_spec (es : List Flt) :
    ∀ (cur : Flt) (ci i : ℕ), cur ≠ .nan → (∀ e ∈ es, e ≠ .nan) →
      ∃ k, argminLoop cur ci i es = .ok k ∧
        ((k = ci ∧ ∀ e ∈ es, toE cur ≤ toE e) ∨
         ∃ (j : ℕ) (hj : j < es.length), k = i + j ∧ toE es[j] < toE cur ∧
            (∀ e ∈ es, toE es[j] ≤ toE e) ∧ ∀ (l : ℕ) (hl : l < j), toE es[j] < toE es[l]) := by
  induction es with
  | nil => intro cur ci i _ _; exact ⟨ci, rfl, Or.inl ⟨rfl, by simp⟩⟩
  | cons e es ih =>
    intro cur ci i hc he
    have hen : e ≠ .nan := he e (by simp)
    have hes : ∀ e ∈ es, e ≠ .nan := fun x hx => he x (by simp [hx])
    have hstep : argminLoop cur ci i (e :: es)
        = if toE e < toE cur then argminLoop e i (i + 1) es
          else argminLoop cur ci (i + 1) es := by
      simp only [argminLoop, Flt.cmp_toE hen hc]
      split_ifs <;> rfl
    rw [hstep]
    by_cases hlt : toE e < toE cur
    · rw [if_pos hlt]
      obtain ⟨m, hm, hcase⟩ := ih e i (i + 1) hen hes
      refine ⟨m, hm, Or.inr ?_⟩
      rcases hcase with ⟨rfl, hall⟩ | ⟨j, hj, rfl, hl, hall, hfirst⟩
      · refine ⟨0, by simp, by simp, by simpa using hlt, ?_, by simp⟩
        intro x hx
        rcases List.mem_cons.1 hx with rfl | hx
        · simp
        · simpa using hall x hx
      · refine ⟨j + 1, by simpa using hj, by omega, by simpa using lt_trans hl hlt, ?_, ?_⟩
        · intro x hx
          rcases List.mem_cons.1 hx with rfl | hx
          · simpa using hl.le
          · simpa using hall x hx
        · intro k hk
          cases k with
          | zero => simpa using hl
          | succ k => simpa using hfirst k (by omega)
    · rw [if_neg hlt]
      have hnl : toE cur ≤ toE e := not_lt.1 hlt
      obtain ⟨m, hm, hcase⟩ := ih cur ci (i + 1) hc hes
      refine ⟨m, hm, ?_⟩
      rcases hcase with ⟨rfl, hall⟩ | ⟨j, hj, rfl, hl, hall, hfirst⟩
      · left
        refine ⟨rfl, ?_⟩
        intro x hx
        rcases List.mem_cons.1 hx with rfl | hx
        · exact hnl
        · exact hall x hx
      · right
        refine ⟨j + 1, by simpa using hj, by omega, by simpa using hl, ?_, ?_⟩
        · intro x hx
          rcases List.mem_cons.1 hx with rfl | hx
          · simpa using (lt_of_lt_of_le hl hnl).le
          · simpa using hall x hx
        · intro k hk
          cases k with
          | zero => simpa using lt_of_lt_of_le hl hnl
          | succ k => simpa using hfirst k (by omega)

theorem argmin_spec (l : List Flt) (hne : l ≠ []) (h : ∀ e ∈ l, e ≠ .nan) :
    ∃ k, argmin l = .ok k ∧ IsFirstMin (l.map toE) k := by
  cases l with
  | nil => simp at hne
  | cons e es =>
    obtain ⟨k, hk, hcase⟩ := argminLoop_spec (e :: es) e 0 0 (h e (by simp)) h
    refine ⟨k, hk, ?_⟩
    rcases hcase with ⟨rfl, hall⟩ | ⟨j, hj, rfl, _, hall, hfirst⟩
    · refine ⟨by simp, ?_, by simp⟩
      intro x hx
      obtain ⟨y, hy, rfl⟩ := List.mem_map.1 hx
      simpa using hall y hy
    · refine ⟨by simpa using hj, ?_, ?_⟩
      · intro x hx
        obtain ⟨y, hy, rfl⟩ := List.mem_map.1 hx
        simpa only [zero_add, List.getElem_map] using hall y hy
      · intro l hl
        simpa only [zero_add, List.getElem_map] using hfirst l (by omega)

/-- Scan of the feasible rows; holds also with NaN objectives, which are never selected. -/
theorem scanFeasible_spec (ps : List (Flt × Flt)) :
    ∀ (best : Flt) (bi i : ℕ), best ≠ .nan →
      let P := fun p : Flt × Flt => Flt.feq p.1 .zero = true ∧ p.2 ≠ .nan
      (scanFeasible best bi i ps = bi ∧ ∀ p ∈ ps, P p → toE best ≤ toE p.2) ∨
      ∃ (j : ℕ) (hj : j < ps.length), scanFeasible best bi i ps = i + j ∧ P ps[j] ∧
        toE ps[j].2 < toE best ∧ (∀ p ∈ ps, P p → toE ps[j].2 ≤ toE p.2) ∧
        ∀ (l : ℕ) (hl : l < j), P ps[l] → toE ps[j].2 < toE ps[l].2 := by
  induction ps with
  | nil => intro best bi i _; left; simp [scanFeasible]
  | cons p ps ih =>
    intro best bi i hb P
    obtain ⟨s, o⟩ := p
    by_cases hcond : (Flt.feq s .zero && Flt.lt o best) = true
    · have hstep : scanFeasible best bi i ((s, o) :: ps) = scanFeasible o i (i + 1) ps := by
        simp only [scanFeasible, hcond, if_true]
      rw [hstep]
      simp only [Bool.and_eq_true] at hcond
      have hon : o ≠ .nan := by
        rintro rfl
        simp [Flt.lt, Flt.cmp] at hcond
      have hlt : toE o < toE best := (Flt.lt_iff hon hb).1 hcond.2
      right
      rcases ih o i (i + 1) hon with ⟨h1, h2⟩ | ⟨j, hj, h1, h2, h3, h4, h5⟩
      · refine ⟨0, by simp, by simpa using h1, ⟨hcond.1, hon⟩, hlt, ?_, by simp⟩
        intro x hx hP
        rcases List.mem_cons.1 hx with rfl | hx
        · simp
        · simpa using h2 x hx hP
      · refine ⟨j + 1, by simpa using hj, by omega, by simpa using h2, ?_, ?_, ?_⟩
        · simpa using lt_trans h3 hlt
        · intro x hx hP
          rcases List.mem_cons.1 hx with rfl | hx
          · simpa using h3.le
          · simpa using h4 x hx hP
        · intro l hl hP
          cases l with
          | zero => simpa using h3
          | succ l => simpa using h5 l (by omega) (by simpa using hP)
    · have hstep : scanFeasible best bi i ((s, o) :: ps) = scanFeasible best bi (i + 1) ps := by
        simp only [scanFeasible, hcond]; simp
      rw [hstep]
      have hskip : P (s, o) → toE best ≤ toE o := by
        rintro ⟨hs, hn⟩
        rw [← not_lt]
        intro h
        apply hcond
        simp only [Bool.and_eq_true]
        exact ⟨hs, (Flt.lt_iff hn hb).2 h⟩
      rcases ih best bi (i + 1) hb with ⟨h1, h2⟩ | ⟨j, hj, h1, h2, h3, h4, h5⟩
      · left
        refine ⟨h1, ?_⟩
        intro x hx hP
        rcases List.mem_cons.1 hx with rfl | hx
        · exact hskip hP
        · exact h2 x hx hP
      · right
        refine ⟨j + 1, by simpa using hj, by omega, by simpa using h2, by simpa using h3, ?_, ?_⟩
        · intro x hx hP
          rcases List.mem_cons.1 hx with rfl | hx
          · simpa using (lt_of_lt_of_le h3 (hskip hP)).le
          · simpa using h4 x hx hP
        · intro l hl hP
          cases l with
          | zero => simpa using lt_of_lt_of_le h3 (hskip hP)
          | succ l => simpa using h5 l (by omega) (by simpa using hP)

theorem IsFirstMin.unique {α : Type*} [LinearOrder α] {l : List α} {i j : ℕ}
    (hi : IsFirstMin l i) (hj : IsFirstMin l j) : i = j := by
  obtain ⟨h1, h2, h3⟩ := hi
  obtain ⟨g1, g2, g3⟩ := hj
  rcases lt_trichotomy i j with h | h | h
  · exact absurd (g3 i h) (not_lt.2 (h2 _ (List.getElem_mem g1)))
  · exact h
  · exact absurd (h3 j h) (not_lt.2 (g2 _ (List.getElem_mem h1)))

/-- The rows compared by the code: `[y, c]` concatenated. -/
def allRows (y c : Mat Flt) : List (List Flt) := List.zipWith (· ++ ·) y.rows c.rows

theorem hcat_eq {y c : Mat Flt} (h : y.rows.length = c.rows.length) :
    Mat.hcat y c = .ok ⟨y.ncols + c.ncols, allRows y c⟩ := by
  simp [Mat.hcat, h, allRows]

/-- Batch search on comparable rows. -/
theorem findBest_constrained (tol : List ℚ) (rows : List (List Flt)) (hne : rows ≠ [])
    (hv : ∀ r ∈ rows, Valid tol.length r) :
    ∃ mi p, argmin ((rows.map fun r =>
          (csumZip .zero (r.drop 1) (tol.map .fin), r.headD .nan)).map Prod.fst) = .ok mi ∧
      (rows.map fun r => (csumZip .zero (r.drop 1) (tol.map .fin), r.headD .nan))[mi]? = some p ∧
      IsFirstMin (rows.map (rank tol))
        (if Flt.gt p.1 .zero then mi else scanFeasible .pinf 0 0
          (rows.map fun r => (csumZip .zero (r.drop 1) (tol.map .fin), r.headD .nan))) := by
  set f := fun r : List Flt => (csumZip .zero (r.drop 1) (tol.map .fin), r.headD .nan) with hf
  have facts : ∀ r ∈ rows, (f r).1 ≠ .nan ∧ toE (f r).1 = violation tol r.tail ∧
      (Flt.feq (f r).1 .zero = true ↔ Feasible tol r.tail) ∧
      (Flt.gt (f r).1 .zero = true ↔ ¬ Feasible tol r.tail) := by
    intro r hr
    obtain ⟨o, cs, rfl, hl, _, _, hn⟩ := hv r hr
    exact csum_facts tol cs hl hn
  have hobj : ∀ r ∈ rows, (f r).2 ≠ .nan ∧ (f r).2 ≠ .pinf := by
    intro r hr
    obtain ⟨o, cs, rfl, hl, h1, h2, hn⟩ := hv r hr
    exact ⟨h1, h2⟩
  have hrf : ∀ r ∈ rows, Feasible tol r.tail → rank tol r = toLex (0, toE (f r).2) := by
    intro r hr h; simp [rank, h, hf]
  have hri : ∀ r ∈ rows, ¬ Feasible tol r.tail → rank tol r = toLex (1, violation tol r.tail) := by
    intro r hr h; simp [rank, h]
  obtain ⟨mi, hmi, hmin, hall, hfirst⟩ := argmin_spec ((rows.map f).map Prod.fst) (by simpa using hne)
    (by
      intro e he
      simp only [List.map_map, List.mem_map, Function.comp] at he
      obtain ⟨r, hr, rfl⟩ := he
      exact (facts r hr).1)
  have hlt : mi < rows.length := by simpa using hmin
  have hmem : rows[mi] ∈ rows := List.getElem_mem hlt
  refine ⟨mi, f rows[mi], hmi, by simp [hlt], ?_⟩
  have hall' : ∀ r ∈ rows, violation tol rows[mi].tail ≤ violation tol r.tail := by
    intro r hr
    have := hall (toE (f r).1) (by simp; exact ⟨r, hr, rfl⟩)
    simp only [List.getElem_map] at this
    rwa [(facts _ hmem).2.1, (facts _ hr).2.1] at this
  have hfirst' : ∀ (j : ℕ) (hj : j < mi),
      violation tol rows[mi].tail < violation tol rows[j].tail := by
    intro j hj
    have := hfirst j hj
    simp only [List.getElem_map] at this
    rwa [(facts _ hmem).2.1, (facts _ (List.getElem_mem _)).2.1] at this
  have hlen : ∀ r ∈ rows, r.tail.length = tol.length := by
    intro r hr
    obtain ⟨o, cs, rfl, hl, h1, h2, hn⟩ := hv r hr
    exact hl
  by_cases hfeas : Feasible tol rows[mi].tail
  · -- some feasible row
    have hg : ¬ Flt.gt (f rows[mi]).1 .zero = true := fun h => ((facts _ hmem).2.2.2.1 h) hfeas
    rw [if_neg hg]
    rcases scanFeasible_spec (rows.map f) .pinf 0 0 (by simp) with ⟨_, h2⟩ | ⟨j, hj, h1, h2, h3, h4, h5⟩
    · exfalso
      have := h2 (f rows[mi]) (by simp; exact ⟨_, hmem, rfl⟩)
        ⟨(facts _ hmem).2.2.1.2 hfeas, (hobj _ hmem).1⟩
      have hp := (hobj _ hmem)
      revert hp this
      cases (f rows[mi]).2 <;> simp [toE]
    · rw [h1, zero_add]
      have hj' : j < rows.length := by simpa using hj
      have hjm : rows[j] ∈ rows := List.getElem_mem hj'
      simp only [List.getElem_map] at h2 h3 h4 h5
      have hjf : Feasible tol rows[j].tail := (facts _ hjm).2.2.1.1 h2.1
      refine ⟨by simpa using hj', ?_, ?_⟩
      · intro x hx
        obtain ⟨r, hr, rfl⟩ := List.mem_map.1 hx
        simp only [List.getElem_map]
        rw [hrf _ hjm hjf]
        by_cases hrF : Feasible tol r.tail
        · rw [hrf _ hr hrF, Prod.Lex.toLex_le_toLex]
          right
          exact ⟨rfl, h4 (f r) (by simp; exact ⟨r, hr, rfl⟩)
            ⟨(facts _ hr).2.2.1.2 hrF, (hobj _ hr).1⟩⟩
        · rw [hri _ hr hrF, Prod.Lex.toLex_le_toLex]
          left; simp
      · intro l hl
        have hlm : rows[l] ∈ rows := List.getElem_mem (by omega)
        simp only [List.getElem_map]
        rw [hrf _ hjm hjf]
        by_cases hrF : Feasible tol rows[l].tail
        · rw [hrf _ hlm hrF, Prod.Lex.toLex_lt_toLex]
          right
          exact ⟨rfl, h5 l hl ⟨(facts _ hlm).2.2.1.2 hrF, (hobj _ hlm).1⟩⟩
        · rw [hri _ hlm hrF, Prod.Lex.toLex_lt_toLex]
          left; simp
  · have hg : Flt.gt (f rows[mi]).1 .zero = true := (facts _ hmem).2.2.2.2 hfeas
    rw [if_pos hg]
    have hpos : 0 < violation tol rows[mi].tail := by
      refine lt_of_le_of_ne (violation_nonneg _ _) (fun h => hfeas ?_)
      exact (violation_eq_zero_iff _ _ (hlen _ hmem)).1 h.symm
    have hno : ∀ r ∈ rows, ¬ Feasible tol r.tail := by
      intro r hr hF
      have h0 := (violation_eq_zero_iff _ _ (hlen _ hr)).2 hF
      exact absurd (hall' r hr) (not_le.2 (h0 ▸ hpos))
    refine ⟨by simpa using hlt, ?_, ?_⟩
    · intro x hx
      obtain ⟨r, hr, rfl⟩ := List.mem_map.1 hx
      simp only [List.getElem_map]
      rw [hri _ hmem hfeas, hri _ hr (hno r hr), Prod.Lex.toLex_le_toLex]
      exact Or.inr ⟨rfl, hall' r hr⟩
    · intro l hl
      have hlm : rows[l] ∈ rows := List.getElem_mem (by omega)
      simp only [List.getElem_map]
      rw [hri _ hmem hfeas, hri _ hlm (hno _ hlm), Prod.Lex.toLex_lt_toLex]
      exact Or.inr ⟨rfl, hfirst' l hl⟩

end Verif
