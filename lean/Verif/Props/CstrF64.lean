import Verif.Model.CstrF64
import Verif.Props.DupF64
import Mathlib.Data.Prod.Lex

/-!
# C158: feasibility and ranking of evaluations in double precision
-/

set_option autoImplicit false

namespace Verif.Props

open Verif Verif.F64 Verif.Spec Verif.DupF64

/-! ## Specification -/

/-- Sum of the amounts by which constraints exceed their tolerances. -/
def exactViolation (c tol : List ℝ) : ℝ := (List.zipWith (fun c t => max (c - t) 0) c tol).sum

/-- No constraint exceeds its tolerance. -/
def Meets (c tol : List ℝ) : Prop := List.Forall₂ (fun c t => c ≤ t) c tol

/-- A usable evaluation. -/
structure EvalOk (tol : List ℝ) (e : CstrF64.Eval) : Prop where
  obj : IsF64 e.obj
  cstr : RowF64 e.cstr
  length : e.cstr.length = tol.length

/-! ## Feasibility -/

/-- The difference of two distinct numbers is not rounded to zero. -/
theorem cst_sub_pos {c t : ℝ} (hc : IsF64 c) (ht : IsF64 t) (h : t < c) : 2 ^ (-1074 : ℤ) ≤ sub c t := by
  obtain ⟨i, hi⟩ := nrm_tiny_multiple hc
  obtain ⟨j, hj⟩ := nrm_tiny_multiple ht
  have hp := zpow2_pos (-1074)
  refine le_rnd (isF64_zpow le_rfl) ?_
  rw [hi, hj] at h ⊢
  have hij : j < i := by
    have := lt_of_mul_lt_mul_right h hp.le
    exact_mod_cast this
  have : (1 : ℝ) ≤ i - j := by
    have : j + 1 ≤ i := hij
    have : (j : ℝ) + 1 ≤ i := by exact_mod_cast this
    linarith
  rw [← sub_mul]
  exact le_mul_of_one_le_left hp.le this

theorem cst_sum_ge (c : List ℝ) : ∀ (tol : List ℝ) (a : ℝ), IsF64 a → a ≤ CstrF64.sumFrom a c tol := by
  induction c with
  | nil => intro tol a _; cases tol <;> exact le_rfl
  | cons c cs ih =>
    intro tol a ha
    cases tol with
    | nil => exact le_rfl
    | cons t ts =>
      simp only [CstrF64.sumFrom]
      split_ifs with h
      · exact (le_rnd ha (by linarith [abs_nonneg (sub c t)])).trans (ih ts _ (rnd_isF64 _))
      · exact ih ts a ha

theorem cst_nonneg (c tol : List ℝ) : 0 ≤ CstrF64.cstrSum c tol := cst_sum_ge c tol 0 isF64_zero

theorem cst_zero_iff (c : List ℝ) : ∀ tol : List ℝ, c.length = tol.length → RowF64 c → RowF64 tol →
    (CstrF64.cstrSum c tol = 0 ↔ Meets c tol) := by
  induction c with
  | nil =>
    intro tol hl _ _
    have : tol = [] := List.eq_nil_of_length_eq_zero (by simpa using hl.symm)
    subst this
    simp [CstrF64.cstrSum, CstrF64.sumFrom, Meets]
  | cons c cs ih =>
    intro tol hl hc ht
    cases tol with
    | nil => simp at hl
    | cons t ts =>
      have ih' := ih ts (by simpa using hl) (fun z hz => hc z (by simp [hz])) (fun z hz => ht z (by simp [hz]))
      unfold Meets at *
      rw [List.forall₂_cons]
      unfold CstrF64.cstrSum at *
      simp only [CstrF64.sumFrom]
      split_ifs with h
      · have h1 := cst_sub_pos (hc c (by simp)) (ht t (by simp)) h
        have hp := zpow2_pos (-1074)
        have h2 : 2 ^ (-1074 : ℤ) ≤ add 0 |sub c t| := by
          refine le_rnd (isF64_zpow le_rfl) ?_
          rw [zero_add]
          exact h1.trans (le_abs_self _)
        have h3 := cst_sum_ge cs ts (add 0 |sub c t|) (rnd_isF64 _)
        constructor
        · intro h0
          rw [h0] at h3
          linarith
        · intro h0
          exact absurd h0.1 (not_le.2 h)
      · rw [ih']
        simp [not_lt.1 h]

/-- **C158**, feasibility. It is exact: an evaluation is feasible exactly when no constraint exceeds its tolerance, by however
little and for any number of constraints. -/
theorem C158_feasible_iff (tol : List ℝ) (e : CstrF64.Eval) (ht : RowF64 tol) (he : EvalOk tol e) :
    CstrF64.isFeasible e tol ↔ Meets e.cstr tol := by
  unfold CstrF64.isFeasible
  rw [cst_zero_iff _ _ he.length he.cstr ht, or_iff_right_iff_imp]
  intro h
  have h0 : tol = [] := List.eq_nil_of_length_eq_zero (by rw [← he.length, h, List.length_nil])
  rw [h, h0]
  exact .nil

/-! ## Violations -/

/-- **C158**, violations. Constraints which are all lower never have a larger sum of violations. -/
theorem C158_monotone (c c' tol : List ℝ) (h : List.Forall₂ (fun a b => a ≤ b) c c') :
    CstrF64.cstrSum c tol ≤ CstrF64.cstrSum c' tol := by
  have key : ∀ (tol : List ℝ) (a a' : ℝ), IsF64 a' → a ≤ a' → CstrF64.sumFrom a c tol ≤ CstrF64.sumFrom a' c' tol := by
    induction h with
    | nil => intro tol a a' _ h; cases tol <;> exact h
    | @cons x y cs cs' hxy _ ih =>
      intro tol a a' hf ha
      cases tol with
      | nil => exact ha
      | cons t ts =>
        simp only [CstrF64.sumFrom]
        split_ifs with h1 h2 h2
        · refine ih ts _ _ (rnd_isF64 _) (rnd_mono (add_le_add ha ?_))
          have h3 : 0 ≤ sub x t := rnd_nonneg (by linarith)
          rw [abs_of_nonneg h3]
          exact (rnd_mono (by linarith)).trans (le_abs_self _)
        · exact absurd (h1.trans_le hxy) h2
        · exact ih ts _ _ (rnd_isF64 _) (ha.trans (le_rnd hf (by linarith [abs_nonneg (sub y t)])))
        · exact ih ts _ _ hf ha
  exact key tol 0 0 isF64_zero le_rfl

theorem cst_as_l1 (c : List ℝ) : ∀ (tol : List ℝ) (a : ℝ), IsF64 a → c.length = tol.length →
    CstrF64.sumFrom a c tol = l1From a (List.zipWith max c tol) tol := by
  induction c with
  | nil => intro tol a _ hl; cases tol <;> simp [CstrF64.sumFrom, l1From]
  | cons c cs ih =>
    intro tol a ha hl
    cases tol with
    | nil => simp at hl
    | cons t ts =>
      simp only [CstrF64.sumFrom, List.zipWith_cons_cons, l1From]
      rw [ih ts _ (by split_ifs; exacts [rnd_isF64 _, ha]) (by simpa using hl)]
      congr 1
      split_ifs with h
      · rw [max_eq_left h.le]
      · rw [max_eq_right (not_lt.1 h)]
        simp [sub, add, rnd_zero, rnd_of_isF64 ha]

theorem cst_exact (c : List ℝ) : ∀ tol : List ℝ, exactViolation c tol = exactL1 (List.zipWith max c tol) tol := by
  induction c with
  | nil => intro tol; simp [exactViolation, exactL1]
  | cons c cs ih =>
    intro tol
    cases tol with
    | nil => simp [exactViolation, exactL1]
    | cons t ts =>
      have := ih ts
      unfold exactViolation exactL1 at *
      simp only [List.zipWith_cons_cons, List.sum_cons, this]
      congr 1
      rcases le_total c t with h | h
      · rw [max_eq_right h, max_eq_right (by linarith)]; simp
      · rw [max_eq_left h, max_eq_left (by linarith), abs_of_nonneg (by linarith)]

/-- **C158**, violations. The sum of violations is exact up to `2^-52` per constraint, relatively. -/
theorem C158_violation (c tol : List ℝ) (hc : RowF64 c) (ht : RowF64 tol) (hl : c.length = tol.length)
    (hn : c.length ≤ 2 ^ 40) :
    |CstrF64.cstrSum c tol - exactViolation c tol| ≤ (c.length + 1) * 2 ^ (-52 : ℤ) * exactViolation c tol := by
  have hlen : (List.zipWith max c tol).length = c.length := by simp [hl]
  have hrow : RowF64 (List.zipWith max c tol) := by
    intro a ha
    obtain ⟨i, hi, rfl⟩ := List.mem_iff_getElem.1 ha
    rw [List.getElem_zipWith]
    rcases max_choice (c[i]'(by simp at hi; omega)) (tol[i]'(by simp at hi; omega)) with e | e <;> rw [e]
    exacts [hc _ (List.getElem_mem _), ht _ (List.getElem_mem _)]
  have := C157_distance (List.zipWith max c tol) tol hrow ht (by rw [hlen, hl]) (by rw [hlen]; exact hn)
  rw [hlen, ← cst_exact] at this
  unfold CstrF64.cstrSum
  rw [cst_as_l1 c tol 0 isF64_zero hl]
  exact this

/-! ## The best evaluation -/

/-- Rank of an evaluation. -/
noncomputable def cstRank (tol : List ℝ) (e : CstrF64.Eval) : ℝ ×ₗ ℝ :=
  open Classical in toLex (CstrF64.cstrSum e.cstr tol, if CstrF64.cstrSum e.cstr tol = 0 then e.obj else 0)

theorem cst_min_gt {tol : List ℝ} {a b : CstrF64.Eval} (ha : a.cstr.length = tol.length) (hb : b.cstr.length = tol.length) :
    CstrF64.cstrMin a b tol = .gt ↔ cstRank tol b < cstRank tol a := by
  unfold cstRank CstrF64.cstrMin
  rw [Prod.Lex.toLex_lt_toLex]
  have h1 := cst_nonneg a.cstr tol
  have h2 := cst_nonneg b.cstr tol
  by_cases h0 : a.cstr = []
  · have ht : tol = [] := List.eq_nil_of_length_eq_zero (by rw [← ha, h0, List.length_nil])
    have hb0 : b.cstr = [] := List.eq_nil_of_length_eq_zero (by rw [hb, ht, List.length_nil])
    subst ht
    simp [h0, hb0, CstrF64.cstrSum, CstrF64.sumFrom, compare_gt_iff_gt]
  rw [if_neg h0]
  generalize CstrF64.cstrSum a.cstr tol = s at *
  generalize CstrF64.cstrSum b.cstr tol = t at *
  rcases h1.eq_or_lt with rfl | h1 <;> rcases h2.eq_or_lt with rfl | h2
  · simp [compare_gt_iff_gt]
  · simp [h2.ne', h2.le]
  · simp [h1.ne', h1]
  · simp [h1, h2, h1.ne', h2.ne', compare_gt_iff_gt]

theorem cst_best (tol : List ℝ) (rows : List CstrF64.Eval) : ∀ cur : CstrF64.Eval,
    (∀ e ∈ cur :: rows, e.cstr.length = tol.length) →
    CstrF64.best cur rows tol ∈ cur :: rows ∧
      ∀ e ∈ cur :: rows, cstRank tol (CstrF64.best cur rows tol) ≤ cstRank tol e := by
  induction rows with
  | nil => intro cur _; simp [CstrF64.best]
  | cons b rows ih =>
    intro cur hl
    have e : CstrF64.best cur (b :: rows) tol = CstrF64.best (if CstrF64.cstrMin cur b tol = .gt then b else cur) rows tol := rfl
    have hg := cst_min_gt (hl cur (by simp)) (hl b (by simp))
    rw [e]
    split_ifs with h
    · obtain ⟨h1, h2⟩ := ih b (fun e he => hl e (by simp only [List.mem_cons] at he ⊢; tauto))
      refine ⟨List.mem_cons_of_mem _ h1, ?_⟩
      intro e he
      rcases List.mem_cons.1 he with rfl | he
      · exact (h2 b (by simp)).trans (hg.1 h).le
      · exact h2 e he
    · obtain ⟨h1, h2⟩ := ih cur (fun e he => hl e (by simp only [List.mem_cons] at he ⊢; tauto))
      refine ⟨by simp only [List.mem_cons] at h1 ⊢; tauto, ?_⟩
      intro e he
      rcases List.mem_cons.1 he with rfl | he
      · exact h2 _ (by simp)
      rcases List.mem_cons.1 he with rfl | he
      · exact (h2 cur (by simp)).trans (not_lt.1 fun h' => h (hg.2 h'))
      · exact h2 e (by simp [he])

/-- **C158**, best evaluation. If an evaluation meets the constraints, the best one meets them and has the lowest objective of
those which do: this is exact. -/
theorem C158_best_feasible (tol : List ℝ) (cur : CstrF64.Eval) (rows : List CstrF64.Eval) (ht : RowF64 tol)
    (hok : ∀ e ∈ cur :: rows, EvalOk tol e) (e : CstrF64.Eval) (he : e ∈ cur :: rows) (hf : Meets e.cstr tol) :
    CstrF64.best cur rows tol ∈ cur :: rows ∧ Meets (CstrF64.best cur rows tol).cstr tol ∧
      (CstrF64.best cur rows tol).obj ≤ e.obj := by
  obtain ⟨h1, h2⟩ := cst_best tol rows cur fun e he => (hok e he).length
  have h3 := h2 e he
  generalize CstrF64.best cur rows tol = r at *
  have hr := hok r h1
  have heo := hok e he
  have hz := (cst_zero_iff _ _ heo.length heo.cstr ht).2 hf
  unfold cstRank at h3
  rw [Prod.Lex.toLex_le_toLex, hz] at h3
  have hn := cst_nonneg r.cstr tol
  rcases h3 with h3 | ⟨h3, h4⟩
  · simp only at h3; linarith
  · simp only at h3 h4
    refine ⟨h1, (cst_zero_iff _ _ hr.length hr.cstr ht).1 h3, ?_⟩
    simpa [h3] using h4

/-- **C158**, best evaluation. The current best, if it meets the constraints, is replaced only by an evaluation which meets them
and has a lower objective. -/
theorem C158_best_kept (tol : List ℝ) (cur : CstrF64.Eval) (rows : List CstrF64.Eval) (ht : RowF64 tol)
    (hok : ∀ e ∈ cur :: rows, EvalOk tol e) (hf : Meets cur.cstr tol)
    (h : ∀ e ∈ rows, Meets e.cstr tol → cur.obj ≤ e.obj) : CstrF64.best cur rows tol = cur := by
  have hc := hok cur (by simp)
  have hz := (cst_zero_iff _ _ hc.length hc.cstr ht).2 hf
  have key : ∀ e ∈ rows, ¬ CstrF64.cstrMin cur e tol = .gt := by
    intro e he hgt
    have heo := hok e (by simp [he])
    rw [cst_min_gt hc.length heo.length] at hgt
    unfold cstRank at hgt
    rw [Prod.Lex.toLex_lt_toLex, hz] at hgt
    have hn := cst_nonneg e.cstr tol
    rcases hgt with hgt | ⟨h1, h2⟩
    · simp only at hgt; linarith
    · simp only at h1 h2
      have := h e he ((cst_zero_iff _ _ heo.length heo.cstr ht).1 h1)
      rw [if_pos h1, if_pos trivial] at h2
      linarith
  clear h hok
  induction rows with
  | nil => rfl
  | cons b rows ih =>
    have : CstrF64.best cur (b :: rows) tol = CstrF64.best (if CstrF64.cstrMin cur b tol = .gt then b else cur) rows tol := rfl
    rw [this, if_neg (key b (by simp))]
    exact ih fun e he => key e (by simp [he])

/-- **C158**, best evaluation, partial. If no evaluation meets the constraints, the sum of violations of the best one is the
lowest up to `2^-50` per constraint, relatively. It need not be the lowest, see below. -/
theorem C158_best_infeasible_partial (tol : List ℝ) (cur : CstrF64.Eval) (rows : List CstrF64.Eval) (ht : RowF64 tol)
    (hn : tol.length ≤ 2 ^ 40) (hok : ∀ e ∈ cur :: rows, EvalOk tol e) (e : CstrF64.Eval) (he : e ∈ cur :: rows) :
    CstrF64.best cur rows tol ∈ cur :: rows ∧
      exactViolation (CstrF64.best cur rows tol).cstr tol ≤
        (1 + (tol.length + 1) * 2 ^ (-50 : ℤ)) * exactViolation e.cstr tol := by
  obtain ⟨h1, h2⟩ := cst_best tol rows cur fun e he => (hok e he).length
  have h3 := h2 e he
  generalize CstrF64.best cur rows tol = r at *
  have hr := hok r h1
  have heo := hok e he
  refine ⟨h1, ?_⟩
  have h4 : CstrF64.cstrSum r.cstr tol ≤ CstrF64.cstrSum e.cstr tol := by
    unfold cstRank at h3
    rw [Prod.Lex.toLex_le_toLex] at h3
    rcases h3 with h3 | ⟨h3, _⟩
    exacts [h3.le, h3.le]
  have a1 := (abs_le.1 (C158_violation r.cstr tol hr.cstr ht hr.length (by rw [hr.length]; exact hn))).1
  have a2 := (abs_le.1 (C158_violation e.cstr tol heo.cstr ht heo.length (by rw [heo.length]; exact hn))).2
  rw [hr.length] at a1
  rw [heo.length] at a2
  have p1 : 0 ≤ exactViolation e.cstr tol := by rw [cst_exact]; exact exactL1_nonneg _ _
  have p2 : 0 ≤ exactViolation r.cstr tol := by rw [cst_exact]; exact exactL1_nonneg _ _
  have hq : ((tol.length : ℝ) + 1) * 2 ^ (-52 : ℤ) ≤ 1 / 4 := by
    have : (tol.length : ℝ) + 1 ≤ 2 ^ 41 := by
      have : tol.length + 1 ≤ 2 ^ 41 := by omega
      exact_mod_cast this
    have := mul_le_mul_of_nonneg_right this (zpow2_pos (-52)).le
    refine this.trans ?_
    norm_num
  have hq0 : 0 ≤ ((tol.length : ℝ) + 1) * 2 ^ (-52 : ℤ) := by positivity
  have e50 : ((tol.length : ℝ) + 1) * 2 ^ (-50 : ℤ) = 4 * (((tol.length : ℝ) + 1) * 2 ^ (-52 : ℤ)) := by
    have : (2 : ℝ) ^ (-50 : ℤ) = 4 * 2 ^ (-52 : ℤ) := by norm_num
    rw [this]; ring
  rw [e50]
  generalize ((tol.length : ℝ) + 1) * 2 ^ (-52 : ℤ) = q at *
  generalize exactViolation e.cstr tol = E at *
  generalize exactViolation r.cstr tol = F at *
  -- (1 - q) F ≤ (1 + q) E and (1 + q) ≤ (1 - q) (1 + 4 q)
  have k : (1 - q) * F ≤ (1 + q) * E := by linarith
  have k2 : (1 + q) ≤ (1 - q) * (1 + 4 * q) := by nlinarith
  have k3 := mul_le_mul_of_nonneg_right k2 p1
  have k4 : (1 - q) * F ≤ (1 - q) * ((1 + 4 * q) * E) := by linarith
  exact le_of_mul_le_mul_left k4 (by linarith)

/-! ## The least violated evaluation may be lost -/

theorem cst_one : IsF64 (1 : ℝ) := by simpa using isF64_zpow (e := 0) (by norm_num)

/-- Evaluation whose violations sum to `1 + 2^-52`. -/
noncomputable def cstWorse : CstrF64.Eval := ⟨0, [1, 2 ^ (-53 : ℤ), 2 ^ (-53 : ℤ)]⟩

/-- Evaluation whose violations sum to `1 + 3 * 2^-54`, which is less. -/
noncomputable def cstLess : CstrF64.Eval := ⟨0, [2 ^ (-53 : ℤ), 2 ^ (-54 : ℤ), 1]⟩

theorem cst_worse_ok : EvalOk [0, 0, 0] cstWorse := by
  refine ⟨isF64_zero, ?_, rfl⟩
  intro a ha
  simp only [cstWorse, List.mem_cons, List.not_mem_nil, or_false] at ha
  rcases ha with rfl | rfl | rfl
  exacts [cst_one, isF64_zpow (by norm_num), isF64_zpow (by norm_num)]

theorem cst_less_ok : EvalOk [0, 0, 0] cstLess := by
  refine ⟨isF64_zero, ?_, rfl⟩
  intro a ha
  simp only [cstLess, List.mem_cons, List.not_mem_nil, or_false] at ha
  rcases ha with rfl | rfl | rfl
  exacts [isF64_zpow (by norm_num), isF64_zpow (by norm_num), cst_one]

theorem cst_worse_sum : CstrF64.cstrSum cstWorse.cstr [0, 0, 0] = 1 := by
  have t : rnd (1 + 2 ^ (-53 : ℤ)) = 1 := by
    have := rnd_tie (x := 1 + 2 ^ (-53 : ℤ)) (n := 2 ^ 52) (e := -52) (by norm_num) (by norm_num) (by norm_num) (by decide)
      (by norm_num)
    rw [this]
    norm_num
  have p := zpow2_pos (-53)
  have e : rnd (2 ^ (-53 : ℤ)) = 2 ^ (-53 : ℤ) := rnd_of_isF64 (isF64_zpow (by norm_num))
  simp only [cstWorse, CstrF64.cstrSum, CstrF64.sumFrom, add, sub, sub_zero, if_pos p, if_pos one_pos, e, rnd_of_isF64 cst_one,
    abs_one, zero_add, abs_of_pos p, t]

theorem cst_less_sum : CstrF64.cstrSum cstLess.cstr [0, 0, 0] = 1 + 2 ^ (-52 : ℤ) := by
  have f3 : IsF64 ((2 : ℝ) ^ (-53 : ℤ) + 2 ^ (-54 : ℤ)) := ⟨3, -54, by norm_num, by norm_num, by norm_num⟩
  have t : rnd (2 ^ (-53 : ℤ) + 2 ^ (-54 : ℤ) + 1) = 1 + 2 ^ (-52 : ℤ) := by
    have := rnd_eq (x := 2 ^ (-53 : ℤ) + 2 ^ (-54 : ℤ) + 1) (n := 2 ^ 52 + 1) (e := -52) (by norm_num) (by norm_num)
      (by norm_num) (by norm_num [abs_lt])
    rw [this]
    norm_num
  have p := zpow2_pos (-53)
  have p' := zpow2_pos (-54)
  have e : rnd (2 ^ (-53 : ℤ)) = 2 ^ (-53 : ℤ) := rnd_of_isF64 (isF64_zpow (by norm_num))
  have e' : rnd (2 ^ (-54 : ℤ)) = 2 ^ (-54 : ℤ) := rnd_of_isF64 (isF64_zpow (by norm_num))
  simp only [cstLess, CstrF64.cstrSum, CstrF64.sumFrom, add, sub, sub_zero, if_pos p, if_pos p', if_pos one_pos, e, e',
    rnd_of_isF64 cst_one, abs_one, zero_add, abs_of_pos p, abs_of_pos p', rnd_of_isF64 f3, t]

/-- **C158** is refuted for infeasible evaluations: the current best is replaced by one which violates the constraints more. -/
theorem C158_refuted_least_violated :
    EvalOk [0, 0, 0] cstLess ∧ EvalOk [0, 0, 0] cstWorse ∧
      exactViolation cstLess.cstr [0, 0, 0] < exactViolation cstWorse.cstr [0, 0, 0] ∧
      CstrF64.best cstLess [cstWorse] [0, 0, 0] = cstWorse := by
  refine ⟨cst_less_ok, cst_worse_ok, ?_, ?_⟩
  · norm_num [exactViolation, cstLess, cstWorse]
  · have : CstrF64.cstrMin cstLess cstWorse [0, 0, 0] = .gt := by
      rw [cst_min_gt cst_less_ok.length cst_worse_ok.length]
      unfold cstRank
      rw [Prod.Lex.toLex_lt_toLex, cst_worse_sum, cst_less_sum]
      left
      exact lt_add_of_pos_right _ (zpow2_pos _)
    simp [CstrF64.best, this]

/-! ## Examples -/

/-- An evaluation which meets its constraints, one of them being at its tolerance, and one which does not by the least amount. -/
example : Meets [-1, 2] [0, 2] ∧ ¬ Meets [-1, 2 ^ (-1074 : ℤ)] [0, 0] := by
  refine ⟨.cons (by norm_num) (.cons le_rfl .nil), ?_⟩
  intro h
  have h := (List.forall₂_cons.1 (List.forall₂_cons.1 h).2).1
  exact absurd h (not_le.2 (zpow2_pos _))

/-- The hypotheses on evaluations hold for two evaluations, the second of which meets the constraints. -/
example : (∀ e ∈ [cstLess, ⟨1, [0, 0, 0]⟩], EvalOk [0, 0, 0] e) ∧ Meets [0, 0, 0] [0, 0, 0] := by
  refine ⟨?_, .cons le_rfl (.cons le_rfl (.cons le_rfl .nil))⟩
  intro e he
  simp only [List.mem_cons, List.not_mem_nil, or_false] at he
  rcases he with rfl | rfl
  · exact cst_less_ok
  · refine ⟨cst_one, ?_, rfl⟩
    intro a ha
    simp only [List.mem_cons, List.not_mem_nil, or_false, or_self] at ha
    rw [ha]
    exact isF64_zero

end Verif.Props
