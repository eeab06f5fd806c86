import Verif.Props.Result

/-!
# Phases of TREGO along a run (C32)
-/

set_option autoImplicit false

namespace Verif.Props

open Verif Spec FindResult MixInt Run Result

theorem lt_sub_iff (a b : Flt) (m : ℚ) : Flt.lt a (Flt.sub b (.fin m)) = true ↔ Improves a b m := by
  unfold Improves
  by_cases ha : a = .nan
  · subst ha; simp [Flt.lt, Flt.cmp]
  by_cases hb : b = .nan
  · subst hb; cases a <;> simp [Flt.lt, Flt.cmp, Flt.sub, Flt.add]
  have hn : Flt.sub b (.fin m) ≠ .nan := by cases b <;> simp_all [Flt.sub, Flt.neg, Flt.add]
  rw [Flt.lt_iff ha hn]
  simp only [ne_eq, ha, hb, not_false_eq_true, true_and]
  have : toE (Flt.sub b (.fin m)) = toE b - ((m : ℝ) : EReal) := by
    cases b with
    | nan => exact absurd rfl hb
    | ninf => simp [Flt.sub, Flt.neg, Flt.add, toE]
    | pinf => simp [Flt.sub, Flt.neg, Flt.add, toE]
    | fin q =>
      simp only [Flt.sub, Flt.neg, Flt.add, toE]
      rw [← EReal.coe_sub]
      congr 1
      push_cast
      ring
  rw [this]

/-- C32 along a run with TREGO. An iteration is global exactly when its index is a multiple of `1 + n_local_steps` or
it follows a global iteration that improved the best objective by more than the squared size. The size is multiplied
by `gamma` after an improvement and by `beta` after a local iteration without, except before the first iteration. A
local iteration evaluates the local point only. -/
theorem C32_run_phases (cfg : Cfg) (hc : cfg.trego = true) (P : Prob) (doe : Doe) (os : List Oracle) (o : Oracle)
    (s s' : St) (h : run cfg P doe os = .ok s) (h' : run cfg P doe (os ++ [o]) = .ok s')
    (hgo : s'.iter = s.iter + 1) :
    ∃ a b r r', s.data.y.rows[s.best]? = some (a :: r) ∧ s.data.y.rows[s.prevBest]? = some (b :: r') ∧
      (s'.prevStepEgo = true ↔ (1 + cfg.nLocalSteps) ∣ s.iter ∨
        s.prevStepEgo = true ∧ Improves a b (s.sigma ^ 2)) ∧
      (s.iter = 0 → s'.sigma = s.sigma) ∧
      (s.iter ≠ 0 → Improves a b (s.sigma ^ 2) → s'.sigma = s.sigma * cfg.gamma) ∧
      (s.iter ≠ 0 → ¬ Improves a b (s.sigma ^ 2) →
        s'.sigma = if s.prevStepEgo then s.sigma else s.sigma * cfg.beta) ∧
      (s'.prevStepEgo = false → ∃ u, userInput cfg o.loc = .ok u ∧ s'.calls = s.calls ++ [u]) := by
  rw [run_append, h] at h'
  simp only [bind, Except.bind, loop] at h'
  split_ifs at h' with hst
  · rw [Except.ok.inj h'] at hgo; omega
  cases ht : turn cfg P o s with
  | error e => rw [ht] at h'; simp at h'
  | ok t =>
  rw [ht] at h'
  simp only [Except.ok.injEq] at h'
  subst h'
  simp only [turn, nextIter, hc, if_true, bind_ok, Except.ok.injEq] at ht
  obtain ⟨s2, ⟨s1, h1, hrec⟩, s3, hupd, rfl⟩ := ht
  have hR : s2.sigma = s1.sigma ∧ s2.prevStepEgo = s1.prevStepEgo ∧ s2.calls = s1.calls := by
    unfold record at hrec
    split_ifs at hrec
    · simp only at hrec
      split_ifs at hrec
      simp only [Except.ok.injEq] at hrec
      subst hrec; exact ⟨rfl, rfl, rfl⟩
    · simp only [Except.ok.injEq] at hrec
      subst hrec; exact ⟨rfl, rfl, rfl⟩
  have hU : s3.sigma = s2.sigma ∧ s3.prevStepEgo = s2.prevStepEgo ∧ s3.calls = s2.calls := by
    simp only [update, bind_ok] at hupd
    obtain ⟨cost, _, hupd⟩ := hupd
    split at hupd
    · simp at hupd
    · simp only [Except.ok.injEq] at hupd
      subst hupd; exact ⟨rfl, rfl, rfl⟩
  obtain ⟨xs, us, success, _, hsuc, hsig, hego⟩ := tregoIteration_spec hc h1
  have hrow : ∀ i r, row s.data.y i = .ok r → s.data.y.rows[i]? = some r := by
    intro i r hr
    unfold row at hr
    split at hr
    · simp only [Except.ok.injEq] at hr; subst hr; assumption
    · simp at hr
  have hsuc0 := hsuc
  simp only [lastIterSuccess, bind_ok] at hsuc
  obtain ⟨yb, hyb, yp, hyp, hm⟩ := hsuc
  cases yb with
  | nil => simp at hm
  | cons a r =>
  cases yp with
  | nil => simp at hm
  | cons b r' =>
  simp only [Except.ok.injEq] at hm
  have himp : success = true ↔ Improves a b (s.sigma ^ 2) := by
    rw [← lt_sub_iff, ← hm, sq]
  refine ⟨a, b, r, r', hrow _ _ hyb, hrow _ _ hyp, ?_, ?_, ?_, ?_, ?_⟩
  · show s3.prevStepEgo = true ↔ _
    rw [hU.2.1, hR.2.1, hego, ← himp, Nat.dvd_iff_mod_eq_zero]
    simp only [isGlobalPhase, Bool.or_eq_true, Bool.and_eq_true, beq_iff_eq]
    tauto
  · intro hi
    show s3.sigma = _
    rw [hU.1, hR.1, hsig]
    simp [nextSigma, hi]
  · intro hi hI
    show s3.sigma = _
    rw [hU.1, hR.1, hsig]
    simp [nextSigma, hi, himp.2 hI]
  · intro hi hI
    show s3.sigma = _
    rw [hU.1, hR.1, hsig]
    have : success = false := by
      rw [← Bool.not_eq_true, himp]; exact hI
    cases hp : s.prevStepEgo <;> simp [nextSigma, hi, this, hp]
  · intro hl
    have hl : s3.prevStepEgo = false := hl
    rw [hU.2.1, hR.2.1, hego] at hl
    show ∃ u, _ ∧ s3.calls = _
    rw [hU.2.2, hR.2.2]
    simp only [tregoIteration, hsuc0, bind_ok, Except.ok.injEq] at h1
    obtain ⟨_, rfl, h1⟩ := h1
    rw [hl] at h1
    simp only [Bool.false_eq_true, if_false, bind_ok, Except.ok.injEq] at h1
    obtain ⟨t, h2, rfl⟩ := h1
    obtain ⟨xs, u, b, fe, _, _, hu, _, _, _, h6⟩ := tregoStep_spec (o := o) rfl h2
    exact ⟨u, hu, by rw [h6]⟩

/-- C32. A run starts with a size of 1/10, and its first iteration is global. -/
theorem C32_run_start (cfg : Cfg) (hc : cfg.trego = true) (P : Prob) (doe : Doe) (o : Oracle)
    (s s' : St) (h : run cfg P doe [] = .ok s) (h' : run cfg P doe [o] = .ok s') (hgo : s'.iter = s.iter + 1) :
    s.sigma = 1 / 10 ∧ s'.sigma = 1 / 10 ∧ s'.prevStepEgo = true := by
  have h0 : s.iter = 0 ∧ s.sigma = 1 / 10 := by
    simp only [run, loop, bind_ok, Except.ok.injEq] at h
    obtain ⟨s0, h0, rfl⟩ := h
    refine ⟨(init_spec h0).2.2.2.2.2.2.2.2.2.2.1, ?_⟩
    simp only [init, bind_ok] at h0
    obtain ⟨_, _, _, _, _, _, _, _, h0⟩ := h0
    simp only [update, bind_ok] at h0
    obtain ⟨cost, _, hupd⟩ := h0
    split at hupd
    · simp at hupd
    · simp only [Except.ok.injEq] at hupd
      subst hupd; rfl
  obtain ⟨a, b, r, r', _, _, h1, h2, _⟩ := C32_run_phases cfg hc P doe [] o s s' h h' hgo
  exact ⟨h0.2, (h2 h0.1).trans h0.2, h1.2 (.inl (by rw [h0.1]; exact dvd_zero _))⟩

/-- Case of C32: a global iteration that improves, one that does not, a local one. -/
example : ((run { exCfg with trego := true, nLocalSteps := 3 } exProb (.points [[5], [3]])
      [exOracle 5 (1/2), exOracle 2 1, ⟨fun _ _ => none, [7]⟩]).map fun s =>
        (s.data.x, s.sigma, s.prevStepEgo, s.iter))
    = .ok ([[5], [3], [1/2], [2], [1], [7]], 1/9, false, 3) := by decide +kernel

end Verif.Props
