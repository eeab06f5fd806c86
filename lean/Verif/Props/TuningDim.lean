import Verif.Props.Tuning

/-!
# C108: number of hyperparameters
-/

set_option autoImplicit false

namespace Verif.Props

open Verif Tuning

/-- Number of hyperparameters: that of the inputs, or the reduced dimension. -/
def wanted (p : Params) (ncols : ℕ) : ℕ := p.kpls.getD ncols

theorem fitTheta_expand {env : Env} {dim nStart maxEval : ℕ} {t : ThetaTuning} {theta : List ℝ}
    (h : fitTheta env dim nStart maxEval t = .ok theta) : t.init.length = 1 ∨ t.init.length = dim := by
  cases t with
  | fixed init =>
    simp only [fitTheta, bind_ok] at h
    obtain ⟨r, h1, _⟩ := h
    exact (expand_ok.1 h1).1
  | full init bounds =>
    simp only [fitTheta, bind_ok] at h
    obtain ⟨r, h1, _⟩ := h
    exact (expand_ok.1 h1).1
  | part init bounds active =>
    simp only [fitTheta, bind_ok] at h
    obtain ⟨r, h1, _⟩ := h
    exact (expand_ok.1 h1).1

theorem fitTheta_wrong {env : Env} {dim nStart maxEval : ℕ} {t : ThetaTuning}
    (h1 : t.init.length ≠ 1) (h2 : t.init.length ≠ dim) : fitTheta env dim nStart maxEval t = .error .other := by
  have e : expand dim t.init = .error .other := by
    unfold expand
    split
    · rename_i v hv
      rw [hv] at h1; simp at h1
    · rw [if_neg h2]
  cases t <;> simp only [ThetaTuning.init] at e <;> simp only [fitTheta, e, bind, Except.bind]

/-- C108, part. Training returns an error exactly when the reduced dimension is zero, is larger than the number of
inputs, or is larger than the number of initial hyperparameters when several are given. Missing: the other wrong
numbers of hyperparameters, which panic (`C108_refuted_panics`). -/
theorem C108_error_iff_partial (env : Env) (p : Params) (ncols : ℕ) :
    fit env p ncols = .ok none ↔ ∃ d, p.kpls = some d ∧
      (d = 0 ∨ ncols < d ∨ (1 < p.tuning.init.length ∧ p.tuning.init.length < d)) := by
  have hne : ∀ dim, (fitTheta env dim p.nStart p.maxEval p.tuning >>= fun t => .ok (some t)) ≠ .ok none := by
    intro dim h
    rw [bind_ok] at h
    obtain ⟨a, _, h⟩ := h
    simp at h
  unfold fit Params.check fitDim
  cases hk : p.kpls with
  | none => simpa using hne ncols
  | some d =>
    simp only [Option.some.injEq, exists_eq_left']
    by_cases h0 : d = 0
    · simp [h0]
    · simp only [h0, if_false, false_or]
      by_cases h1 : 1 < p.tuning.init.length ∧ p.tuning.init.length < d
      · simp [h1.1, h1.2]
      · have e : (!(decide (1 < p.tuning.init.length) && decide (p.tuning.init.length < d))) = true := by
          simp only [Bool.not_eq_true', Bool.and_eq_false_iff, decide_eq_false_iff_not]
          by_contra hc
          push Not at hc
          exact h1 hc
        rw [e, if_pos rfl]
        by_cases h2 : ncols < d
        · simp [h2]
        · simp only [h2, if_false, false_or]
          constructor
          · intro h; exact absurd h (hne d)
          · intro h; exact absurd h h1

/-- C108. A training that succeeds was given one initial hyperparameter, or as many as inputs, or as the reduced
dimension; the reduced dimension is at most the number of inputs. -/
theorem C108_success (env : Env) (p : Params) (ncols : ℕ) (theta : List ℝ) (h : fit env p ncols = .ok (some theta)) :
    (p.tuning.init.length = 1 ∨ p.tuning.init.length = wanted p ncols) ∧
    (p.kpls = none ∨ 1 ≤ wanted p ncols) ∧ wanted p ncols ≤ ncols := by
  unfold fit at h
  split_ifs at h with hc
  · unfold fitDim at h
    cases hk : p.kpls with
    | none =>
      simp only [hk, bind_ok] at h
      obtain ⟨t, ht, _⟩ := h
      exact ⟨by simpa [wanted, hk] using fitTheta_expand ht, Or.inl rfl, by simp [wanted, hk]⟩
    | some d =>
      simp only [hk] at h
      split_ifs at h with h2
      · simp only [Except.ok.injEq] at h; cases h
      · simp only [bind_ok] at h
        obtain ⟨t, ht, _⟩ := h
        refine ⟨by simpa [wanted, hk] using fitTheta_expand ht, Or.inr ?_, by simp [wanted, hk]; omega⟩
        simp only [Params.check, hk] at hc
        by_contra h0
        have : d = 0 := by simp [wanted, hk] at h0; omega
        simp [this] at hc
  · simp only [Except.ok.injEq] at h; cases h

/-- **C108 refuted.** A wrong number of initial hyperparameters (several, but neither the number of inputs nor the
reduced dimension) panics: always without dimension reduction, and with it when too many are given. -/
theorem C108_refuted_panics (env : Env) (p : Params) (ncols : ℕ) (h1 : p.tuning.init.length ≠ 1)
    (h2 : p.tuning.init.length ≠ wanted p ncols)
    (h3 : p.kpls = none ∨ (1 ≤ wanted p ncols ∧ wanted p ncols ≤ ncols ∧ wanted p ncols < p.tuning.init.length)) :
    fit env p ncols = .error .other := by
  unfold fit Params.check fitDim
  cases hk : p.kpls with
  | none =>
    simp only [wanted, hk, Option.getD_none] at h2
    simp [fitTheta_wrong h1 h2, bind, Except.bind]
  | some d =>
    simp only [wanted, hk, Option.getD_some] at h2 h3
    rcases h3 with h3 | ⟨h3, h4, h5⟩
    · cases h3
    · have e : ¬ p.tuning.init.length < d := by omega
      simp [show d ≠ 0 by omega, e, show ¬ ncols < d by omega, fitTheta_wrong h1 h2, bind, Except.bind]

/-- Three inputs reduced to two dimensions: a scalar is accepted, four components are too many, and five dimensions are
refused. -/
example (env : Env) (p : Params) :
    fit env { p with kpls := some 2, tuning := .fixed [1] } 3 = .ok (some [1]) ∧
    fit env { p with kpls := some 2, tuning := .fixed [1, 1, 1, 1] } 3 = .error .other ∧
    fit env { p with kpls := some 5, tuning := .fixed [1] } 3 = .ok none := by
  refine ⟨?_, C108_refuted_panics _ _ _ (by simp [ThetaTuning.init]) (by simp [ThetaTuning.init, wanted])
    (Or.inr (by simp [ThetaTuning.init, wanted])), (C108_error_iff_partial _ _ _).2 ⟨5, rfl, by simp⟩⟩
  simp [fit, Params.check, fitDim, fitTheta, expand, bind, Except.bind]

end Verif.Props
