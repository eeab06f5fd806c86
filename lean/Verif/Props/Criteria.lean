import Verif.Lemmas.Criteria

/-!
# C36–C39, C71–C74: infill criteria, probability of feasibility, constraint bounds
-/

set_option autoImplicit false

namespace Verif.Props

open Verif Verif.Criteria Verif.Spec Real

variable {d : ℕ}

/-! ## A surrogate used to show that hypotheses can be met -/

/-- Mean `x₀ + 2 x₁`, variance `1 + x₀²`. -/
def exMean (z : Pt 2) : ℝ := z 0 + 2 * z 1
/-- See `exMean`. -/
def exVar (z : Pt 2) : ℝ := 1 + z 0 ^ 2
/-- The gradient of the mean. -/
def exDMean (_ : Pt 2) : Pt 2 := ![1, 2]
/-- The gradient of the variance. -/
def exDVar (z : Pt 2) : Pt 2 := ![2 * z 0, 0]
/-- The surrogate with this mean and variance. -/
def exSurr : Surrogate 2 :=
  ⟨fun z => some (exMean z), fun z => some (exDMean z), fun z => some (exMean z, exVar z),
    fun z => some (exDMean z, exDVar z)⟩

theorem exSurr_describes (x : Pt 2) : Describes exSurr exMean exVar (exDMean x) (exDVar x) x where
  predict _ := rfl
  valvar _ := rfl
  predictGrad := rfl
  valvarGrad := rfl
  gradMean j := by
    fin_cases j
    · have := (hasDerivAt_id (x 0)).add_const (2 * x 1)
      simpa [exMean, exDMean] using this
    · have := ((hasDerivAt_id (x 1)).const_mul 2).const_add (x 0)
      simpa [exMean, exDMean] using this
  gradVar j := by
    fin_cases j
    · have := (hasDerivAt_pow 2 (x 0)).const_add 1
      simpa [exVar, exDVar] using this
    · have := hasDerivAt_const (x 1) (1 + x 0 ^ 2)
      simpa [exVar, exDVar] using this

theorem eps_lt_one : eps < 1 := by
  unfold eps
  exact pow_lt_one₀ (by norm_num) (by norm_num) (by norm_num)

theorem exVar_gt (x : Pt 2) : eps < exVar x := by
  have := eps_lt_one
  unfold exVar
  nlinarith [sq_nonneg (x 0)]

/-! ## C36: expected improvement -/

/-- The value is the expectation of `max(fmin - Y, 0)` where `Y` is normal with the predicted mean and the
predicted variance multiplied by the square of the weight (1 by default). -/
theorem C36_is_expectation (x : Pt d) (s : Surrogate d) (fmin m v : ℝ) (w : Option ℝ)
    (hs : s.valvar x = some (m, v)) (hv : eps ≤ v) (hw : 0 < w.getD 1) (var : NNReal)
    (hvar : (var : ℝ) = w.getD 1 ^ 2 * v) :
    eiValue x s fmin w = expectedImprovement fmin m var := by
  have h0 := sqrt_pos_of_eps hv
  have hv0 : 0 < v := lt_of_lt_of_le eps_pos hv
  rw [expectedImprovement, Gauss.integral_gauss m (w.getD 1 * √v) fmin var (by positivity)
    (by rw [hvar, mul_pow, Real.sq_sqrt hv0.le])]
  simp [eiValue, hs, eiAt, not_lt.2 hv]

/-- The value is never negative. -/
theorem C36_nonneg (x : Pt d) (s : Surrogate d) (fmin : ℝ) (w : Option ℝ) (hw : 0 ≤ w.getD 1) :
    0 ≤ eiValue x s fmin w := by
  unfold eiValue
  split
  · next pred var _ =>
    by_cases hv : var < eps
    · simp [eiAt, hv]
    · rw [eiAt_eq (not_lt.1 hv)]
      have := Gauss.h_nonneg ((fmin - pred) / (w.getD 1 * √var))
      positivity
  · exact le_rfl

/-- Value and gradient are zero where the variance is negligible. -/
theorem C36_negligible (x : Pt d) (s : Surrogate d) (fmin m v : ℝ) (w : Option ℝ)
    (hs : s.valvar x = some (m, v)) (hv : v < 2⁻¹ ^ 52) :
    eiValue x s fmin w = 0 ∧ eiGrad x s fmin w = .ok 0 := by
  have hv' : v < eps := hv
  simp [eiValue, eiGrad, hs, eiAt, hv']

/-- The value is positive where the variance is not negligible: some improvement is always possible. -/
theorem C36_pos (x : Pt d) (s : Surrogate d) (fmin m v : ℝ) (w : Option ℝ)
    (hs : s.valvar x = some (m, v)) (hv : eps ≤ v) (hw : 0 < w.getD 1) : 0 < eiValue x s fmin w := by
  have h0 := sqrt_pos_of_eps hv
  have := Gauss.h_pos ((fmin - m) / (w.getD 1 * √v))
  simp only [eiValue, hs]
  rw [eiAt_eq hv]
  positivity

/-- The gradient is the derivative of the value where the variance is not negligible. -/
theorem C36_gradient (x : Pt d) (s : Surrogate d) (m v : Pt d → ℝ) (dm dv : Pt d) (fmin : ℝ) (w : Option ℝ)
    (hs : Describes s m v dm dv x) (hv : eps < v x) (hw : 0 < w.getD 1) :
    ReturnsGradient (fun z => .ok (eiValue z s fmin w)) (eiGrad x s fmin w) x := by
  refine ⟨fun z => eiValue z s fmin w, eiGradAt fmin (w.getD 1) (m x) (v x) dm dv, fun _ => rfl, ?_, ?_⟩
  · simp [eiGrad, hs.valvar, hs.valvarGrad, not_lt.2 hv.le, unwrap, Except.map]
  · intro j
    have := hasDerivAt_eiAt hw fmin (hs.gradMean j) (hs.gradVar j) (by rwa [update_self'])
    rw [update_self'] at this
    simp only [eiValue, hs.valvar]
    exact this

example : ReturnsGradient (fun z => .ok (eiValue z exSurr 3 none)) (eiGrad ![1, 1] exSurr 3 none) ![1, 1] :=
  C36_gradient _ _ _ _ _ _ _ _ (exSurr_describes _) (exVar_gt _) (by norm_num)

example : eiValue ![1, 1] exSurr 3 none = expectedImprovement 3 3 2 :=
  C36_is_expectation _ _ _ 3 2 none
    (by simp only [exSurr, exMean, exVar]; norm_num) (le_of_lt (by linarith [eps_lt_one])) (by norm_num) 2
    (by norm_num)

/-! ## C71: log expected improvement -/

/-- The value is the logarithm of the expected improvement, exactly unless the current minimum is more
than a million standard deviations below the prediction, and with an error below `4e-12` then. -/
theorem C71_is_log_of_expectation (x : Pt d) (s : Surrogate d) (fmin m v : ℝ)
    (hs : s.valvar x = some (m, v)) (hv : eps ≤ v) (var : NNReal) (hvar : (var : ℝ) = v) :
    (-10 ^ 6 < (fmin - m) / √v → logEiValue x s fmin = log (expectedImprovement fmin m var)) ∧
    |logEiValue x s fmin - log (expectedImprovement fmin m var)| ≤ 4 / 10 ^ 12 := by
  have h0 := sqrt_pos_of_eps hv
  have hv0 : 0 < v := lt_of_lt_of_le eps_pos hv
  have e := C36_is_expectation x s fmin m v none hs hv (by norm_num) var (by simpa using hvar)
  have e1 : log (expectedImprovement fmin m var) = log (Gauss.h ((fmin - m) / √v)) + log √v := by
    rw [← e]
    simp only [eiValue, hs, Option.getD_none]
    rw [eiAt_eq hv, log_mul (by positivity) (Gauss.h_pos _).ne', one_mul]
    ring
  have e2 : logEiValue x s fmin = logEiHelper ((fmin - m) / √v) + log √v := by
    simp [logEiValue, hs, logEiAt, not_lt.2 hv]
  have a : -10 ^ 6 < (fmin - m) / √v → logEiValue x s fmin = log (expectedImprovement fmin m var) := by
    intro hu
    rw [e1, e2, Gauss.logEiHelper_eq hu]
  refine ⟨a, ?_⟩
  by_cases hu : -10 ^ 6 < (fmin - m) / √v
  · rw [a hu, sub_self, abs_zero]; positivity
  · have hu' := not_lt.1 hu
    rw [e1, e2, add_sub_add_right_eq_sub]
    refine (Gauss.logEiHelper_tail hu').trans ?_
    gcongr
    norm_num at hu' ⊢
    nlinarith

/-- The gradient is the derivative of the value, except where the computation switches to the asymptotic
expansion. -/
theorem C71_gradient (x : Pt d) (s : Surrogate d) (m v : Pt d → ℝ) (dm dv : Pt d) (fmin : ℝ)
    (hs : Describes s m v dm dv x) (hv : eps < v x) (hu : (fmin - m x) / √(v x) ≠ -10 ^ 6) :
    ReturnsGradient (fun z => .ok (logEiValue z s fmin)) (logEiGrad x s fmin) x := by
  refine ⟨fun z => logEiValue z s fmin, logEiGradAt fmin (m x) (v x) dm dv, fun _ => rfl, ?_, ?_⟩
  · simp [logEiGrad, hs.valvar, hs.valvarGrad, not_lt.2 hv.le, unwrap, Except.map]
  · intro j
    have := hasDerivAt_logEiAt fmin (hs.gradMean j) (hs.gradVar j) (by rwa [update_self'])
      (by rwa [update_self'])
    rw [update_self'] at this
    simp only [logEiValue, hs.valvar]
    exact this

example : ReturnsGradient (fun z => .ok (logEiValue z exSurr 3)) (logEiGrad ![1, 1] exSurr 3) ![1, 1] :=
  C71_gradient _ _ _ _ _ _ _ (exSurr_describes _) (exVar_gt _) (by simp [exMean]; norm_num)

/-! ## C37: WB2 and WB2S -/

/-- The value is the scaled expected improvement minus the prediction. -/
theorem C37_value_partial (x : Pt d) (s : Surrogate d) (fmin m : ℝ) (c w scale : Option ℝ)
    (hs : s.predict x = some m) :
    (Crit.wb2 c).value x s fmin w scale =
      .ok (scale.getD (c.getD 1) * eiValue x s fmin w - m) := by
  simp [Crit.value, hs, unwrap, Except.map, wb2Scale]

/-- The gradient is the derivative of the value where the variance is not negligible. -/
theorem C37_gradient_partial (x : Pt d) (s : Surrogate d) (m v : Pt d → ℝ) (dm dv : Pt d) (fmin : ℝ)
    (c w scale : Option ℝ) (hs : Describes s m v dm dv x) (hv : eps < v x) (hw : 0 < w.getD 1) :
    ReturnsGradient (fun z => (Crit.wb2 c).value z s fmin w scale) ((Crit.wb2 c).grad x s fmin w scale) x := by
  obtain ⟨f, g, hf, hg, hd⟩ := C36_gradient x s m v dm dv fmin w hs hv hw
  refine ⟨fun z => wb2Scale c scale * f z - m z, fun j => g j * wb2Scale c scale - dm j, ?_, ?_, ?_⟩
  · intro z
    have := hf z
    simp only [Except.ok.injEq] at this
    simp [Crit.value, hs.predict, unwrap, Except.map, this]
  · simp [Crit.grad, hg, hs.predictGrad, unwrap, Except.map, bind, Except.bind]
  · intro j
    exact (((hd j).const_mul (wb2Scale c scale)).sub (hs.gradMean j)).congr_deriv (by ring)

example : ReturnsGradient (fun z => (Crit.wb2 none).value z exSurr 3 none (some 5))
    ((Crit.wb2 none).grad ![1, 1] exSurr 3 none (some 5)) ![1, 1] :=
  C37_gradient_partial _ _ _ _ _ _ _ _ _ _ (exSurr_describes _) (exVar_gt _) (by norm_num)

theorem argmax_spec {l : List (Pt d × ℝ)} {b : Pt d × ℝ} (h : argmax l = .ok b) :
    b ∈ l ∧ ∀ a ∈ l, a.2 ≤ b.2 := by
  cases l with
  | nil => simp [argmax] at h
  | cons a l =>
    simp only [argmax, Except.ok.injEq] at h
    have key : ∀ (l : List (Pt d × ℝ)) (a : Pt d × ℝ),
        (l.foldl (fun m b => if m.2 < b.2 then b else m) a) ∈ a :: l ∧
        a.2 ≤ (l.foldl (fun m b => if m.2 < b.2 then b else m) a).2 ∧
        ∀ c ∈ l, c.2 ≤ (l.foldl (fun m b => if m.2 < b.2 then b else m) a).2 := by
      intro l
      induction l with
      | nil => intro a; simp
      | cons c l ih =>
        intro a
        rw [List.foldl_cons]
        obtain ⟨h1, h2, h3⟩ := ih (if a.2 < c.2 then c else a)
        have hm : a.2 ≤ (if a.2 < c.2 then c else a).2 ∧ c.2 ≤ (if a.2 < c.2 then c else a).2 := by
          split_ifs with hh
          · exact ⟨hh.le, le_rfl⟩
          · exact ⟨le_rfl, not_lt.1 hh⟩
        refine ⟨?_, hm.1.trans h2, ?_⟩
        · rcases List.mem_cons.1 h1 with h1 | h1
          · rw [h1]; split_ifs <;> simp
          · simp [h1]
        · intro e he
          rcases List.mem_cons.1 he with rfl | he
          · exact hm.2.trans h2
          · exact h3 e he
    obtain ⟨h1, h2, h3⟩ := key l a
    rw [h] at h1 h2 h3
    refine ⟨h1, fun c hc => ?_⟩
    rcases List.mem_cons.1 hc with rfl | hc
    · exact h2
    · exact h3 c hc

/-- The scale is 1 when the largest expected improvement of the sample is negligible. -/
theorem C37_scale_one_partial (xs : List (Pt d)) (s : Surrogate d) (m : Pt d → ℝ) (fmin : ℝ) (w : Option ℝ)
    (hw : 0 ≤ w.getD 1) (hxs : xs ≠ []) (hs : ∀ z, s.predict z = some (m z))
    (hneg : ∀ x ∈ xs, eiValue x s fmin w ≤ 100 * 2⁻¹ ^ 52) :
    wb2sScale xs s fmin w = .ok 1 := by
  obtain ⟨x0, xs, rfl⟩ := List.exists_cons_of_ne_nil hxs
  unfold wb2sScale
  cases hb : argmax ((x0 :: xs).map fun x => (x, eiValue x s fmin w)) with
  | error e => simp [argmax] at hb
  | ok b =>
    have hm := (argmax_spec hb).1
    rw [List.mem_map] at hm
    obtain ⟨x, hx, rfl⟩ := hm
    have h1 : |eiValue x s fmin w| ≤ 100 * eps := by
      rw [abs_of_nonneg (C36_nonneg x s fmin w hw)]; exact hneg x hx
    simp [bind, Except.bind, hs, unwrap, Except.map, not_lt.2 h1]

/-- Otherwise the scale times the largest expected improvement is hundred times the size of the prediction
at a point of largest expected improvement, and the scale is positive if this prediction is not zero. -/
theorem C37_scale_partial (xs : List (Pt d)) (s : Surrogate d) (m : Pt d → ℝ) (fmin : ℝ) (w : Option ℝ)
    (hs : ∀ z, s.predict z = some (m z))
    (hbig : ∃ x ∈ xs, 100 * 2⁻¹ ^ 52 < eiValue x s fmin w) :
    ∃ x ∈ xs, (∀ z ∈ xs, eiValue z s fmin w ≤ eiValue x s fmin w) ∧
      ∃ scale, wb2sScale xs s fmin w = .ok scale ∧ scale * eiValue x s fmin w = 100 * |m x| ∧
        (m x ≠ 0 → 0 < scale) := by
  obtain ⟨x1, hx1, hbig⟩ := hbig
  obtain ⟨x0, xs, rfl⟩ := List.exists_cons_of_ne_nil (List.ne_nil_of_mem hx1)
  unfold wb2sScale
  cases hb : argmax ((x0 :: xs).map fun x => (x, eiValue x s fmin w)) with
  | error e => simp [argmax] at hb
  | ok b =>
    have hm := argmax_spec hb
    obtain ⟨hm, hmax⟩ := hm
    rw [List.mem_map] at hm
    obtain ⟨x, hx, rfl⟩ := hm
    have hmax' : ∀ z ∈ x0 :: xs, eiValue z s fmin w ≤ eiValue x s fmin w := by
      intro z hz
      exact hmax (z, _) (List.mem_map.2 ⟨z, hz, rfl⟩)
    have h1 : 100 * eps < eiValue x s fmin w := lt_of_lt_of_le hbig (hmax' x1 hx1)
    have hpos : 0 < eiValue x s fmin w := lt_trans (by have := eps_pos; positivity) h1
    refine ⟨x, hx, hmax', 100 * |m x| / eiValue x s fmin w, ?_, ?_, ?_⟩
    · simp [bind, Except.bind, hs, unwrap, Except.map, abs_of_pos hpos, h1]
    · field_simp
    · intro h; have := abs_pos.2 h; positivity

/-- The scale can be zero: the prediction at the point of largest expected improvement is zero. WB2S is then
minus the prediction, with no exploration. -/
theorem C37_refuted_positive_scale :
    wb2sScale [![0, 0]] exSurr 3 none = .ok 0 := by
  obtain ⟨x, hx, _, sc, hsc, he, _⟩ := C37_scale_partial [![0, 0]] exSurr exMean 3 none
    (fun _ => rfl) ⟨![0, 0], by simp, by
      have e : eiValue ![0, 0] exSurr 3 none = Gauss.h 3 := by
        simp [eiValue, exSurr, exMean, exVar, eiAt, not_lt.2 eps_lt_one.le, Gauss.h]
      rw [e]
      have h1 : Gauss.h 0 ≤ Gauss.h 3 := Gauss.h_strictMono.monotone (by norm_num)
      refine lt_of_lt_of_le ?_ h1
      simp only [Gauss.h, zero_mul, zero_add, normPdf, mul_zero, Real.exp_zero]
      have hs : √(2 * π) ≤ 3 := by
        rw [Real.sqrt_le_left (by norm_num)]
        have := Real.pi_le_four
        norm_num
        linarith
      have : 1 / 3 ≤ 1 / √(2 * π) := by
        apply one_div_le_one_div_of_le (by positivity) hs
      refine lt_of_lt_of_le ?_ this
      norm_num⟩
  rw [List.mem_singleton] at hx
  subst hx
  rw [hsc]
  have hp : 0 < eiValue ![0, 0] exSurr 3 none :=
    C36_pos _ _ _ 0 1 none (by simp [exSurr, exMean, exVar]) eps_lt_one.le (by norm_num)
  have : exMean ![0, 0] = 0 := by simp [exMean]
  rw [this, abs_zero, mul_zero] at he
  rcases mul_eq_zero.1 he with h | h
  · rw [h]
  · exact absurd h hp.ne'

/-! ## C38: probability of feasibility -/

/-- The value is always between 0 and 1. -/
theorem C38_range_partial (x : Pt d) (s : Surrogate d) (tol : ℝ) : 0 ≤ pof x s tol ∧ pof x s tol ≤ 1 := by
  unfold pof
  split
  · unfold pofAt
    split_ifs
    · norm_num
    · exact ⟨Gauss.normCdf_nonneg _, Gauss.normCdf_le_one _⟩
  · norm_num

/-- Where a constraint cannot be predicted it counts as violated. -/
theorem C38_unpredictable (x : Pt d) (s : Surrogate d) (tol : ℝ) (hs : s.valvar x = none) : pof x s tol = 0 := by
  simp [pof, hs]

/-- Where the variance is not negligible it is the probability that the constraint is below its tolerance. -/
theorem C38_is_probability_partial (x : Pt d) (s : Surrogate d) (tol m v : ℝ)
    (hs : s.valvar x = some (m, v)) (hv : eps ≤ v) (var : NNReal) (hvar : (var : ℝ) = v) :
    pof x s tol = probBelow tol m var := by
  have hv0 : 0 < v := lt_of_lt_of_le eps_pos hv
  rw [probBelow, Gauss.prob_eq m (√v) tol var (sqrt_pos_of_eps hv) (by rw [hvar, Real.sq_sqrt hv0.le])]
  simp [pof, hs, pofAt_eq hv]

theorem pofGrad_of (x : Pt d) (s : Surrogate d) (m v : Pt d → ℝ) (dm dv : Pt d) (tol : ℝ)
    (hs : Describes s m v dm dv x) (hv : eps < v x) :
    pofGrad x s tol = .ok (pofGradAt tol (m x) (v x) dm dv) := by
  simp [pofGrad, hs.valvar, hs.valvarGrad, not_lt.2 hv.le, unwrap, Except.map]

/-- Where the variance is not negligible the gradient is the derivative of the value exactly when the
tolerance is zero or the variance is stationary in every component: it is right for zero tolerances only. -/
theorem C38_gradient_iff_partial (x : Pt d) (s : Surrogate d) (m v : Pt d → ℝ) (dm dv : Pt d) (tol : ℝ)
    (hs : Describes s m v dm dv x) (hv : eps < v x) :
    ReturnsGradient (fun z => .ok (pof z s tol)) (pofGrad x s tol) x ↔ ∀ j, tol = 0 ∨ dv j = 0 := by
  have h0 := sqrt_pos_of_eps hv.le
  have hg := pofGrad_of x s m v dm dv tol hs hv
  have hd : IsGradient (fun z => pof z s tol) (fun j => normPdf ((tol - m x) / √(v x)) *
        (dm j / -√(v x) - (tol - m x) * (dv j / (2 * √(v x)) / (√(v x) * √(v x))))) x := by
    intro j
    have := hasDerivAt_pofAt tol (hs.gradMean j) (hs.gradVar j) (by rwa [update_self'])
    rw [update_self'] at this
    simp only [pof, hs.valvar]
    exact this
  have hdiff : ∀ j, pofGradAt tol (m x) (v x) dm dv j - normPdf ((tol - m x) / √(v x)) *
        (dm j / -√(v x) - (tol - m x) * (dv j / (2 * √(v x)) / (√(v x) * √(v x)))) =
      normPdf ((tol - m x) / √(v x)) / (2 * √(v x) ^ 3) * (tol * dv j) := by
    intro j
    simp only [pofGradAt]
    field_simp
    ring
  have hc : normPdf ((tol - m x) / √(v x)) / (2 * √(v x) ^ 3) ≠ 0 := by
    have := Gauss.normPdf_pos ((tol - m x) / √(v x))
    positivity
  constructor
  · rintro ⟨f, g, hf, hgg, hgr⟩ j
    have hf' : f = fun z => pof z s tol := by
      funext z; have := hf z; simp only [Except.ok.injEq] at this; exact this.symm
    subst hf'
    rw [hg, Except.ok.injEq] at hgg
    subst hgg
    have he := congrFun (IsGradient.unique hgr hd) j
    have := hdiff j
    rw [he, sub_self] at this
    rcases mul_eq_zero.1 this.symm with h | h
    · exact absurd h hc
    · exact mul_eq_zero.1 h
  · intro h
    refine ⟨_, _, fun _ => rfl, hg, ?_⟩
    have : pofGradAt tol (m x) (v x) dm dv = fun j => normPdf ((tol - m x) / √(v x)) *
        (dm j / -√(v x) - (tol - m x) * (dv j / (2 * √(v x)) / (√(v x) * √(v x)))) := by
      funext j
      have h1 := hdiff j
      have h2 : tol * dv j = 0 := by rcases h j with h | h <;> simp [h]
      rw [h2, mul_zero] at h1
      linarith
    rw [this]
    exact hd

example : ReturnsGradient (fun z => .ok (pof z exSurr 0)) (pofGrad ![1, 1] exSurr 0) ![1, 1] :=
  (C38_gradient_iff_partial _ _ _ _ _ _ _ (exSurr_describes _) (exVar_gt _)).2 fun _ => .inl rfl

/-- With a non-zero tolerance the gradient is not the derivative. -/
theorem C38_refuted_tolerance :
    ¬ ReturnsGradient (fun z => .ok (pof z exSurr 1)) (pofGrad ![1, 1] exSurr 1) ![1, 1] := by
  rw [C38_gradient_iff_partial _ _ _ _ _ _ _ (exSurr_describes _) (exVar_gt _)]
  intro h
  have := h 0
  simp [exDVar] at this

/-- Where the variance is negligible (at a data point) the value is 0 even though the predicted constraint is
far below its tolerance. -/
theorem C38_refuted_data_point :
    ∃ s : Surrogate 1, ∃ x : Pt 1, s.valvar x = some (-10, 0) ∧ pof x s 0 = 0 :=
  ⟨⟨fun _ => none, fun _ => none, fun _ => some (-10, 0), fun _ => none⟩, 0, rfl, by
    simp [pof, pofAt, eps_pos]⟩

/-! ## C72: several constraints, constrained criterion -/

/-- The probability of feasibility of several constraints is the product and lies in `[0, 1]`; its gradient is
the derivative, and so is the gradient of the logarithm while no probability is negligible. -/
theorem C72_feasibility_of_all_partial (x : Pt d) (cs : List (Surrogate d)) (tols : List ℝ)
    (hc : ∀ p ∈ cs.zip tols, p.2 = 0 ∧ ∃ m v dm dv, Describes p.1 m v dm dv x ∧ eps < v x) :
    pofs x cs tols = ((cs.zip tols).map fun p => pof x p.1 p.2).prod ∧
    0 ≤ pofs x cs tols ∧ pofs x cs tols ≤ 1 ∧
    ReturnsGradient (fun z => .ok (pofs z cs tols)) (pofsGrad x cs tols) x ∧
    ((∀ p ∈ cs.zip tols, eps < pof x p.1 p.2) →
      logpofs x cs tols = log (pofs x cs tols) ∧
      ReturnsGradient (fun z => .ok (logpofs z cs tols)) (logpofsGrad x cs tols) x) := by
  have H : ∀ p ∈ cs.zip tols, ∃ g, pofGrad x p.1 p.2 = .ok g ∧ IsGradient (fun z => pof z p.1 p.2) g x := by
    intro p hp
    obtain ⟨h0, m, v, dm, dv, hD, hv⟩ := hc p hp
    obtain ⟨f, g, hf, hg, hgr⟩ := (C38_gradient_iff_partial x p.1 m v dm dv p.2 hD hv).2 fun _ => .inl h0
    refine ⟨g, hg, ?_⟩
    have hf' : f = fun z => pof z p.1 p.2 := by
      funext z; have := hf z; simp only [Except.ok.injEq] at this; exact this.symm
    rwa [hf'] at hgr
  refine ⟨pofs_eq x cs tols, ?_, ?_, ?_, ?_⟩
  · rw [pofs_eq]
    refine List.prod_nonneg fun a ha => ?_
    obtain ⟨p, _, rfl⟩ := List.mem_map.1 ha
    exact (C38_range_partial _ _ _).1
  · rw [pofs_eq]
    generalize cs.zip tols = l
    induction l with
    | nil => simp
    | cons p l ih =>
      simp only [List.map_cons, List.prod_cons]
      have h1 := C38_range_partial x p.1 p.2
      have h2 : 0 ≤ (List.map (fun p : Surrogate d × ℝ => pof x p.1 p.2) l).prod := by
        refine List.prod_nonneg fun a ha => ?_
        obtain ⟨p, _, rfl⟩ := List.mem_map.1 ha
        exact (C38_range_partial _ _ _).1
      exact mul_le_one₀ h1.2 h2 ih
  · obtain ⟨g, hg, hgr⟩ := pofsGrad_spec x cs tols H
    exact ⟨_, g, fun _ => rfl, hg, hgr⟩
  · intro hp
    constructor
    · rw [pofs_eq, logpofs_eq]
      clear hc H
      generalize cs.zip tols = l at hp ⊢
      induction l with
      | nil => simp
      | cons p l ih =>
        have h1 := hp p (by simp)
        have ih' := ih fun q hq => hp q (by simp [hq])
        simp only [List.map_cons, List.prod_cons, List.sum_cons]
        rw [ih', max_eq_left h1.le, log_mul (lt_trans eps_pos h1).ne' (List.prod_pos ?_).ne']
        intro a ha
        obtain ⟨q, hq, rfl⟩ := List.mem_map.1 ha
        exact lt_trans eps_pos (hp q (by simp [hq]))
    · obtain ⟨g, hg, hgr⟩ := logpofsGrad_spec x cs tols H hp
      exact ⟨_, g, fun _ => rfl, hg, hgr⟩

example : ∀ p ∈ [exSurr, exSurr].zip [0, 0], p.2 = 0 ∧ ∃ m v dm dv, Describes p.1 m v dm dv ![1, 1] ∧ eps < v ![1, 1] := by
  intro p hp
  simp at hp
  subst hp
  exact ⟨rfl, _, _, _, _, exSurr_describes _, exVar_gt _⟩

/-- With one constraint the gradient is the derivative exactly when the tolerance is zero or the variance is stationary,
as for `pof`. -/
theorem C72_single_iff_partial (x : Pt d) (s : Surrogate d) (m v : Pt d → ℝ) (dm dv : Pt d) (tol : ℝ)
    (hs : Describes s m v dm dv x) (hv : eps < v x) :
    ReturnsGradient (fun z => .ok (pofs z [s] [tol])) (pofsGrad x [s] [tol]) x ↔ ∀ j, tol = 0 ∨ dv j = 0 := by
  rw [← C38_gradient_iff_partial x s m v dm dv tol hs hv]
  have h1 : (fun z : Pt d => (Except.ok (pofs z [s] [tol]) : Except Panic ℝ)) = fun z => .ok (pof z s tol) := by
    funext z
    simp [pofs]
  have h2 : pofsGrad x [s] [tol] = pofGrad x s tol := by
    rw [pofsGrad, pofGrad_of x s m v dm dv tol hs hv]
    simp [othersProduct, pofGrad_of x s m v dm dv tol hs hv, bind, Except.bind, pure, Except.pure, Except.map]
  rw [h1, h2]

/-- With one constraint and a tolerance that is not zero the gradient is not the derivative. -/
theorem C72_refuted_tolerance :
    ¬ ReturnsGradient (fun z => .ok (pofs z [exSurr] [1])) (pofsGrad ![1, 1] [exSurr] [1]) ![1, 1] := by
  rw [C72_single_iff_partial _ _ _ _ _ _ _ (exSurr_describes _) (exVar_gt _)]
  intro h
  have := h 0
  simp [exDVar] at this

theorem prod_le_prod_max (l : List ℝ) (h0 : ∀ a ∈ l, 0 ≤ a) :
    0 ≤ l.prod ∧ 0 < (l.map fun a => max a eps).prod ∧ l.prod ≤ (l.map fun a => max a eps).prod ∧
    ((l.map fun a => max a eps).prod = l.prod ↔ ∀ a ∈ l, eps ≤ a) := by
  induction l with
  | nil => simp
  | cons a l ih =>
    obtain ⟨i1, i2, i3, i4⟩ := ih fun b hb => h0 b (List.mem_cons_of_mem _ hb)
    have ha := h0 a List.mem_cons_self
    have hm : 0 < max a eps := lt_max_of_lt_right eps_pos
    simp only [List.map_cons, List.prod_cons]
    refine ⟨mul_nonneg ha i1, mul_pos hm i2, mul_le_mul (le_max_left _ _) i3 i1 hm.le, ?_⟩
    rw [List.forall_mem_cons, ← i4]
    constructor
    · intro he
      by_contra hn
      have : a * l.prod < max a eps * (l.map fun a => max a eps).prod := by
        by_cases hae : eps ≤ a
        · have hlt : l.prod < (l.map fun a => max a eps).prod :=
            lt_of_le_of_ne i3 fun e => hn ⟨hae, e.symm⟩
          rw [max_eq_left hae]
          exact mul_lt_mul_of_pos_left hlt (lt_of_lt_of_le eps_pos hae)
        · push Not at hae
          rw [max_eq_right hae.le]
          calc a * l.prod ≤ a * (l.map fun a => max a eps).prod := mul_le_mul_of_nonneg_left i3 ha
            _ < _ := mul_lt_mul_of_pos_right hae i2
      exact this.ne' he
    · rintro ⟨hae, he⟩
      rw [max_eq_left hae, he]

/-- The sum of logarithms is that of a probability at least as large, the product of the probabilities raised to the
machine precision; it is the logarithm of the probability that all constraints hold if and only if none of them is below
the machine precision. -/
theorem C72_log_iff (x : Pt d) (cs : List (Surrogate d)) (tols : List ℝ) :
    exp (logpofs x cs tols) = ((cs.zip tols).map fun p => max (pof x p.1 p.2) eps).prod ∧
    pofs x cs tols ≤ exp (logpofs x cs tols) ∧
    (exp (logpofs x cs tols) = pofs x cs tols ↔ ∀ p ∈ cs.zip tols, eps ≤ pof x p.1 p.2) := by
  have h1 : exp (logpofs x cs tols) = ((cs.zip tols).map fun p => max (pof x p.1 p.2) eps).prod := by
    rw [logpofs_eq]
    induction cs.zip tols with
    | nil => simp
    | cons p l ih =>
      rw [List.map_cons, List.sum_cons, exp_add, ih, exp_log (lt_max_of_lt_right eps_pos), List.map_cons,
        List.prod_cons]
  obtain ⟨-, -, h3, h4⟩ := prod_le_prod_max ((cs.zip tols).map fun p => pof x p.1 p.2) fun a ha => by
    obtain ⟨p, -, rfl⟩ := List.mem_map.1 ha
    exact (C38_range_partial _ _ _).1
  rw [List.map_map] at h3 h4
  refine ⟨h1, ?_, ?_⟩
  · rw [h1, pofs_eq]
    exact h3
  · rw [h1, pofs_eq]
    refine h4.trans ?_
    simp only [List.mem_map, forall_exists_index, and_imp, forall_apply_eq_imp_iff₂]

/-- A constraint that is surely violated (it cannot be predicted) has the logarithm of the machine precision. -/
theorem C72_refuted_log : ∃ s : Surrogate 1, ∃ x : Pt 1,
    pofs x [s] [0] = 0 ∧ exp (logpofs x [s] [0]) = eps ∧ eps ≠ 0 := by
  refine ⟨⟨fun _ => none, fun _ => none, fun _ => none, fun _ => none⟩, 0, ?_, ?_, eps_pos.ne'⟩
  · simp [pofs, pof]
  · rw [(C72_log_iff _ _ _).1]
    simp [pof, eps_pos.le]

/-! ## C73: objective and gradient given to the internal optimizer -/

/-- The objective given to the internal optimizer is minus the criterion divided by the scale and, if the
weight of the standard deviation is 1, the given gradient is its derivative. -/
theorem C73_objective_gradient_partial (c : Crit) (x : Pt d) (s : Surrogate d) (m v : Pt d → ℝ) (dm dv : Pt d)
    (fmin scale scaleIc : ℝ) (hs : Describes s m v dm dv x) (hv : eps < v x)
    (hu : c = .logEi → (fmin - m x) / √(v x) ≠ -10 ^ 6) :
    ReturnsGradient (fun z => evalInfillObj c z s fmin scale scaleIc 1)
      (evalGradInfillObj c x s fmin scale scaleIc) x := by
  have key : ReturnsGradient (fun z => c.value z s fmin (some 1) (some scaleIc))
      (c.grad x s fmin none (some scaleIc)) x := by
    cases c with
    | ei => exact C36_gradient x s m v dm dv fmin none hs hv (by norm_num)
    | logEi => exact C71_gradient x s m v dm dv fmin hs hv (hu rfl)
    | wb2 c => exact C37_gradient_partial x s m v dm dv fmin c none (some scaleIc) hs hv (by norm_num)
  obtain ⟨f, g, hf, hg, hgr⟩ := key
  refine ⟨fun z => -f z / scale, fun j => -g j / scale, ?_, ?_, ?_⟩
  · intro z
    have := hf z
    simp only at this
    simp [evalInfillObj, this, Except.map]
  · simp [evalGradInfillObj, hg, Except.map]
  · intro j
    exact ((hgr j).neg).div_const scale

/-- With another weight (portfolio of criteria) the gradient is not the derivative of the objective: it is
computed without the weight. -/
theorem C73_refuted_weight :
    ¬ ReturnsGradient (fun z => evalInfillObj .ei z exSurr 3 1 1 2)
      (evalGradInfillObj .ei ![1, 1] exSurr 3 1 1) ![1, 1] := by
  rintro ⟨f, g, hf, hg, hgr⟩
  obtain ⟨f1, g1, hf1, hg1, hgr1⟩ := C36_gradient ![1, 1] exSurr exMean exVar _ _ 3 none
    (exSurr_describes _) (exVar_gt _) (by norm_num)
  obtain ⟨f2, g2, hf2, hg2, hgr2⟩ := C36_gradient ![1, 1] exSurr exMean exVar _ _ 3 (some 2)
    (exSurr_describes _) (exVar_gt _) (by norm_num)
  have e1 : f = fun z => -f2 z := by
    funext z
    have h1 := hf z
    have h2 := hf2 z
    simp only [evalInfillObj, Crit.value, Except.map, Except.ok.injEq, div_one] at h1 h2
    rw [← h1, ← h2]
  have e2 : g = fun j => -g1 j := by
    simp only [evalGradInfillObj, Crit.grad, hg1, Except.map, Except.ok.injEq, div_one] at hg
    exact hg.symm
  have h3 := (hgr 0)
  rw [e1, e2] at h3
  have h4 := ((hgr2 0).neg).unique h3
  have hv : ¬ ((2 : ℝ) < eps) := not_lt.2 (by linarith [eps_lt_one])
  have hv' : ¬ ((1 : ℝ) + 1 < eps) := not_lt.2 (by linarith [eps_lt_one])
  have hn : (1 : ℝ) + 2 = 3 := by norm_num
  have hA : g1 0 = eiGradAt 3 1 3 2 ![1, 2] ![2, 0] 0 := by
    simp [eiGrad, exSurr, exVar, exMean, exDMean, exDVar, unwrap, Except.map, hv', hn] at hg1
    rw [← hg1]; norm_num
  have hB : g2 0 = eiGradAt 3 2 3 2 ![1, 2] ![2, 0] 0 := by
    simp [eiGrad, exSurr, exVar, exMean, exDMean, exDVar, unwrap, Except.map, hv', hn] at hg2
    rw [← hg2]; norm_num
  beta_reduce at h4
  rw [hA, hB] at h4
  have hp := Gauss.normPdf_pos 0
  simp [eiGradAt] at h4
  exact hp.ne' h4

/-- With surrogate constraints included in the criterion: the objective is the criterion times the probability
of feasibility (LogEI: the sum of the logarithms; only the feasibility while no feasible point is known). The
given gradient is its derivative if the weight of the standard deviation is 1, tolerances are zero and, with
LogEI, no probability of feasibility is negligible. -/
theorem C73_constrained_gradient_partial (c : Crit) (x : Pt d) (s : Surrogate d) (m v : Pt d → ℝ) (dm dv : Pt d)
    (cs : List (Surrogate d)) (tols : List ℝ)
    (fmin scale scaleIc : ℝ) (feasibility : Bool) (hs : Describes s m v dm dv x) (hv : eps < v x)
    (hu : c = .logEi → (fmin - m x) / √(v x) ≠ -10 ^ 6) (hcs : cs ≠ [])
    (hc : ∀ p ∈ cs.zip tols, p.2 = 0 ∧ ∃ m v dm dv, Describes p.1 m v dm dv x ∧ eps < v x)
    (hp : c = .logEi → ∀ p ∈ cs.zip tols, eps < pof x p.1 p.2) :
    ReturnsGradient (fun z => evalInfillObjWithCstrs c z s cs tols fmin scale scaleIc feasibility 1)
      (evalGradInfillObjWithCstrs c x s cs tols fmin scale scaleIc feasibility 1) x := by
  obtain ⟨f, g, hf, hg, hgr⟩ := C73_objective_gradient_partial c x s m v dm dv fmin scale scaleIc hs hv hu
  obtain ⟨-, -, -, ⟨P, pg, hP, hpg, hpgr⟩, hlog⟩ := C72_feasibility_of_all_partial x cs tols hc
  have hP' : P = fun z => pofs z cs tols := by
    funext z; have := hP z; simp only [Except.ok.injEq] at this; exact this.symm
  subst hP'
  have hne : cs.isEmpty = false := by cases cs <;> simp_all
  cases hL : c.isLogEi with
  | true =>
    have hcl : c = .logEi := by cases c <;> simp_all [Crit.isLogEi]
    obtain ⟨L, lg, hL', hlg, hlgr⟩ := (hlog (hp hcl)).2
    have hL'' : L = fun z => logpofs z cs tols := by
      funext z; have := hL' z; simp only [Except.ok.injEq] at this; exact this.symm
    subst hL''
    cases feasibility with
    | true =>
      refine ⟨fun z => f z - logpofs z cs tols, fun j => g j - lg j, fun z => ?_, ?_, fun j => ?_⟩
      · have := hf z
        simp only at this
        simp [evalInfillObjWithCstrs, this, hL, Except.map]
      · simp [evalGradInfillObjWithCstrs, hne, hL, hg, hlg, bind, Except.bind, Except.map]
      · exact (hgr j).sub (hlgr j)
    | false =>
      refine ⟨fun z => 0 - logpofs z cs tols, fun j => 0 - lg j, fun z => ?_, ?_, fun j => ?_⟩
      · simp [evalInfillObjWithCstrs, hL, Except.map]
      · simp [evalGradInfillObjWithCstrs, hne, hL, hlg, bind, Except.bind, Except.map]
      · exact (hlgr j).const_sub 0 |>.congr_deriv (by ring)
  | false =>
    cases feasibility with
    | true =>
      refine ⟨fun z => f z * pofs z cs tols, fun j => g j * pofs x cs tols + pg j * f x, fun z => ?_, ?_,
        fun j => ?_⟩
      · have := hf z
        simp only at this
        simp [evalInfillObjWithCstrs, this, hL, Except.map]
      · have := hf x
        simp only at this
        simp [evalGradInfillObjWithCstrs, infillAndGrad, hne, hL, hg, hpg, this, bind, Except.bind, Except.map]
      · refine ((hgr j).mul (hpgr j)).congr_deriv ?_
        simp only [update_self']
        ring
    | false =>
      refine ⟨fun z => -1 * pofs z cs tols, fun j => 0 * pofs x cs tols + pg j * -1, fun z => ?_, ?_,
        fun j => ?_⟩
      · simp [evalInfillObjWithCstrs, hL, Except.map]
      · simp [evalGradInfillObjWithCstrs, infillAndGrad, hne, hL, hpg, bind, Except.bind, Except.map]
      · refine ((hpgr j).const_mul (-1)).congr_deriv ?_
        ring

/-! ## C39: upper trust bound -/

/-- The value is the prediction plus three standard deviations, scaled; the gradient is the derivative exactly
when all components of the gradient of the variance are equal to the first one. -/
theorem C39_gradient_iff_partial (s : Surrogate (d + 1)) (x : Pt (d + 1)) (m v : Pt (d + 1) → ℝ) (dm dv : Pt (d + 1))
    (scale : ℝ) (hsc : scale ≠ 0) (hs : Describes s m v dm dv x) (hv : eps ≤ √(v x)) :
    (∀ z, utbCstr s z scale = .ok ((m z + 3 * √(v z)) / scale)) ∧
    (ReturnsGradient (fun z => utbCstr s z scale) (utbCstrGrad s x scale) x ↔ ∀ j, dv j = dv 0) := by
  have hval : ∀ z, utbCstr s z scale = .ok ((m z + 3 * √(v z)) / scale) := by
    intro z
    simp [utbCstr, hs.valvar, unwrap, Except.map]
  have h0 : 0 < √(v x) := lt_of_lt_of_le eps_pos hv
  have hvx : v x ≠ 0 := by
    intro h; rw [h, Real.sqrt_zero] at h0; exact lt_irrefl _ h0
  have hg : utbCstrGrad s x scale = .ok fun j => (dm j + 3 * (dv 0 / (2 * √(v x)))) / scale := by
    simp [utbCstrGrad, hs.valvar, hs.valvarGrad, unwrap, Except.map, bind, Except.bind, not_lt.2 hv]
  have hd : IsGradient (fun z => (m z + 3 * √(v z)) / scale)
      (fun j => (dm j + 3 * (dv j / (2 * √(v x)))) / scale) x := by
    intro j
    have h1 := (hs.gradVar j).sqrt (by rwa [update_self'])
    have h2 := ((hs.gradMean j).add (h1.const_mul 3)).div_const scale
    refine h2.congr_deriv ?_
    rw [update_self']
  refine ⟨hval, ?_⟩
  constructor
  · rintro ⟨f, g, hf, hgg, hgr⟩ j
    have hf' : f = fun z => (m z + 3 * √(v z)) / scale := by
      funext z; have := hf z; beta_reduce at this; rw [hval, Except.ok.injEq] at this; exact this.symm
    subst hf'
    rw [hg, Except.ok.injEq] at hgg
    have := congrFun (IsGradient.unique hgr hd) j
    rw [← hgg] at this
    field_simp at this
    linarith
  · intro h
    refine ⟨_, _, hval, hg, ?_⟩
    have : (fun j => (dm j + 3 * (dv 0 / (2 * √(v x)))) / scale) =
        fun j => (dm j + 3 * (dv j / (2 * √(v x)))) / scale := by
      funext j; rw [h j]
    rw [this]
    exact hd

/-- In dimension one the gradient is the derivative. -/
theorem C39_one_variable_partial (s : Surrogate 1) (x : Pt 1) (m v : Pt 1 → ℝ) (dm dv : Pt 1)
    (scale : ℝ) (hsc : scale ≠ 0) (hs : Describes s m v dm dv x) (hv : eps ≤ √(v x)) :
    ReturnsGradient (fun z => utbCstr s z scale) (utbCstrGrad s x scale) x :=
  (C39_gradient_iff_partial s x m v dm dv scale hsc hs hv).2.2 fun j => by
    rw [show j = 0 from Subsingleton.elim (α := Fin 1) j 0]

/-- In dimension two it is not: the second component uses the derivative of the variance along the first
variable. -/
theorem C39_refuted_two_variables :
    ¬ ReturnsGradient (fun z => utbCstr exSurr z 1) (utbCstrGrad exSurr ![1, 1] 1) ![1, 1] := by
  rw [(C39_gradient_iff_partial exSurr ![1, 1] exMean exVar _ _ 1 one_ne_zero (exSurr_describes _) (by
    have : (1 : ℝ) ≤ √(exVar ![1, 1]) := by
      rw [Real.one_le_sqrt]; simp [exVar]
    linarith [eps_lt_one])).2]
  intro h
  have := h 1
  simp [exDVar] at this

/-- The mean constraint strategy has the right gradient in every dimension. -/
theorem C39_mean_strategy_partial (s : Surrogate d) (x : Pt d) (m v : Pt d → ℝ) (dm dv : Pt d) (scale : ℝ)
    (hs : Describes s m v dm dv x) :
    ReturnsGradient (fun z => meanCstr s z scale) (meanCstrGrad s x scale) x := by
  refine ⟨fun z => m z / scale, fun j => dm j / scale, fun z => ?_, ?_, fun j => (hs.gradMean j).div_const scale⟩
  · simp [meanCstr, hs.predict, unwrap, Except.map]
  · simp [meanCstrGrad, hs.predictGrad, unwrap, Except.map]

/-! ## C74: scalings -/

theorem foldl_max_ge (l : List ℝ) (a : ℝ) : a ≤ l.foldl max a ∧ ∀ b ∈ l, b ≤ l.foldl max a := by
  induction l generalizing a with
  | nil => simp
  | cons c l ih =>
    rw [List.foldl_cons]
    obtain ⟨h1, h2⟩ := ih (max a c)
    refine ⟨(le_max_left _ _).trans h1, fun b hb => ?_⟩
    rcases List.mem_cons.1 hb with rfl | hb
    · exact (le_max_right _ _).trans h1
    · exact h2 b hb

/-- The scale of the infill objective is always positive, and dividing by it brings the values of the sample
into `[-1, 1]`. -/
theorem C74_infill_scale_partial (c : Crit) (cstrInfill : Bool) (xs : List (Pt d)) (crit : Pt d → ℝ)
    (cs : List (Surrogate d)) (tols : List ℝ) (obj : Pt d → ℝ)
    (hobj : ∀ x, obj x = if cstrInfill then
      (if c.isLogEi then crit x - logpofs x cs tols else crit x * pofs x cs tols) else crit x) :
    0 < infillObjScale c cstrInfill xs crit cs tols ∧
    ∀ x ∈ xs, |obj x / infillObjScale c cstrInfill xs crit cs tols| ≤ 1 := by
  unfold infillObjScale
  simp only [← hobj]
  cases xs with
  | nil =>
    have h1 : ¬ ((1 : ℝ) < 100 * eps) := by
      rw [not_lt]; unfold eps; norm_num
    simp [h1]
  | cons x0 xs =>
    simp only [List.map_cons]
    set M := List.foldl max |obj x0| (List.map (fun v => |v|) (List.map (fun x => obj x) xs)) with hM
    have hge := foldl_max_ge (List.map (fun v => |v|) (List.map (fun x => obj x) xs)) |obj x0|
    rw [← hM] at hge
    have hall : ∀ x ∈ x0 :: xs, |obj x| ≤ M := by
      intro x hx
      rcases List.mem_cons.1 hx with rfl | hx
      · exact hge.1
      · exact hge.2 _ (List.mem_map.2 ⟨obj x, List.mem_map.2 ⟨x, hx, rfl⟩, rfl⟩)
    have he := eps_pos
    have hsmall : 100 * eps < 1 := by unfold eps; norm_num
    split_ifs with h
    · refine ⟨one_pos, fun x hx => ?_⟩
      rw [div_one]
      linarith [hall x hx]
    · have hMpos : 0 < M := lt_of_lt_of_le (by positivity) (not_lt.1 h)
      refine ⟨hMpos, fun x hx => ?_⟩
      rw [abs_div, abs_of_pos hMpos, div_le_one hMpos]
      exact hall x hx

/-- The scale of a constraint is zero when the predictions at the sample are all zero; the constraint given to
the internal optimizer is then divided by zero. -/
theorem C74_refuted_constraint_scale : cstrScale [0, 0, 0] = 0 := by
  simp [cstrScale]

/-- The scale of a constraint is positive if some prediction of the sample is not zero. -/
theorem C74_constraint_scale_partial (preds : List ℝ) (h : preds = [] ∨ ∃ p ∈ preds, p ≠ 0) :
    0 < cstrScale preds := by
  unfold cstrScale
  cases preds with
  | nil => simp
  | cons p0 l =>
    simp only [List.map_cons]
    have hge := foldl_max_ge (List.map (fun v => |v|) l) |p0|
    rcases h with h | ⟨p, hp, h0⟩
    · simp at h
    · have := abs_pos.2 h0
      rcases List.mem_cons.1 hp with rfl | hp
      · linarith [hge.1]
      · linarith [hge.2 _ (List.mem_map.2 ⟨p, hp, rfl⟩)]

end Verif.Props
