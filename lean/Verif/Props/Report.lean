import Verif.Model.Report
import Verif.Model.PyGp
import Verif.Props.Train
import Verif.Props.TuningDim

/-!
# What a trained model reports (C140)
-/

set_option autoImplicit false

namespace Verif.Props

open Verif Verif.Report Verif.Tuning

/-- An optimizer returns as many values as it is given. -/
def KeepsLength (opt : Optimizer) : Prop := ∀ f x0 b n, (opt f x0 b n).2.length = x0.length

/-- Number of hyperparameters of a fitted model: as many as asked with full tuning, those of the initial value
otherwise. -/
def reported (dim : ℕ) : ThetaTuning → ℕ
  | .fixed init => init.length
  | .full _ _ => dim
  | .part init _ _ => init.length

theorem optimizeActive_length {env : Env} (ho : KeepsLength env.opt) (hsplit : ∀ l, (env.split l).items = l)
    {dim nStart maxEval : ℕ} {theta0 : List ℝ} {bounds : List (ℝ × ℝ)} {active : List ℕ} {r : List ℝ}
    (h : optimizeActive env dim nStart maxEval theta0 bounds active = .ok r) : r.length = active.length := by
  obtain ⟨bs, init, ms, limit, _, hsel, hms, _, rfl⟩ := optimizeActive_ok h
  have hil : init.length = active.length := by
    have := congrArg List.length (select_ok.1 hsel); rw [pickAt_length, List.length_map] at this; exact this.symm
  rw [List.length_map, ← hil]
  have := C30_reduction_selects_first_minimum (List.replicate init.length 1)
    (env.split (ms.1.map fun x0 => optimizeParams env.opt (objective env.nll theta0 active) x0 ms.2 limit))
  rcases this with ⟨_, h2⟩ | ⟨k, h2, _⟩
  · rw [h2]; simp
  · rw [hsplit] at h2
    obtain ⟨x0, hx, he⟩ := List.mem_map.1 (List.mem_of_getElem? h2)
    rw [← he, ← (prepare_ok hms).2.2 x0 hx]
    exact ho _ _ _ _

theorem fitTheta_length {env : Env} (ho : KeepsLength env.opt) (hsplit : ∀ l, (env.split l).items = l)
    {dim nStart maxEval : ℕ} {t : ThetaTuning} {theta : List ℝ}
    (h : fitTheta env dim nStart maxEval t = .ok theta) :
    theta.length = reported dim t ∧ (theta.length = 1 ∨ theta.length = dim) := by
  cases t with
  | fixed init =>
    obtain ⟨rfl, h⟩ := (C48_fixed _ _ _ _ _ _).1 h
    exact ⟨rfl, h⟩
  | full init bounds =>
    simp only [fitTheta, bind_ok] at h
    obtain ⟨theta0, h0, hr⟩ := h
    have := optimizeActive_length ho hsplit hr
    rw [List.length_range] at this
    exact ⟨this, .inr this⟩
  | part init bounds active =>
    have := (C48_inactive_unchanged _ _ _ _ _ _ _ _ h).1
    simp only [fitTheta, bind_ok] at h
    obtain ⟨theta0, h0, _⟩ := h
    refine ⟨this, ?_⟩
    rw [this]
    exact (expand_ok.1 h0).1

theorem mapM_assign_ok (n : ℕ) (es : List Expert) (h : ∀ e ∈ es, e.theta.length = n) :
    es.mapM (fun e => assignRow n e.theta) = .ok (es.map Expert.theta) := by
  induction es with
  | nil => rfl
  | cons e es ih =>
    have h1 : assignRow n e.theta = .ok e.theta := if_pos (h e (by simp))
    simp [List.mapM_cons, h1, ih fun e he => h e (by simp [he]), bind, Except.bind, pure, Except.pure]

theorem mapM_assign_iff (n : ℕ) (es : List Expert) :
    (∃ r, es.mapM (fun e => assignRow n e.theta) = .ok r) ↔ ∀ e ∈ es, e.theta.length = n ∨ e.theta.length = 1 := by
  induction es with
  | nil => simp [pure, Except.pure]
  | cons e es ih =>
    have key : (∃ r, assignRow n e.theta = .ok r) ↔ e.theta.length = n ∨ e.theta.length = 1 := by
      unfold assignRow
      by_cases h : e.theta.length = n
      · simp [h]
      · simp only [h, if_false, false_or]
        rcases e.theta with _ | ⟨a, _ | ⟨b, l⟩⟩ <;> simp
    rw [List.forall_mem_cons, ← ih, ← key, List.mapM_cons]
    cases h1 : assignRow n e.theta with
    | error p => simp [bind, Except.bind]
    | ok v =>
      generalize List.mapM (m := Except Panic) _ es = m
      cases m <;> simp [bind, Except.bind, pure, Except.pure]

/-- C140. When the table of hyperparameters can be built: one expert per cluster, and as many hyperparameters for all
as for the first expert, or one. -/
theorem C140_thetas_iff (n : ℕ) (es : List Expert) :
    (∃ r, thetas n es = .ok r) ↔ ∃ e0, es.head? = some e0 ∧ es.length = n ∧
      ∀ e ∈ es, e.theta.length = e0.theta.length ∨ e.theta.length = 1 := by
  cases es with
  | nil => simp [thetas]
  | cons e0 es =>
    by_cases h : n = (e0 :: es).length
    · have h' : (e0 :: es).length = n := h.symm
      simp only [thetas, h', if_true, mapM_assign_iff, List.head?_cons, Option.some.injEq, true_and, exists_eq_left']
    · simp only [thetas, if_neg h, List.head?_cons, Option.some.injEq, exists_eq_left', reduceCtorEq, exists_false,
        false_iff]
      rintro ⟨h', _⟩
      exact h h'.symm

variable {R G : Type}

/-- Experts are fitted by `fitTheta` with `dim` hyperparameters. -/
def FittedBy (env : Train.Env R G ThetaTuning Expert) (dim : ℕ) : Prop :=
  ∀ ty mean corr t rows e, env.fit ty mean corr t rows = .ok e →
    ∃ (tenv : Tuning.Env) (nStart maxEval : ℕ), KeepsLength tenv.opt ∧ (∀ l, (tenv.split l).items = l) ∧
      fitTheta tenv dim nStart maxEval t = .ok e.theta

/-- C140. Reports of a trained mixture, all clusters having the same tuning (the only possibility from Python): one row of
hyperparameters, one variance and one likelihood per cluster, those of the expert of that cluster. Rows have the length of
the space of hyperparameters when they are tuned, that of the initial value otherwise. -/
theorem C140_reports_partial {env : Train.Env R G ThetaTuning Expert} {fuel nx dim : ℕ} {p : Train.Params G ThetaTuning}
    {data : List (List R)} {m : Train.Mixture R G ThetaTuning Expert} (h : Train.train env fuel p nx data = .ok m)
    (hf : FittedBy env dim) (t : ThetaTuning) (ht : ∀ t' ∈ p.tunings, t' = t) (hg : 0 < env.nClusters m.gmx) :
    thetas (env.nClusters m.gmx) m.experts = .ok (m.experts.map Expert.theta) ∧
      (∀ e ∈ m.experts, e.theta.length = reported dim t) ∧
      variances (env.nClusters m.gmx) m.experts = .ok (m.experts.map Expert.variance) ∧
      likelihoods (env.nClusters m.gmx) m.experts = .ok (m.experts.map Expert.likelihood) ∧
      m.experts.length = env.nClusters m.gmx ∧ m.data = data := by
  obtain ⟨hd, hs⟩ := C120_one_expert_per_cluster h
  have hlen : ∀ e ∈ m.experts, e.theta.length = reported dim t := by
    intro e he
    obtain ⟨c, hc, rfl⟩ := List.mem_iff_getElem.1 he
    obtain ⟨mean, corr, t', _, _, h1, h2, hfit⟩ := hs.trained c hc
    have hm : t' ∈ p.tunings := by
      cases hty : p.gpType with
      | full =>
        rcases h1 hty with h | h
        · rw [h]; simp
        · exact List.mem_of_getElem? h
      | sparse => exact List.mem_of_getElem? (h2 hty)
    obtain ⟨tenv, ns, me, ho, hsp, hfit⟩ := hf _ _ _ _ _ _ hfit
    rw [← ht t' hm]
    exact (fitTheta_length ho hsp hfit).1
  have hc := hs.count
  refine ⟨?_, hlen, if_pos hc.symm, if_pos hc.symm, hc, hd⟩
  rcases hes : m.experts with _ | ⟨e0, es⟩
  · rw [hes] at hc; simp only [List.length_nil] at hc; omega
  · rw [hes] at hlen hc
    simp only [thetas, if_pos hc.symm]
    refine mapM_assign_ok _ _ fun e he => ?_
    rw [hlen e he, hlen e0 (by simp)]

/-- C140. A model fitted again with the hyperparameters it reports, kept fixed, is the same model, whatever the optimizer
and the numbers of starts and evaluations of the second fit. -/
theorem C140_refit (build : List ℝ → Option Expert) {env env' : Tuning.Env} (ho : KeepsLength env.opt)
    (hsplit : ∀ l, (env.split l).items = l) {dim nStart maxEval : ℕ} (nStart' maxEval' : ℕ) {t : ThetaTuning}
    {e : Expert} (h : fitExpert build env dim nStart maxEval t = .ok (some e)) :
    fitExpert build env' dim nStart' maxEval' (.fixed e.theta) = .ok (some e) := by
  simp only [fitExpert, bind_ok, Except.ok.injEq, Option.map_eq_some_iff] at h ⊢
  obtain ⟨theta, h1, e', h2, rfl⟩ := h
  exact ⟨theta, (C48_fixed _ _ _ _ _ _).2 ⟨rfl, (fitTheta_length ho hsplit h1).2⟩, e', h2, rfl⟩

/-- C140. The hyperparameters an expert reports are those its fit retained, with the settings of the parameters. -/
theorem C140_theta_of_fit (build : List ℝ → Option Expert) (env : Tuning.Env) (p : Tuning.Params) {ncols dim : ℕ}
    {theta : List ℝ} {e : Expert} (hd : Tuning.fitDim p.kpls ncols = some dim)
    (hf : Tuning.fit env p ncols = .ok (some theta))
    (he : fitExpert build env dim p.nStart p.maxEval p.tuning = .ok (some e)) : e.theta = theta := by
  simp only [fitExpert, bind_ok, Except.ok.injEq, Option.map_eq_some_iff] at he
  obtain ⟨theta', h1, e', h2, rfl⟩ := he
  unfold Tuning.fit at hf
  split at hf
  · simp only [hd, h1, bind, Except.bind, Except.ok.injEq, Option.some.injEq] at hf
    exact hf
  · simp at hf

/-- C140. How to ask for it in Python: the reported hyperparameters as initial value and a negative number of starts, other
options unchanged. -/
theorem C140_python_refit (c : PyGp.GpConfig) (o : PyGp.Options) (h : PyGp.gpmixOptions c = .ok o) (theta : List ℝ) :
    PyGp.gpmixOptions { c with thetaInit := some theta, nStart := -1 } =
      .ok { o with tuning := .fixed theta, nStart := 0 } := by
  simp only [PyGp.gpmixOptions, bind_ok, Except.ok.injEq] at h
  obtain ⟨t, h1, regr, h2, corr, h3, rfl⟩ := h
  unfold PyGp.tuning at h1
  simp only [PyGp.gpmixOptions, PyGp.tuning, h2, h3]
  cases hb : c.thetaBounds with
  | none => rfl
  | some bounds =>
    simp only [hb, bind_ok] at h1
    obtain ⟨bs, h1, _⟩ := h1
    simp [h1, bind, Except.bind, PyGp.tuningInit, ThetaTuning.init]

/-- The full claim: rows have the length of the space of hyperparameters. It fails when a fixed value has one component
for all (a fit without optimization of the default initial value), in dimension at least two. -/
theorem C140_refuted_shape (env : Tuning.Env) (dim nStart maxEval : ℕ) (hd : 2 ≤ dim) :
    ∃ theta, fitTheta env dim nStart maxEval (.fixed ThetaTuning.dflt.init) = .ok theta ∧ theta.length ≠ dim :=
  ⟨ThetaTuning.dflt.init, (C48_fixed _ _ _ _ _ _).2 ⟨rfl, .inl rfl⟩, by
    simp only [ThetaTuning.dflt, ThetaTuning.init, List.length_cons, List.length_nil]; omega⟩

/-- C140. Trajectories are those of the expert of a mixture with one cluster; with several clusters the call panics. -/
theorem C140_sample {α : Type} (draw : Expert → α) (n : ℕ) (es : List Expert) (h : es.length = n) (a : α) :
    sample draw n es = .ok a ↔ ∃ e, es = [e] ∧ a = draw e := by
  unfold sample
  by_cases h1 : n ≠ 1
  · simp only [if_pos h1, reduceCtorEq, false_iff]
    rintro ⟨e, rfl, _⟩
    exact h1 h.symm
  · simp only [if_neg h1]
    push Not at h1
    rw [h1] at h
    obtain ⟨e, rfl⟩ := List.length_eq_one_iff.1 h
    simp [eq_comm]

/-- Two experts, with and without broadcast, and the panic. -/
example : thetas 2 [⟨[1, 2], 1, 0⟩, ⟨[3, 4], 5, 0⟩] = .ok [[1, 2], [3, 4]] ∧
    thetas 2 [⟨[1, 2], 1, 0⟩, ⟨[3], 5, 0⟩] = .ok [[1, 2], [3, 3]] ∧
    thetas 2 [⟨[3], 1, 0⟩, ⟨[1, 2], 5, 0⟩] = .error .shape := by
  refine ⟨?_, ?_, ?_⟩ <;>
    simp [thetas, assignRow, List.mapM_cons, bind, Except.bind, pure, Except.pure, List.replicate]

/-- A case of `C140_refit`: two hyperparameters tuned by an optimizer that doubles its start. -/
example : ∃ env : Tuning.Env, KeepsLength env.opt ∧ (∀ l, (env.split l).items = l) ∧
    ∃ e, fitExpert (fun _ => some ⟨[], 1, 2⟩) env 2 0 1000 (.full [1] [(1 / 2, 2)]) = .ok (some e) ∧
      e.variance = 1 := by
  refine ⟨⟨fun _ => .fin 0, fun _ x0 _ _ => (some (.fin 0), x0.map (2 * ·)), exRng, fun l => .task l⟩,
    fun _ _ _ _ => by simp, fun l => rfl, ?_⟩
  obtain ⟨theta, h⟩ := C48_full_returns
    ⟨fun _ => .fin 0, fun _ x0 _ _ => (some (.fin 0), x0.map (2 * ·)), exRng, fun l => .task l⟩ exRng_uniform 2 0 1000
    [1] [(1 / 2, 2)] (.inl rfl) (.inl rfl) (by norm_num) (by norm_num)
  exact ⟨⟨theta, 1, 2⟩, by simp only [fitExpert, h, bind, Except.bind, Option.map_some], rfl⟩

end Verif.Props
