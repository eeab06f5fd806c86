import Verif.Model.Result
import Verif.Spec.Result
import Verif.Props.RunCstr
import Verif.Props.RunBest
import Verif.Props.Config

/-!
# Properties of the end of a run, of its result and of suggestions (C98, C99, C100)
-/

set_option autoImplicit false

namespace Verif.Props

open Verif Spec FindResult MixInt Run Result

/-! ## C98 -/

theorem run_best {cfg : Cfg} {P : Prob} {doe : Doe} {os : List Oracle} {s : St} (h : run cfg P doe os = .ok s) :
    (∃ p, s.bestParam = some p ∧ s.data.x[s.best]? = some p) ∧
      (∃ c, s.bestCost = some c ∧ s.data.y.rows[s.best]? = some c) ∧ s.maxIters = cfg.maxIters ∧
      s.iter ≤ cfg.maxIters := by
  simp only [run, bind_ok] at h
  obtain ⟨s0, h0, h⟩ := h
  have hi := init_spec h0
  have hu : ∀ t t' : St, update t = .ok t' → (∃ p, t'.bestParam = some p ∧ t'.data.x[t'.best]? = some p) ∧
      (∃ c, t'.bestCost = some c ∧ t'.data.y.rows[t'.best]? = some c) := by
    intro t t' ht
    simp only [update, bind_ok] at ht
    obtain ⟨cost, hc, ht⟩ := ht
    cases hx : t.data.x[t.best]? with
    | none => simp [hx] at ht
    | some p =>
      simp only [hx, Except.ok.injEq] at ht
      subst ht
      refine ⟨⟨p, rfl, hx⟩, cost, rfl, ?_⟩
      unfold row at hc
      split at hc
      · simp only [Except.ok.injEq] at hc; subst hc; assumption
      · simp at hc
  refine loop_induction (fun t => (∃ p, t.bestParam = some p ∧ t.data.x[t.best]? = some p) ∧
      (∃ c, t.bestCost = some c ∧ t.data.y.rows[t.best]? = some c) ∧ t.maxIters = cfg.maxIters ∧
      t.iter ≤ cfg.maxIters) ?_ h ?_
  · rintro t t' o xs us _ ⟨_, _, h3, h4⟩ hst ht hT
    simp only [turn, bind_ok, Except.ok.injEq] at ht
    obtain ⟨s1, _, s2, h2, rfl⟩ := ht
    obtain ⟨e1, e2⟩ := hu _ _ h2
    refine ⟨e1, e2, hT.maxIters.trans h3, ?_⟩
    rw [hT.iter]
    simp only [stops, Bool.or_eq_false_iff, decide_eq_false_iff_not, ge_iff_le, not_le] at hst
    have := hst.1.2
    omega
  · simp only [init, bind_ok] at h0
    obtain ⟨_, _, _, _, _, _, _, _, h0⟩ := h0
    obtain ⟨e1, e2⟩ := hu _ _ h0
    exact ⟨e1, e2, hi.2.2.2.2.2.2.2.2.2.2.2.2.2.1, by rw [hi.2.2.2.2.2.2.2.2.2.2.1]; omega⟩

/-- C98. The number of iterations never exceeds `max_iters`, and at most `max_iters * max(q_points, 1)` points are
added to the initial design. -/
theorem C98_iteration_budget (cfg : Cfg) (P : Prob) (doe : Doe) (os : List Oracle) (s : St)
    (h : run cfg P doe os = .ok s) :
    s.iter ≤ cfg.maxIters ∧ s.data.x.length ≤ doe.size + cfg.maxIters * max cfg.qPoints 1 := by
  have hle := (run_best h).2.2.2
  refine ⟨hle, ?_⟩
  have key : s.data.x.length ≤ doe.size + s.iter * max cfg.qPoints 1 := by
    have hrun := h
    simp only [run, bind_ok] at h
    obtain ⟨s0, h0, h⟩ := h
    obtain ⟨s00, _, h00, _, h2, _⟩ := run_ext hrun
    have e0 : s00 = s0 := by rw [h00] at h0; exact Except.ok.inj h0
    subst e0
    refine loop_induction (fun t => t.data.x.length ≤ doe.size + t.iter * max cfg.qPoints 1) ?_ h (by omega)
    intro t t' o xs us _ hI _ _ ht
    have hx := congrArg List.length ht.ext.x
    rw [List.length_append] at hx
    have hb : xs.length ≤ max cfg.qPoints 1 := by
      cases ht.kind with
      | noMore a1 => simp [a1]
      | ego _ a2 => exact le_trans a2 (le_max_left _ _)
      | trego _ _ _ _ _ _ a3 => rcases a3 with ⟨a3, _⟩ | a3 <;> simp [a3]
    rw [ht.iter, Nat.add_mul, Nat.one_mul]
    omega
  exact key.trans (Nat.add_le_add_left (Nat.mul_le_mul_right _ hle) _)

theorem stops_iff {cfg : Cfg} {P : Prob} {doe : Doe} {os : List Oracle} {s : St} (h : run cfg P doe os = .ok s)
    (r : List Flt) (hr : s.data.y.rows[s.best]? = some r) :
    stops cfg s = true ↔ s.converged = true ∨ s.iter = cfg.maxIters ∨ AtMost (r.headD .pinf) cfg.target := by
  obtain ⟨_, ⟨c, h1, h2⟩, h3, h4⟩ := run_best h
  rw [h2, Option.some.injEq] at hr
  subst hr
  have hat : ∀ v : Flt, (Flt.lt v cfg.target || Flt.feq v cfg.target) = true ↔ AtMost v cfg.target := by
    intro v
    unfold AtMost
    by_cases hv : v = .nan
    · simp [hv, Flt.lt, Flt.feq, Flt.cmp]
    by_cases ht : cfg.target = .nan
    · cases v <;> simp [ht, Flt.lt, Flt.feq, Flt.cmp]
    rw [Bool.or_eq_true, Flt.lt_iff hv ht, Flt.feq_iff hv ht]
    simp [hv, ht, le_iff_lt_or_eq]
  unfold stops
  rw [h1, h3, Bool.or_eq_true, Bool.or_eq_true, or_assoc]
  refine or_congr Iff.rfl (or_congr ?_ ?_)
  · simp only [ge_iff_le, decide_eq_true_eq]; omega
  · cases c with
    | nil => exact hat _
    | cons a c => exact hat _

/-- C98. A run stops exactly when no point could be added, when `max_iters` iterations were done, or when the
objective of the current best is at most the target; it goes on otherwise, one iteration at a time. -/
theorem C98_stops_iff_partial (cfg : Cfg) (P : Prob) (doe : Doe) (os : List Oracle) (o : Oracle) (s s' : St)
    (h : run cfg P doe os = .ok s) (h' : run cfg P doe (os ++ [o]) = .ok s') :
    ∃ r, s.data.y.rows[s.best]? = some r ∧
      ((s.converged = true ∨ s.iter = cfg.maxIters ∨ AtMost (r.headD .pinf) cfg.target) → s' = s) ∧
      (¬ (s.converged = true ∨ s.iter = cfg.maxIters ∨ AtMost (r.headD .pinf) cfg.target) →
        s'.iter = s.iter + 1) := by
  obtain ⟨_, ⟨r, _, h2⟩, _⟩ := run_best h
  refine ⟨r, h2, ?_⟩
  rw [← stops_iff h r h2]
  rw [run_append, h] at h'
  simp only [bind, Except.bind, loop] at h'
  constructor
  · intro hs
    rw [if_pos hs] at h'
    exact (Except.ok.inj h').symm
  · intro hs
    rw [if_neg hs] at h'
    cases ht : turn cfg P o s with
    | error e => rw [ht] at h'; simp at h'
    | ok t =>
      rw [ht] at h'
      simp only [Except.ok.injEq] at h'
      subst h'
      obtain ⟨_, _, hT⟩ := turn_spec ht
      exact hT.iter

/-- C98. With enough iterations at hand the run ends for one of these reasons. -/
theorem C98_reason_partial (cfg : Cfg) (P : Prob) (doe : Doe) (os : List Oracle) (s : St) (hl : cfg.maxIters ≤ os.length)
    (h : run cfg P doe os = .ok s) :
    ∃ r, s.data.y.rows[s.best]? = some r ∧
      (s.converged = true ∨ s.iter = cfg.maxIters ∨ AtMost (r.headD .pinf) cfg.target) := by
  obtain ⟨_, ⟨r, _, h2⟩, _, h4⟩ := run_best h
  refine ⟨r, h2, (stops_iff h r h2).1 ?_⟩
  have key : ∀ (os : List Oracle) (t t' : St), loop cfg P os t = .ok t' → stops cfg t' = true ∨
      t'.iter = t.iter + os.length := by
    intro os
    induction os with
    | nil => intro t t' h; simp only [loop, Except.ok.injEq] at h; subst h; simp
    | cons o os ih =>
      intro t t' h
      simp only [loop] at h
      split_ifs at h with hs
      · simp only [Except.ok.injEq] at h
        subst h; exact .inl hs
      · rw [bind_ok] at h
        obtain ⟨t1, h1, h⟩ := h
        obtain ⟨_, _, hT⟩ := turn_spec h1
        rcases ih t1 t' h with h | h
        · exact .inl h
        · right; rw [h, hT.iter, List.length_cons]; omega
  have hrun := h
  simp only [run, bind_ok] at h
  obtain ⟨s0, h0, h⟩ := h
  rcases key os s0 s h with h | h
  · exact h
  · rw [stops_iff hrun r h2]
    rw [(init_spec h0).2.2.2.2.2.2.2.2.2.2.1] at h
    right; left; omega

/-- C98 fails for problems with constraints: the target test does not look at feasibility. Here the run stops before
the first iteration on a point that violates the constraint, although a feasible point is proposed. -/
theorem C98_refuted_infeasible_target :
    ∃ (cfg : Cfg) (P : Prob) (doe : Doe) (o : Oracle) (s : St) (r : List Flt), cfg.tol = [.fin 0] ∧
      cfg.target = .fin 5 ∧ run cfg P doe [o] = .ok s ∧ (evals s.data)[s.best]? = some r ∧ s.iter = 0 ∧
      ¬ Feasible [0] r.tail := by
  have h : ((run { exCfg with target := .fin 5, tol := [.fin 0] } { exProb with g := [] } (.points [[2]])
      [exOracle 1 (1/2)]).map fun s => ((evals s.data)[s.best]?, s.iter))
      = .ok (some [.fin 4, .fin 1], 0) := by decide +kernel
  obtain ⟨s, hs, h⟩ := ok_of_map h
  simp only [Prod.mk.injEq] at h
  refine ⟨_, _, _, _, s, _, rfl, rfl, hs, h.1, h.2, ?_⟩
  intro h
  rcases h with _ | ⟨h, _⟩
  have : (1 : EReal) ≤ 0 := by simpa [toE] using h
  exact absurd this (by norm_num)

/-- Cases of `C98_stops_iff_partial` and `C98_reason_partial`: the run stops after the iteration that reaches the target. -/
example : ((run { exCfg with target := .fin (1/4) } exProb (.points [[5], [3]])
      [exOracle 5 (1/2), exOracle (1/3) (1/4)]).map fun s => (s.iter, s.data.x, s.converged))
    = .ok (1, [[5], [3], [1/2]], false) := by decide +kernel
example : ((run { exCfg with maxIters := 1 } exProb (.points [[5], [3]])
      [exOracle 5 (1/2), exOracle (1/3) (1/4)]).map fun s => (s.iter, s.data.x, s.converged))
    = .ok (1, [[5], [3], [1/2]], false) := by decide +kernel

/-! ## C99 -/

theorem optimResult_eq (cfg : Cfg) (s : St) (p : List ℚ) (c : List Flt) (hp : s.bestParam = some p)
    (hc : s.bestCost = some c) (r : Optim) :
    optimResult cfg s = .ok r ↔ userInput cfg p = .ok r.xOpt ∧ s.data.x.mapM (userInput cfg) = .ok r.xDoe ∧
      r.yOpt = c ∧ r.yDoe = s.data.y := by
  unfold optimResult userInput
  rw [hp, hc]
  by_cases hd : isDiscrete cfg.xtypes = true
  · simp only [hd, if_true, bind_ok, Except.ok.injEq]
    constructor
    · rintro ⟨xs, h1, x, h2, rfl⟩; exact ⟨h2, h1, rfl, rfl⟩
    · rintro ⟨h1, h2, h3, h4⟩
      refine ⟨_, h2, _, h1, ?_⟩
      cases r; simp_all
  · have : ∀ l : List (List ℚ), l.mapM (fun x => (Except.ok x : Except Panic (List ℚ))) = .ok l := by
      intro l; rw [mapM_ok]; exact List.forall₂_same.2 fun _ _ => rfl
    simp only [hd, Bool.false_eq_true, if_false, this, Except.ok.injEq]
    constructor
    · rintro rfl; exact ⟨rfl, rfl, rfl, rfl⟩
    · rintro ⟨h1, h2, h3, h4⟩; cases r; simp_all

/-- C99. The result of a run is given without panic. Each stored output is the value of the objective function at the
stored input of the same row, inputs being in the declared space; the optimum is one of the rows, the first of lowest
rank (feasible first, by objective; then by sum of violations). -/
theorem C99_result_is_evaluated_optimum_partial (cfg : Cfg) (P : Prob) (x0 : List (List ℚ)) (os : List Oracle) (s : St)
    (tol : List ℚ) (hf : ∀ u, (P.f u).length = cfg.nOut) (h : run cfg P (.points x0) os = .ok s)
    (hg : GoodRun cfg tol s) :
    ∃ r, optimResult cfg s = .ok r ∧ r.yDoe.rows = r.xDoe.map P.f ∧ r.yOpt = P.f r.xOpt ∧
      r.xDoe.length = s.data.x.length ∧
      ∃ i, r.xDoe[i]? = some r.xOpt ∧ r.yDoe.rows[i]? = some r.yOpt ∧
        IsFirstMin ((List.zipWith (· ++ ·) r.yDoe.rows s.data.c.rows).map (rank tol)) i := by
  obtain ⟨⟨p, hp, hp'⟩, ⟨c, hc, hc'⟩, _⟩ := run_best h
  have htrue := C17_outputs_are_true_values cfg P x0 os s hf h
  have hal := C15_run_data_aligned cfg P _ os s h
  have hall : ∃ us, s.data.x.mapM (userInput cfg) = .ok us ∧ s.data.y.rows = us.map P.f := by
    have : ∃ us, List.Forall₂ (fun x u => userInput cfg x = .ok u) s.data.x us ∧ s.data.y.rows = us.map P.f := by
      refine ⟨s.data.x.map fun x => match userInput cfg x with | .ok u => u | .error _ => [], ?_, ?_⟩
      · rw [List.forall₂_map_right_iff]
        apply List.forall₂_same.2
        intro x hx
        obtain ⟨i, hi, rfl⟩ := List.mem_iff_getElem.1 hx
        obtain ⟨u, hu, _⟩ := htrue i hi
        rw [hu]
      · apply List.ext_getElem?
        intro i
        by_cases hi : i < s.data.x.length
        · obtain ⟨u, hu, hy⟩ := htrue i hi
          rw [hy]
          simp [hi, hu]
        · rw [List.getElem?_eq_none (by rw [← hal.1]; omega), List.getElem?_eq_none (by simp; omega)]
    obtain ⟨us, h1, h2⟩ := this
    exact ⟨us, mapM_ok.2 h1, h2⟩
  obtain ⟨us, hus, hy⟩ := hall
  have hF := mapM_ok.1 hus
  obtain ⟨hbx, hpe⟩ := List.getElem?_eq_some_iff.1 hp'
  obtain ⟨u, hu, hyu⟩ := htrue s.best hbx
  rw [hpe] at hu
  have hcu : c = P.f u := by rw [hc'] at hyu; exact Option.some.inj hyu
  refine ⟨⟨u, c, us, s.data.y⟩, (optimResult_eq cfg s p c hp hc _).2 ⟨hu, hus, rfl, rfl⟩, hy, hcu,
    hF.length_eq.symm, s.best, ?_, hc', (C12_run_best_is_optimum cfg P _ os s tol h hg).2⟩
  have hb2 : s.best < us.length := by rw [← hF.length_eq]; exact hbx
  have := hF.get hbx hb2
  simp only [List.get_eq_getElem, hpe] at this
  rw [hu] at this
  simp only [List.getElem?_eq_getElem hb2, Option.some.injEq]
  exact (Except.ok.inj this).symm

theorem userInput_admissible {cfg : Cfg} (hok : ∀ t ∈ cfg.xtypes, TypeOk t)
    {lim : List (ℚ × ℚ)} (hlim : continuousLimits cfg.xtypes = .ok lim) {x u : List ℚ} (hx : InLimits lim x)
    (hu : userInput cfg x = .ok u) : ∃ v, Relaxed cfg.xtypes u v := by
  unfold userInput at hu
  split_ifs at hu with hd
  · obtain ⟨x', u', e1, e3⟩ := C09_decode_in_space cfg.xtypes hok lim hlim x hx
    rw [e1] at hu
    simp only [Except.ok.injEq] at hu
    exact ⟨u', hu ▸ e3⟩
  · simp only [Except.ok.injEq] at hu
    subst hu
    exact ⟨x, relaxed_of_floats _ (by simpa using hd) lim hlim x hx⟩

theorem data_in_limits {cfg : Cfg} {P : Prob} {x0 : List (List ℚ)} {os : List Oracle} {s : St}
    (h : run cfg P (.points x0) os = .ok s) {lim : List (ℚ × ℚ)} (hdoe : ∀ x ∈ x0, InLimits lim x)
    (hprop : ∀ o ∈ os, InLimits lim o.loc ∧ ∀ k i c, o.sel k i = some c → InLimits lim c.x) :
    ∀ x ∈ s.data.x, InLimits lim x := by
  simp only [run, bind_ok] at h
  obtain ⟨s0, h0, h⟩ := h
  obtain ⟨⟨i1, _⟩, _⟩ := init_spec h0
  obtain ⟨xs, hext, _⟩ := loop_ext h
  intro x hx
  rw [hext.x, i1] at hx
  rcases List.mem_append.1 hx with hx | hx
  · exact hdoe x hx
  · obtain ⟨cs, _, fc⟩ := hext.c
    obtain ⟨j, hj, rfl⟩ := List.mem_iff_getElem.1 hx
    have := fc.get hj (by rw [← fc.length_eq]; exact hj)
    simp only [List.get_eq_getElem] at this
    obtain ⟨_, src, ⟨o, ho, hp⟩, _⟩ := this
    cases src with
    | none => rw [hp]; exact (hprop o ho).1
    | some sc =>
      obtain ⟨k, i, c, e1, e2, _⟩ := hp
      rw [← e2]
      exact (hprop o ho).2 k i c e1

/-- C99. If the initial design and the proposed points are inside the relaxed bounds, the reported optimum and all
reported inputs are admissible points of the declared space. -/
theorem C99_inputs_admissible (cfg : Cfg) (P : Prob) (x0 : List (List ℚ))
    (os : List Oracle) (s : St) (h : run cfg P (.points x0) os = .ok s)
    (hok : ∀ t ∈ cfg.xtypes, TypeOk t)
    (lim : List (ℚ × ℚ)) (hlim : continuousLimits cfg.xtypes = .ok lim)
    (hdoe : ∀ x ∈ x0, InLimits lim x)
    (hprop : ∀ o ∈ os, InLimits lim o.loc ∧ ∀ k i c, o.sel k i = some c → InLimits lim c.x)
    (r : Optim) (hr : optimResult cfg s = .ok r) :
    (∃ v, Relaxed cfg.xtypes r.xOpt v) ∧ ∀ x ∈ r.xDoe, ∃ v, Relaxed cfg.xtypes x v := by
  obtain ⟨⟨p, hp, hp'⟩, ⟨c, hc, _⟩, _⟩ := run_best h
  have hin := data_in_limits h hdoe hprop
  obtain ⟨h1, h2, _⟩ := (optimResult_eq cfg s p c hp hc r).1 hr
  refine ⟨userInput_admissible hok hlim (hin p (List.mem_of_getElem? hp')) h1, fun x hx => ?_⟩
  obtain ⟨i, hi, rfl⟩ := List.mem_iff_getElem.1 hx
  have hF := mapM_ok.1 h2
  have hi' : i < s.data.x.length := by rw [hF.length_eq]; exact hi
  have := hF.get hi' hi
  simp only [List.get_eq_getElem] at this
  exact userInput_admissible hok hlim (hin _ (List.getElem_mem hi')) this

/-- C99 fails for function constraints: the reported optimum violates the constraint of the user (8 with a tolerance
of 1/2), although one of the reported rows satisfies it, because the constraint is stored divided by its scale. -/
theorem C99_refuted_infeasible_optimum :
    ∃ (cfg : Cfg) (P : Prob) (x0 : List (List ℚ)) (os : List Oracle) (s : St) (r : Optim),
      run cfg P (.points x0) os = .ok s ∧ optimResult cfg s = .ok r ∧ cfg.tol = [.fin (1/2)] ∧
      r.xDoe = [[9], [1]] ∧ r.xOpt = [1] ∧ P.g.map (fun g => g [9]) = [.fin 0] ∧ P.g.map (fun g => g [1]) = [.fin 8] := by
  have h : ((run { exCfg with tol := [.fin (1/2)], nOut := 1, qPoints := 1 }
      { f := fun x => x.map .fin, g := [fun x => .fin (9 - x.sum)] } (.points [[9]])
      [⟨fun _ _ => some ⟨[1], [.nan], [.fin 16]⟩, []⟩]).bind
      fun s => (optimResult { exCfg with tol := [.fin (1/2)], nOut := 1, qPoints := 1 } s).map
        fun r => (r.xDoe, r.xOpt)) = .ok ([[9], [1]], [1]) := by
    decide +kernel
  cases hr : run { exCfg with tol := [.fin (1/2)], nOut := 1, qPoints := 1 }
      { f := fun x => x.map .fin, g := [fun x => .fin (9 - x.sum)] } (.points [[9]])
      [⟨fun _ _ => some ⟨[1], [.nan], [.fin 16]⟩, []⟩] with
  | error e => rw [hr] at h; exact absurd h (by simp [Except.bind])
  | ok s =>
    rw [hr] at h
    obtain ⟨r, h1, h2⟩ := ok_of_map h
    simp only [Prod.mk.injEq] at h2
    exact ⟨_, _, _, _, s, r, hr, h1, rfl, h2.1, h2.2, by decide +kernel, by decide +kernel⟩

/-- Case of C99: an integer and a categorical variable. -/
example : (((run exMixCfg { f := fun x => [.fin (x.headD 0)], g := [] } (.points [[4/3, 0, 1]])
      [⟨fun _ _ => some ⟨[2/5, 1/3, 1/2], [.nan], []⟩, []⟩]) >>= optimResult exMixCfg).map
        fun r => (r.xOpt, r.yOpt, r.xDoe, r.yDoe.rows))
    = .ok ([0, 1], [.fin 0], [[1, 1], [0, 1]], [[.fin 1], [.fin 0]]) := by decide +kernel

/-! ## C100 -/

theorem selectNextPoints_ok (cfg : Cfg) (f : List ℚ → List Flt) (o : ℕ → Option Cand)
    (hu : ∀ i c, o i = some c → ∃ u, userInput cfg c.x = .ok u) :
    ∃ ps, selectNextPoints cfg ⟨f, []⟩ o = .ok ps ∧ ps.length ≤ cfg.qPoints ∧
      ((∀ i < cfg.qPoints, o i ≠ none) → ps.length = cfg.qPoints) ∧
      ∀ p ∈ ps, ∃ i c, o i = some c ∧ p.x = c.x := by
  unfold selectNextPoints
  have : ∀ n i, ∃ ps, batchLoop cfg ⟨f, []⟩ o i n = .ok ps ∧ ps.length ≤ n ∧
      ((∀ j < n, o (i + j) ≠ none) → ps.length = n) ∧
      ∀ p ∈ ps, ∃ i c, o i = some c ∧ p.x = c.x := by
    intro n
    induction n with
    | zero => intro i; exact ⟨[], rfl, by simp, by simp, by simp⟩
    | succ n ih =>
      intro i
      unfold batchLoop
      cases ho : o i with
      | none => exact ⟨[], rfl, by simp, fun hh => absurd ho (hh 0 (by omega)), by simp⟩
      | some k =>
        obtain ⟨u, hk⟩ := hu i k ho
        obtain ⟨ps, h1, h2, h4, h3⟩ := ih (i + 1)
        refine ⟨⟨k.x, k.y, []⟩ :: ps, ?_, by simpa using h2, ?_, ?_⟩
        · simp [scaledFcstr, hk, h1, bind, Except.bind]
        · intro hh
          rw [List.length_cons, h4 fun j hj => by rw [Nat.add_assoc, Nat.add_comm 1]; exact hh (j + 1) (by omega)]
        · intro p hp
          rcases List.mem_cons.1 hp with rfl | hp
          · exact ⟨i, k, ho, rfl⟩
          · exact h3 p hp
  simpa using this cfg.qPoints 0

theorem mapM_exists {α β : Type} (f : α → Except Panic β) (l : List α) (h : ∀ a ∈ l, ∃ b, f a = .ok b) :
    ∃ r, l.mapM f = .ok r := by
  induction l with
  | nil => exact ⟨[], mapM_ok.2 .nil⟩
  | cons a l ih =>
    obtain ⟨b, hb⟩ := h a (by simp)
    obtain ⟨r, hr⟩ := ih fun a ha => h a (by simp [ha])
    exact ⟨b :: r, mapM_ok.2 (.cons hb (mapM_ok.1 hr))⟩

/-- C100, part. For admissible inputs, comparable outputs and proposals within the relaxed bounds, `suggest` returns
`q_points` points (fewer if a prediction fails), all admissible, and does not panic. Missing: categorical variables
of two levels or more before a variable of another type (false, see C09). -/
theorem C100_suggestions_admissible_partial (cfg : Cfg) (tol : List ℚ) (htol : cfg.tol = tol.map .fin)
    (hne : cfg.xtypes ≠ []) (hok : ∀ t ∈ cfg.xtypes, TypeOk t)
    (hn : cfg.xtypes.Pairwise fun a b => ∀ n, a = .enum n → (∀ m, b ≠ .enum m) → n = 1)
    (lim : List (ℚ × ℚ)) (hlim : continuousLimits cfg.xtypes = .ok lim)
    (o : ℕ → Option Cand) (ho : ∀ i c, o i = some c → InLimits lim c.x)
    (x : List (List ℚ)) (y : Mat Flt) (hx : ∀ p ∈ x, ∃ v, Relaxed cfg.xtypes p v)
    (hy : EvalData tol y ⟨0, List.replicate x.length []⟩) (hpos : y.rows ≠ []) :
    ∃ r, suggest cfg o x y = .ok r ∧ r.length ≤ cfg.qPoints ∧
      ((∀ i < cfg.qPoints, o i ≠ none) → r.length = cfg.qPoints) ∧ ∀ p ∈ r, ∃ v, Relaxed cfg.xtypes p v := by
  have henc : ∃ xs, x.mapM (toContinuousSpace cfg.xtypes) = .ok xs := by
    apply mapM_exists
    intro p hp
    obtain ⟨v, hv⟩ := hx p hp
    exact ⟨v, C09_encode_partial cfg.xtypes hne hn p v hv⟩
  obtain ⟨xs, hxs⟩ := henc
  have hxl : xs.length = x.length := (mapM_ok.1 hxs).length_eq.symm
  obtain ⟨b, hb, hmin⟩ := C11_best_is_lexicographic_optimum tol y _ hy hpos
  have hlt := hmin.1
  simp only [List.length_map, List.length_zipWith, List.length_replicate] at hlt
  have hby : b < y.rows.length := by omega
  have hbx : b < x.length := by omega
  have hfe : ∃ fe, isFeasible y.rows[b] [] cfg.tol = .ok fe := by
    obtain ⟨fe, h1, _⟩ := C11_is_feasible_iff tol y.rows[b] [] (hy.valid _ (by
      rw [List.mem_iff_getElem]
      refine ⟨b, by simp; omega, by simp⟩))
    exact ⟨fe, by rw [htol]; exact h1⟩
  obtain ⟨fe, hfe⟩ := hfe
  have hui : ∀ i c, o i = some c → ∃ u, userInput cfg c.x = .ok u := by
    intro i c hc
    unfold userInput
    split_ifs
    · obtain ⟨u, _, e1, _⟩ := C09_decode_in_space cfg.xtypes hok lim hlim c.x (ho i c hc)
      exact ⟨u, e1⟩
    · exact ⟨_, rfl⟩
  obtain ⟨ps, hps, hq, hq', hfrom⟩ := selectNextPoints_ok cfg (fun _ => []) o hui
  have hdec : ∃ r, (ps.map Pt.x).mapM (toDiscreteSpace cfg.xtypes) = .ok r := by
    apply mapM_exists
    intro p hp
    obtain ⟨q, hq, rfl⟩ := List.mem_map.1 hp
    obtain ⟨i, c, hc, he⟩ := hfrom q hq
    obtain ⟨u, _, e1, _⟩ := C09_decode_in_space cfg.xtypes hok lim hlim c.x (ho i c hc)
    exact ⟨u, by rw [he]; exact e1⟩
  obtain ⟨r, hr⟩ := hdec
  have hF := mapM_ok.1 hr
  have hrl : r.length = ps.length := by rw [← hF.length_eq, List.length_map]
  refine ⟨r, ?_, by rw [hrl]; exact hq, by rw [hrl]; exact hq', ?_⟩
  · simp only [suggest, solverSuggest, bind_ok]
    refine ⟨xs, hxs, _, ⟨b, by rw [hxl, htol]; exact hb, y.rows[b], ?_, [], ?_, fe, hfe, ps, hps, rfl⟩, hr⟩
    · simp [row, hby]
    · simp [row, hxl, hbx]
  · intro p hp
    obtain ⟨z, hz, e⟩ := exists_left_of_forall₂ hF hp
    obtain ⟨q, hq, rfl⟩ := List.mem_map.1 hz
    obtain ⟨i, c, hc, he⟩ := hfrom q hq
    obtain ⟨u, v, e1, e3⟩ := C09_decode_in_space cfg.xtypes hok lim hlim c.x (ho i c hc)
    rw [he, e1, Except.ok.injEq] at e
    exact ⟨v, e ▸ e3⟩

/-- Case of C100: two points suggested for an integer and a categorical variable. -/
example : suggest { exMixCfg with qPoints := 2 } (fun i => some ⟨[12/5, i, 1/2], [.nan], []⟩)
    [[1, 1], [2, 0]] ⟨1, [[.fin 3], [.fin 4]]⟩ = .ok [[2, 1], [2, 0]] := by decide +kernel

/-- C100 fails: contrary to a run (C16), nothing prevents `suggest` from returning a point that is already in the
data, or twice the same point. -/
theorem C100_refuted_known_point :
    ∃ (cfg : Cfg) (o : ℕ → Option Cand) (x : List ℚ) (y : Mat Flt), cfg.xtypes = [.float 0 10] ∧
      suggest cfg o [x] y = .ok [x, x] :=
  ⟨{ exCfg with nOut := 1, tol := [] }, fun _ => some ⟨[2], [.fin 4], []⟩, [2], ⟨1, [[.fin 4]]⟩, rfl,
    by decide +kernel⟩


end Verif.Props
