import Verif.Props.Best
import Verif.Props.RunData
import Mathlib.Data.List.Induction

/-!
# C12, C13, C20: best result along a run
-/

set_option autoImplicit false

namespace Verif.Props

open Verif Spec FindResult MixInt Run

/-- Rows `objective :: output constraints ++ function constraints` of the data. -/
def evals (d : Data) : List (List Flt) := List.zipWith (· ++ ·) d.y.rows d.c.rows

/-- An incremental search from the first minimum of all rows returns it. -/
theorem findBestFrom_stays (tol : List ℚ) (y c : Mat Flt) (i off : ℕ)
    (hl : y.rows.length = c.rows.length) (hoff : off ≤ y.rows.length)
    (hv : ∀ r ∈ List.zipWith (· ++ ·) y.rows c.rows, Valid tol.length r)
    (hi : IsFirstMin ((List.zipWith (· ++ ·) y.rows c.rows).map (rank tol)) i) :
    findBestFrom i off y c (tol.map .fin) = .ok i := by
  set R := List.zipWith (· ++ ·) y.rows c.rows with hR
  have hRlen : R.length = y.rows.length := by simp [hR, hl]
  obtain ⟨hlt, hmin, _⟩ := hi
  have hlt' : i < R.length := by simpa using hlt
  obtain ⟨m, hm, hcase⟩ := minFold_spec tol (R.drop off) (none, R[i]) 0 (hv _ (List.getElem_mem hlt'))
    (fun r hr => hv r (List.mem_of_mem_drop hr))
  unfold findBestFrom
  rw [hcat_eq hl]
  simp only [bind, Except.bind, allRows, ← hR, List.getElem?_eq_getElem hlt', hm]
  rw [if_neg (by omega)]
  rcases hcase with ⟨rfl, _⟩ | ⟨j, hj, rfl, hlt2, _⟩
  · rfl
  · exfalso
    have hmem := List.mem_of_mem_drop (List.getElem_mem hj)
    have := hmin (rank tol (R.drop off)[j]) (List.mem_map.2 ⟨_, hmem, rfl⟩)
    simp only [List.getElem_map] at this
    exact absurd hlt2 (not_lt.2 this)

theorem evals_prefix {cfg : Cfg} {P : Prob} {S : List ℚ → Option (List Flt) → Prop} {d d' : Data}
    {xs : List (List ℚ)}
    (h : Ext cfg P S d d' xs) (ha : Aligned d) : evals d <+: evals d' := by
  obtain ⟨_, ⟨ys, hy, _⟩, ⟨cs, hc, _⟩, _⟩ := h
  unfold evals
  rw [hy, hc]
  simp only
  rw [List.zipWith_append (by rw [← ha.1, ← ha.2])]
  exact List.prefix_append _ _

/-- The current best is the first minimum of all the data, through one turn. -/
theorem turn_firstMin {cfg : Cfg} {P : Prob} {o : Oracle} {s s' : St} {xs us : List (List ℚ)} (tol : List ℚ)
    (htol : cfg.tol = tol.map .fin) (ht : Turn cfg P o s s' xs us) (ha : Aligned s.data)
    (hv : ∀ r ∈ evals s'.data, Valid tol.length r)
    (hi : IsFirstMin ((evals s.data).map (rank tol)) s.best) :
    IsFirstMin ((evals s'.data).map (rank tol)) s'.best := by
  have ha' := ht.ext.aligned ha
  obtain ⟨hx, ⟨ys, hy, fy⟩, ⟨cs, hc, fc⟩, _⟩ := ht.ext
  have hl : s.data.y.rows.length = s.data.c.rows.length := by rw [← ha.1, ← ha.2]
  have hupd : ∀ b, findBestFrom s.best s.data.y.rows.length s'.data.y s'.data.c cfg.tol = .ok b →
      IsFirstMin ((evals s'.data).map (rank tol)) b := by
    intro b hb
    obtain ⟨i', h1, h2⟩ := findBestFrom_firstMin tol s.data.y s.data.c ⟨s.data.y.ncols, ys⟩
      ⟨s.data.c.ncols, cs⟩ s.best hl (by simp only; rw [← fy.length_eq, ← fc.length_eq])
      (by
        intro r hr
        apply hv
        unfold evals
        rw [hy, hc]
        exact hr) hi
    have ey : vcat s.data.y ⟨s.data.y.ncols, ys⟩ = s'.data.y := by rw [hy]; rfl
    have ec : vcat s.data.c ⟨s.data.c.ncols, cs⟩ = s'.data.c := by rw [hc]; rfl
    rw [ey, ec] at h1 h2
    rw [htol, h1] at hb
    simp only [Except.ok.injEq] at hb
    exact hb ▸ h2
  cases ht.kind with
  | noMore _ _ h3 h4 => rw [h3, h4]; exact hi
  | ego _ _ _ h4 => exact hupd _ h4
  | trego x u _ _ _ _ hxs hpos hb =>
    rcases hxs with ⟨rfl, _⟩ | rfl
    · have hys : ys = [] := List.eq_nil_of_length_eq_zero (by simpa using fy.length_eq.symm)
      have hcs : cs = [] := List.eq_nil_of_length_eq_zero (by simpa using fc.length_eq.symm)
      have e1 : s'.data.y = s.data.y := by rw [hy, hys]; simp
      have e2 : s'.data.c = s.data.c := by rw [hc, hcs]; simp
      unfold evals at hv ⊢
      rw [e1, e2] at hv hb ⊢
      rw [htol, findBestFrom_stays tol s.data.y s.data.c s.best _ hl (by omega) hv hi] at hb
      simp only [Except.ok.injEq] at hb
      rw [← hb]
      exact hi
    · have hlen : s'.data.y.rows.length - 1 = s.data.y.rows.length := by
        rw [hy]
        have := fy.length_eq
        simp at this
        simp; omega
      rw [hlen] at hb
      exact hupd _ hb

/-- Data of a run whose rows can all be compared: one finite tolerance per constraint. -/
structure GoodRun (cfg : Cfg) (tol : List ℚ) (s : St) : Prop where
  tolerances : cfg.tol = tol.map .fin
  data : EvalData tol s.data.y s.data.c

theorem evalData_of_ext {cfg : Cfg} {P : Prob} {S : List ℚ → Option (List Flt) → Prop} {d d' : Data}
    {xs : List (List ℚ)} {tol : List ℚ}
    (h : Ext cfg P S d d' xs) (ha : Aligned d) (hd : EvalData tol d'.y d'.c) : EvalData tol d.y d.c := by
  have hp := evals_prefix h ha
  obtain ⟨_, ⟨ys, hy, _⟩, ⟨cs, hc, _⟩, _⟩ := h
  obtain ⟨_, h2, h3, h4, h5, h6⟩ := hd
  refine ⟨by rw [← ha.1, ← ha.2], ?_, ?_, ?_, ?_, ?_⟩
  · intro r hr
    have := h2 r (by rw [hy]; exact List.mem_append_left _ hr)
    rwa [hy] at this
  · intro r hr
    have := h3 r (by rw [hc]; exact List.mem_append_left _ hr)
    rwa [hc] at this
  · rwa [hy] at h4
  · rwa [hy, hc] at h5
  · intro r hr
    exact h6 r (hp.subset hr)

/-- **C12** (in the run). When the evaluations of a run are comparable, its current best index, which
is only updated incrementally, is the best index of all the data. -/
theorem C12_run_best_is_optimum (cfg : Cfg) (P : Prob) (doe : Doe) (os : List Oracle) (s : St)
    (tol : List ℚ) (h : run cfg P doe os = .ok s) (hg : GoodRun cfg tol s) :
    findBest s.data.y s.data.c cfg.tol = .ok s.best ∧
      IsFirstMin ((List.zipWith (· ++ ·) s.data.y.rows s.data.c.rows).map (rank tol)) s.best := by
  have key : IsFirstMin ((evals s.data).map (rank tol)) s.best := by
    simp only [run, bind_ok] at h
    obtain ⟨s0, h0, h⟩ := h
    -- generalize on the final state
    have : ∀ (os : List Oracle) (t t' : St), loop cfg P os t = .ok t' → Aligned t.data →
        EvalData tol t'.data.y t'.data.c →
        IsFirstMin ((evals t.data).map (rank tol)) t.best →
        IsFirstMin ((evals t'.data).map (rank tol)) t'.best := by
      intro os
      induction os with
      | nil =>
        intro t t' h _ _ hi
        simp only [loop, Except.ok.injEq] at h
        exact h ▸ hi
      | cons o os ih =>
        intro t t' h ha hd hi
        simp only [loop] at h
        split_ifs at h
        · simp only [Except.ok.injEq] at h
          exact h ▸ hi
        · rw [bind_ok] at h
          obtain ⟨t1, h1, h⟩ := h
          obtain ⟨xs, us, ht⟩ := turn_spec h1
          have ha1 := ht.ext.aligned ha
          obtain ⟨xs', hext, _⟩ := loop_ext h
          have hd1 := evalData_of_ext hext ha1 hd
          exact ih t1 t' h ha1 hd (turn_firstMin tol hg.tolerances ht ha hd1.valid hi)
    obtain ⟨xs', hext, _⟩ := loop_ext h
    have ha0 := init_aligned h0
    have hd0 := evalData_of_ext hext ha0 hg.data
    refine this os s0 s h ha0 hg.data ?_
    have hb := (init_spec h0).2.2.2.1
    have hne : s0.data.y.rows ≠ [] := by
      intro hnil
      rw [hg.tolerances] at hb
      unfold findBest at hb
      split_ifs at hb
      · rw [hcat_eq hd0.rows_eq] at hb
        simp [bind, Except.bind, allRows, hnil, FindResult.argmin, fallback] at hb
      · simp [hnil, FindResult.argmin] at hb
    obtain ⟨i, hi, hfm⟩ := C11_best_is_lexicographic_optimum tol _ _ hd0 hne
    rw [hg.tolerances, hi] at hb
    simp only [Except.ok.injEq] at hb
    exact hb ▸ hfm
  refine ⟨?_, key⟩
  have hne : s.data.y.rows ≠ [] := by
    intro hnil
    obtain ⟨hlt, _⟩ := key
    simp [evals, hnil] at hlt
  obtain ⟨i, hi, hfm⟩ := C11_best_is_lexicographic_optimum tol _ _ hg.data hne
  rw [hg.tolerances, hi, IsFirstMin.unique hfm key]

theorem goodRun_of_more {cfg : Cfg} {P : Prob} {doe : Doe} {os os' : List Oracle} {s s' : St}
    {tol : List ℚ} (h : run cfg P doe os = .ok s) (h' : run cfg P doe (os ++ os') = .ok s')
    (hg : GoodRun cfg tol s') : GoodRun cfg tol s ∧ evals s.data <+: evals s'.data := by
  have ha : Aligned s.data := C15_run_data_aligned cfg P doe os s h
  rw [run_append, h] at h'
  obtain ⟨xs, hext, _⟩ := loop_ext (h' : loop cfg P os' s = .ok s')
  exact ⟨⟨hg.tolerances, evalData_of_ext hext ha hg.data⟩, evals_prefix hext ha⟩

/-- **C13**. Along a run the rank of the current best never increases: the best never becomes worse, and
once it is feasible it stays feasible. -/
theorem C13_best_never_worse (cfg : Cfg) (P : Prob) (doe : Doe) (os os' : List Oracle) (s s' : St)
    (tol : List ℚ) (h : run cfg P doe os = .ok s) (h' : run cfg P doe (os ++ os') = .ok s')
    (hg : GoodRun cfg tol s') :
    ∃ r r', (evals s.data)[s.best]? = some r ∧ (evals s'.data)[s'.best]? = some r' ∧
      rank tol r' ≤ rank tol r ∧
      (Feasible tol r.tail → Feasible tol r'.tail ∧ toE (r'.headD .nan) ≤ toE (r.headD .nan)) := by
  obtain ⟨hg0, hp⟩ := goodRun_of_more h h' hg
  obtain ⟨hlt, _⟩ := (C12_run_best_is_optimum cfg P doe os s tol h hg0).2
  obtain ⟨hlt', hmin', _⟩ := (C12_run_best_is_optimum cfg P doe (os ++ os') s' tol h' hg).2
  have l1 : s.best < (evals s.data).length := by simpa [evals] using hlt
  have l2 : s'.best < (evals s'.data).length := by simpa [evals] using hlt'
  have hle : rank tol (evals s'.data)[s'.best] ≤ rank tol (evals s.data)[s.best] := by
    have := hmin' (rank tol (evals s.data)[s.best])
      (List.mem_map.2 ⟨_, hp.subset (List.getElem_mem l1), rfl⟩)
    simpa [evals] using this
  refine ⟨_, _, List.getElem?_eq_getElem l1, List.getElem?_eq_getElem l2, hle, ?_⟩
  intro hF
  have e1 : rank tol (evals s.data)[s.best] = toLex (0, toE ((evals s.data)[s.best].headD .nan)) := by
    unfold rank; rw [if_pos hF]
  rw [e1] at hle
  by_cases hF' : Feasible tol (evals s'.data)[s'.best].tail
  · refine ⟨hF', ?_⟩
    unfold rank at hle
    rw [if_pos hF', Prod.Lex.toLex_le_toLex] at hle
    rcases hle with h | h
    · simp at h
    · exact h.2
  · exfalso
    unfold rank at hle
    rw [if_neg hF', Prod.Lex.toLex_le_toLex] at hle
    simp at hle

theorem updFeasible_spec {d : Data} {i : ℕ} {tol : List ℚ} {b : Bool} {r : List Flt}
    (hv : ∀ r ∈ evals d, Valid tol.length r) (hr : (evals d)[i]? = some r)
    (h : updFeasible false d i (tol.map .fin) = .ok b) : b = true ↔ Feasible tol r.tail := by
  simp only [updFeasible, Bool.false_eq_true, if_false, bind_ok] at h
  obtain ⟨y, hy, c, hc, h⟩ := h
  have e : r = y ++ c := by
    unfold row at hy hc
    unfold evals at hr
    rw [List.getElem?_zipWith] at hr
    split at hy
    · rename_i y' hy'
      split at hc
      · rename_i c' hc'
        simp only [Except.ok.injEq] at hy hc
        rw [hy', hc'] at hr
        simp only [Option.some.injEq] at hr
        rw [← hr, hy, hc]
      · simp at hc
    · simp at hy
  subst e
  obtain ⟨b', h1, h2⟩ := C11_is_feasible_iff tol y c (hv _ (List.mem_of_getElem? hr))
  rw [h1] at h
  simp only [Except.ok.injEq] at h
  exact h ▸ h2

/-- **C13** (feasibility flag, partial: only when `EGOR_USE_MAX_PROBA_OF_FEASIBILITY` is set). The flag of
the state tells whether the current best is feasible. -/
theorem C13_feasibility_flag_partial (cfg : Cfg) (P : Prob) (doe : Doe) (os : List Oracle) (s : St)
    (tol : List ℚ) (hpof : cfg.usePof = true) (h : run cfg P doe os = .ok s) (hg : GoodRun cfg tol s) :
    ∃ r, (evals s.data)[s.best]? = some r ∧ (s.feasible = true ↔ Feasible tol r.tail) := by
  have hrun := h
  have hlt := (C12_run_best_is_optimum cfg P doe os s tol h hg).2.1
  have l1 : s.best < (evals s.data).length := by simpa [evals] using hlt
  refine ⟨_, List.getElem?_eq_getElem l1, ?_⟩
  -- induction on the number of choices, from the end
  induction os using List.reverseRecOn generalizing s with
  | nil =>
    simp only [run, loop, bind_ok, Except.ok.injEq] at h
    obtain ⟨s0, h0, rfl⟩ := h
    have hf := (init_spec h0).2.2.2.2.1
    rw [hpof, hg.tolerances] at hf
    exact updFeasible_spec hg.data.valid (List.getElem?_eq_getElem l1) hf
  | append_singleton os o ih =>
    rw [run_append, bind_ok] at h
    obtain ⟨s1, h1, h⟩ := h
    obtain ⟨hg1, hp⟩ := goodRun_of_more h1 hrun hg
    obtain ⟨hlt1, _⟩ := (C12_run_best_is_optimum cfg P doe os s1 tol h1 hg1).2
    have l1' : s1.best < (evals s1.data).length := by simpa [evals] using hlt1
    have ih' := ih s1 h1 hg1 h1 hlt1 l1'
    simp only [loop] at h
    split_ifs at h with hst
    · simp only [Except.ok.injEq] at h
      subst h
      exact ih'
    · simp only [bind_ok, Except.ok.injEq] at h
      obtain ⟨t, ht, rfl⟩ := h
      obtain ⟨xs, us, hturn⟩ := turn_spec ht
      obtain ⟨r, r', e1, e2, _, himp⟩ :=
        C13_best_never_worse cfg P doe os [o] s1 t tol h1 hrun hg
      rw [List.getElem?_eq_getElem l1', Option.some.injEq] at e1
      rw [List.getElem?_eq_getElem l1, Option.some.injEq] at e2
      subst e1 e2
      have hupd : updFeasible s1.feasible t.data t.best cfg.tol = .ok t.feasible →
          (t.feasible = true ↔ Feasible tol (evals t.data)[t.best].tail) := by
        intro hu
        cases hf : s1.feasible with
        | true =>
          have hF := ih'.1 hf
          rw [hf] at hu
          simp only [updFeasible, if_true, Except.ok.injEq] at hu
          exact ⟨fun _ => (himp hF).1, fun _ => hu.symm⟩
        | false =>
          rw [hf, hg.tolerances] at hu
          exact updFeasible_spec hg.data.valid (List.getElem?_eq_getElem l1) hu
      cases hturn.kind with
      | noMore _ _ a3 a4 _ a6 => simp only [a6, a3, a4]; exact ih'
      | ego _ _ _ _ _ a6 => exact hupd a6
      | trego _ _ _ _ _ _ _ _ _ _ a7 => exact hupd a7

/-- A result obtained by computation. -/
theorem ok_of_map {α β : Type} {x : Except Panic α} {f : α → β} {b : β} (h : x.map f = .ok b) :
    ∃ a, x = .ok a ∧ f a = b := by
  cases x with
  | error e => simp [Except.map] at h
  | ok a => exact ⟨a, rfl, by simpa [Except.map] using h⟩

/-- The example run meets the hypotheses: its evaluations are comparable. -/
example : ∃ s, run exCfg exProb (.points [[5], [3]])
    [exOracle 5 (1/2), exOracle (1/3) (1/4)] = .ok s ∧ GoodRun exCfg [0, 0] s := by
  have h : ((run exCfg exProb (.points [[5], [3]])
      [exOracle 5 (1/2), exOracle (1/3) (1/4)]).map fun s => (s.data.y, s.data.c))
      = .ok (⟨2, [[.fin 25, .fin 4], [.fin 9, .fin 2], [.fin (1/4), .fin (-1/2)],
          [.fin (1/9), .fin (-2/3)], [.fin (1/16), .fin (-3/4)]]⟩,
        ⟨1, [[.fin (-2)], [.fin (-4)], [.fin (-13/4)], [.fin (-10/3)], [.fin (-27/8)]]⟩) := by
    decide +kernel
  obtain ⟨s, hs, h⟩ := ok_of_map h
  simp only [Prod.mk.injEq] at h
  refine ⟨s, hs, rfl, ?_⟩
  rw [h.1, h.2]
  refine ⟨rfl, ?_, ?_, by decide, rfl, ?_⟩
  · intro r hr; simp at hr; rcases hr with rfl | rfl | rfl | rfl | rfl <;> rfl
  · intro r hr; simp at hr; rcases hr with rfl | rfl | rfl | rfl | rfl <;> rfl
  · intro r hr
    simp only [List.zipWith, List.mem_cons, List.not_mem_nil, or_false] at hr
    rcases hr with rfl | rfl | rfl | rfl | rfl <;> exact ⟨_, _, rfl, rfl, by simp, by simp, by simp⟩

/-- **C13** is refuted in the default setting: the flag of the state says 'feasible' although the current
best (here the only evaluation) violates its constraint. -/
theorem C13_refuted_flag_by_default :
    ∃ (cfg : Cfg) (P : Prob) (doe : Doe) (s : St) (r : List Flt), cfg.usePof = false ∧
      run cfg P doe [] = .ok s ∧ (evals s.data)[s.best]? = some r ∧ cfg.tol = [.fin 0] ∧
      ¬ Feasible [0] r.tail ∧ s.feasible = true := by
  have h : ((run { exCfg with usePof := false, tol := [.fin 0] } { exProb with g := [] }
      (.points [[5]]) []).map fun s => ((evals s.data)[s.best]?, s.feasible))
      = .ok (some [.fin 25, .fin 4], true) := by decide +kernel
  obtain ⟨s, hs, h⟩ := ok_of_map h
  simp only [Prod.mk.injEq] at h
  refine ⟨_, _, _, s, _, rfl, hs, h.1, rfl, ?_, h.2⟩
  intro h
  rcases h with _ | ⟨h, _⟩
  simp only [toE] at h
  norm_cast at h

/-! ## C20 -/

/-- **C20** (partial). When an iteration which adds points changes the current best, `last_best_iter` is
that iteration, provided that the new best is not the very first point added after the initial
design (index `doe_size`, see the counterexample). -/
theorem C20_new_best_iteration_partial (cfg : Cfg) (P : Prob) (doe : Doe) (os : List Oracle) (o : Oracle)
    (s s' : St) (tol : List ℚ) (h : run cfg P doe os = .ok s) (hst : stops cfg s = false)
    (h' : turn cfg P o s = .ok s') (hg : GoodRun cfg tol s')
    (hbest : s'.best ≠ s.best) (hidx : s'.best ≠ doe.size) : s'.lastBestIter = s'.iter := by
  obtain ⟨s0, xs0, h0, hext0, hsz, hds, _⟩ := run_ext h
  obtain ⟨xs, us, ht⟩ := turn_spec h'
  have hlen : doe.size ≤ s.data.x.length := by rw [hext0.x]; simp; omega
  have hal : Aligned s.data := C15_run_data_aligned cfg P doe os s h
  have hrun' : run cfg P doe (os ++ [o]) = .ok s' := by
    rw [run_append, h]
    simp [bind, Except.bind, loop, hst, h']
  obtain ⟨hg0, _⟩ := goodRun_of_more h hrun' hg
  have hfm := (C12_run_best_is_optimum cfg P doe os s tol h hg0).2
  have hfm' := (C12_run_best_is_optimum cfg P doe _ s' tol hrun' hg).2
  have hge : ∀ (off : ℕ), findBestFrom s.best off s'.data.y s'.data.c cfg.tol = .ok s'.best →
      off ≤ s'.best := by
    intro off hf
    simp only [findBestFrom, bind_ok] at hf
    obtain ⟨all, _, hf⟩ := hf
    split_ifs at hf
    split at hf
    · simp at hf
    · simp only [bind_ok] at hf
      obtain ⟨m, _, hf⟩ := hf
      split at hf <;> simp only [Except.ok.injEq] at hf <;> omega
  have hne : s'.best ≠ s'.prevBest ∧ s.data.x.length ≤ s'.best := by
    cases ht.kind with
    | noMore _ _ _ a4 => exact absurd a4 hbest
    | ego _ _ _ a4 a5 =>
      refine ⟨by rw [a5]; exact hbest, ?_⟩
      rw [hal.1]
      exact hge _ a4
    | trego x u _ _ _ _ hxs _ a5 a6 =>
      refine ⟨by rw [a6]; exact hbest, ?_⟩
      have hge' := hge _ a5
      obtain ⟨ys, hy, fy⟩ := ht.ext.y
      obtain ⟨cs, hc, fc⟩ := ht.ext.c
      rcases hxs with ⟨rfl, _⟩ | rfl
      · exfalso
        have hys : ys = [] := List.eq_nil_of_length_eq_zero (by simpa using fy.length_eq.symm)
        have hcs : cs = [] := List.eq_nil_of_length_eq_zero (by simpa using fc.length_eq.symm)
        have e1 : s'.data.y = s.data.y := by rw [hy, hys]; simp
        have e2 : s'.data.c = s.data.c := by rw [hc, hcs]; simp
        rw [e1, e2] at hfm'
        exact hbest (IsFirstMin.unique hfm' hfm)
      · rw [hal.1]
        have hl := fy.length_eq
        have : s'.data.y.rows.length = s.data.y.rows.length + ys.length := by rw [hy]; simp
        simp only [List.length_singleton] at hl
        omega
  rw [ht.lastBestIter, if_pos]
  refine ⟨?_, hne.1⟩
  rw [ht.doeSize, hds]
  omega

/-- **C20** (partial, other direction). `last_best_iter` only changes when the current best changes, as long
as the run does not end with 'no more point to add'. -/
theorem C20_unchanged_best_partial (cfg : Cfg) (P : Prob) (o : Oracle) (s s' : St)
    (h' : turn cfg P o s = .ok s') (hnc : s'.converged = false) (hbest : s'.best = s.best) :
    s'.lastBestIter = s.lastBestIter := by
  obtain ⟨xs, us, ht⟩ := turn_spec h'
  have hp : s'.prevBest = s.best := by
    cases ht.kind with
    | noMore _ _ _ _ _ _ a7 => rw [a7] at hnc; cases hnc
    | ego _ _ _ _ a5 => exact a5
    | trego _ _ _ _ _ _ _ _ _ a6 => exact a6
  rw [ht.lastBestIter, if_neg]
  rintro ⟨_, h⟩
  exact h (by rw [hp, hbest])

/-- In the example run the second iteration finds a new best point. -/
example : ((run exCfg exProb (.points [[5], [3]]) [exOracle 5 (1/2), exOracle (1/3) (1/4)]).map
    fun s => (s.best, s.lastBestIter, s.iter)) = .ok (4, 2, 2) := by decide +kernel

/-- **C20** is refuted for the first point added after the initial design (`best_index > doe_size` instead
of `>=`): the first iteration finds a new best, `last_best_iter` stays 0. -/
theorem C20_refuted_first_added_point :
    ∃ (cfg : Cfg) (P : Prob) (doe : Doe) (o : Oracle) (s0 s : St),
      run cfg P doe [] = .ok s0 ∧ run cfg P doe [o] = .ok s ∧ s.iter = 1 ∧
      s0.best ≠ s.best ∧ s.best = doe.size ∧ s.converged = false ∧ s.lastBestIter = 0 := by
  have h0 : ((run exCfg exProb (.points [[5], [3]]) []).map fun s => s.best) = .ok 1 := by
    decide +kernel
  have h1 : ((run exCfg exProb (.points [[5], [3]]) [exOracle 5 (1/2)]).map
      fun s => (s.iter, s.best, s.converged, s.lastBestIter)) = .ok (1, 2, false, 0) := by
    decide +kernel
  obtain ⟨s0, hs0, h0⟩ := ok_of_map h0
  obtain ⟨s1, hs1, h1⟩ := ok_of_map h1
  simp only [Prod.mk.injEq] at h1
  exact ⟨_, _, _, _, s0, s1, hs0, hs1, h1.1, by rw [h0, h1.2.1]; decide, h1.2.1, h1.2.2.1, h1.2.2.2⟩

/-- **C20** is refuted when the run ends because no more point can be added: the iteration found nothing
and `last_best_iter` is set to it (the previous best index is stale). -/
theorem C20_refuted_no_more_point :
    ∃ (cfg : Cfg) (P : Prob) (doe : Doe) (os : List Oracle) (o : Oracle) (s s' : St),
      run cfg P doe os = .ok s ∧ run cfg P doe (os ++ [o]) = .ok s' ∧
      s'.best = s.best ∧ s'.data.x = s.data.x ∧ s.lastBestIter = 2 ∧ s'.lastBestIter = 3 := by
  have h0 : ((run exCfg exProb (.points [[5], [3]])
      [exOracle 5 (1/2), exOracle (1/3) (1/4)]).map fun s => (s.best, s.data.x, s.lastBestIter))
      = .ok (4, [[5], [3], [1/2], [1/3], [1/4]], 2) := by
    decide +kernel
  have h1 : ((run exCfg exProb (.points [[5], [3]])
      ([exOracle 5 (1/2), exOracle (1/3) (1/4)] ++ [exOracle 5 (1/2)])).map
        fun s => (s.best, s.data.x, s.lastBestIter))
      = .ok (4, [[5], [3], [1/2], [1/3], [1/4]], 3) := by
    decide +kernel
  obtain ⟨s0, hs0, h0⟩ := ok_of_map h0
  obtain ⟨s1, hs1, h1⟩ := ok_of_map h1
  simp only [Prod.mk.injEq] at h0 h1
  exact ⟨_, _, _, _, _, s0, s1, hs0, hs1, by rw [h1.1, h0.1], by rw [h1.2.1, h0.2.1], h0.2.2, h1.2.2⟩

end Verif.Props
