import Verif.Model.History
import Verif.Props.RunBest
import Verif.Props.Result

/-!
# Properties of the files written at each iteration (C124, C125)
-/

set_option autoImplicit false

namespace Verif.Props

open Verif Spec FindResult MixInt Run Result History

/-! ## Statement -/

/-- The row which `egor_history.npy` has for the state `t` reached at the end of an iteration: outputs of the best
point, then its inputs. -/
def HistRow (t : St) (r : List Flt) : Prop :=
  ∃ x y, t.data.x[t.best]? = some x ∧ t.data.y.rows[t.best]? = some y ∧ r = y ++ x.map .fin

/-- The rows of `egor_doe.npy` for the data `d`: inputs, outputs, function constraints of each point. -/
def IsDoeFile (d : Data) (m : List (List Flt)) : Prop :=
  m.length = d.x.length ∧ ∀ (i : ℕ) (r : List Flt), m[i]? = some r ↔
    ∃ x y c, d.x[i]? = some x ∧ d.y.rows[i]? = some y ∧ d.c.rows[i]? = some c ∧ r = x.map .fin ++ y ++ c

/-! ## Proofs -/

/-- An observer which has seen the given rows. -/
def Seen (o : Obs) (ps : List (List ℚ)) (cs : List (List Flt)) : Prop :=
  (o = Obs.new ∧ ps = [] ∧ cs = []) ∨ o = ⟨some ps, some cs⟩

theorem beside_ok {a b : List (List Flt)} (h : a.length = b.length) :
    beside a b = .ok (List.zipWith (· ++ ·) a b) := if_pos h

theorem update_idem {s t : St} (h : update s = .ok t) :
    ∃ p c, t.bestParam = some p ∧ t.bestCost = some c ∧ t.data = s.data ∧ t.best = s.best ∧ t.iter = s.iter ∧
      s.data.x[s.best]? = some p ∧ s.data.y.rows[s.best]? = some c ∧ ∃ t', update t = .ok t' ∧
      t'.bestParam = some p ∧ t'.bestCost = some c := by
  simp only [update, bind_ok] at h
  obtain ⟨cost, hc, ht⟩ := h
  cases hx : s.data.x[s.best]? with
  | none => simp [hx] at ht
  | some p =>
    simp only [hx, Except.ok.injEq] at ht
    have hr : s.data.y.rows[s.best]? = some cost := by
      unfold row at hc
      split at hc
      · simp only [Except.ok.injEq] at hc; subst hc; assumption
      · simp at hc
    subst ht
    refine ⟨p, cost, rfl, rfl, rfl, rfl, rfl, rfl, hr, ?_⟩
    simp only [update, hc, bind, Except.bind, hx]
    exact ⟨_, rfl, rfl, rfl⟩

theorem doe_rows (d : Data) (ha : Aligned d) :
    ∃ m, (beside (d.x.map (·.map .fin)) d.y.rows >>= fun xy => beside xy d.c.rows) = .ok m ∧ IsDoeFile d m := by
  have h1 : (d.x.map (·.map Flt.fin)).length = d.y.rows.length := by simpa using ha.1
  have h2 : (List.zipWith (· ++ ·) (d.x.map (·.map Flt.fin)) d.y.rows).length = d.c.rows.length := by
    rw [List.length_zipWith, h1, min_self, ← ha.1, ha.2]
  refine ⟨_, by rw [beside_ok h1]; simp only [bind, Except.bind]; rw [beside_ok h2], ?_, ?_⟩
  · rw [List.length_zipWith, h2, min_self, ha.2]
  · intro i r
    rw [List.getElem?_zipWith, List.getElem?_zipWith, List.getElem?_map]
    rcases hx : d.x[i]? with _ | x <;> rcases hy : d.y.rows[i]? with _ | y <;>
      rcases hc : d.c.rows[i]? with _ | c <;> simp [eq_comm]

theorem observe_ok {s1 s2 : St} {o : Obs} {ps : List (List ℚ)} {cs : List (List Flt)} (h : update s1 = .ok s2)
    (ha : Aligned s2.data) (ho : Seen o ps cs) (hl : ps.length = cs.length) :
    ∃ p c m, s2.data.x[s2.best]? = some p ∧ s2.data.y.rows[s2.best]? = some c ∧ IsDoeFile s2.data m ∧
      observe s2 o = .ok (⟨some (ps ++ [p]), some (cs ++ [c])⟩,
        ⟨some m, some (List.zipWith (· ++ ·) (cs ++ [c]) ((ps ++ [p]).map (·.map .fin)))⟩) := by
  obtain ⟨p, c, e1, e2, e3, e4, _, e5, e6, t', e7, e8, e9⟩ := update_idem h
  obtain ⟨m, hm, hd⟩ := doe_rows s2.data ha
  refine ⟨p, c, m, by rw [e3, e4, e5], by rw [e3, e4, e6], hd, ?_⟩
  rw [bind_ok] at hm
  obtain ⟨xy, hxy, hm⟩ := hm
  have hlen : (cs ++ [c]).length = ((ps ++ [p]).map (·.map Flt.fin)).length := by simp [hl]
  rcases ho with ⟨rfl, rfl, rfl⟩ | rfl
  · simp only [observe, hxy, hm, Obs.new, e7, e8, e9, unwrap, bind, Except.bind, List.nil_append]
    rw [beside_ok (by simp)]
  · simp only [observe, hxy, hm, e1, e2, unwrap, bind, Except.bind]
    rw [beside_ok hlen]

theorem loopObs_spec (cfg : Cfg) (P : Prob) (ks : List Oracle) : ∀ (s s' : St) (o : Obs) (f : Files)
    (ps : List (List ℚ)) (cs : List (List Flt)), Aligned s.data → Seen o ps cs → ps.length = cs.length →
    loop cfg P ks s = .ok s' →
    ∃ o' f' ps' cs', loopObs cfg P ks s o f = .ok (s', o', f') ∧ s'.iter = s.iter + ps'.length ∧
      ps'.length = cs'.length ∧ (ps' = [] → f' = f ∧ s' = s) ∧
      (ps' ≠ [] → (∃ m, f'.doe = some m ∧ IsDoeFile s'.data m) ∧
        f'.history = some (List.zipWith (· ++ ·) (cs ++ cs') ((ps ++ ps').map (·.map .fin)))) ∧
      ∀ k < ps'.length, ∃ t, loop cfg P (ks.take (k + 1)) s = .ok t ∧ t.iter = s.iter + (k + 1) ∧
        t.data.x[t.best]? = ps'[k]? ∧ t.data.y.rows[t.best]? = cs'[k]? := by
  induction ks with
  | nil =>
    intro s s' o f ps cs _ _ _ h
    simp only [loop, Except.ok.injEq] at h
    subst h
    exact ⟨o, f, [], [], rfl, rfl, rfl, fun _ => ⟨rfl, rfl⟩, fun h => absurd rfl h, fun k hk => absurd hk (by simp)⟩
  | cons q ks ih =>
    intro s s' o f ps cs ha ho hl h
    simp only [loop] at h
    by_cases hs : stops cfg s = true
    · rw [if_pos hs, Except.ok.injEq] at h
      subst h
      exact ⟨o, f, [], [], by rw [loopObs, if_pos hs], rfl, rfl, fun _ => ⟨rfl, rfl⟩, fun h => absurd rfl h,
        fun k hk => absurd hk (by simp)⟩
    · rw [if_neg hs, bind_ok] at h
      obtain ⟨s3, h3, h⟩ := h
      obtain ⟨xs, us, hT⟩ := turn_spec h3
      have h3' := h3
      simp only [turn, bind_ok, Except.ok.injEq] at h3
      obtain ⟨s1, h1, s2, h2, rfl⟩ := h3
      have ha2 : Aligned s2.data := hT.ext.aligned ha
      obtain ⟨p, c, m, hp, hc, hd, hob⟩ := observe_ok h2 ha2 ho hl
      obtain ⟨o', f', ps', cs', g1, g2, g3, g4, g5, g6⟩ := ih { s2 with iter := s2.iter + 1 } s' _
        ⟨some m, some (List.zipWith (· ++ ·) (cs ++ [c]) ((ps ++ [p]).map (·.map .fin)))⟩ (ps ++ [p]) (cs ++ [c])
        ha2 (Or.inr rfl) (by simp [hl]) h
      have hit : s2.iter = s.iter := by have := hT.iter; simp only at this; omega
      refine ⟨o', f', p :: ps', c :: cs', ?_, ?_, by simp [g3], by simp, fun _ => ?_, ?_⟩
      · rw [loopObs, if_neg hs]
        simp only [bind, Except.bind, h1, h2, hob]
        exact g1
      · rw [g2]; simp only [List.length_cons]; omega
      · by_cases he : ps' = []
        · obtain ⟨rfl, rfl⟩ := g4 he
          subst he
          have : cs' = [] := List.eq_nil_of_length_eq_zero (by rw [← g3]; rfl)
          subst this
          exact ⟨⟨m, rfl, hd⟩, rfl⟩
        · obtain ⟨u1, u2⟩ := g5 he
          refine ⟨u1, ?_⟩
          rw [u2]; simp
      · intro k hk
        have hf : stops cfg s = false := by simpa using hs
        cases k with
        | zero =>
          refine ⟨{ s2 with iter := s2.iter + 1 }, ?_, ?_, by simpa using hp, by simpa using hc⟩
          · simp only [List.take_succ_cons, List.take_zero, loop, hf, h3', bind, Except.bind]
            rfl
          · simp only; omega
        | succ k =>
          obtain ⟨t, w1, w2, w3, w4⟩ := g6 k (by simpa using hk)
          refine ⟨t, ?_, ?_, by simpa using w3, by simpa using w4⟩
          · rw [List.take_succ_cons, loop, if_neg hs, h3']
            exact w1
          · rw [w2]; simp only; omega

theorem hist_row {ps : List (List ℚ)} {cs : List (List Flt)} {t : St} {k : ℕ} (hk : k < ps.length)
    (hl : ps.length = cs.length) (h1 : t.data.x[t.best]? = ps[k]?) (h2 : t.data.y.rows[t.best]? = cs[k]?) :
    ∃ r, (List.zipWith (· ++ ·) cs (ps.map (·.map Flt.fin)))[k]? = some r ∧ HistRow t r := by
  have hk' : k < cs.length := by omega
  rw [List.getElem?_eq_getElem hk] at h1
  rw [List.getElem?_eq_getElem hk'] at h2
  refine ⟨_, ?_, _, _, h1, h2, rfl⟩
  rw [List.getElem?_zipWith, List.getElem?_map, List.getElem?_eq_getElem hk, List.getElem?_eq_getElem hk']
  rfl

/-- **C124**. Writing the files never fails nor changes the run. After a run of at least one iteration
`egor_history.npy` has one row per iteration, row `k` giving the best point at the end of iteration `k + 1`, and
`egor_doe.npy` has one row per point of the data. Files are left as they were by a run without iteration. -/
theorem C124_files (cfg : Cfg) (P : Prob) (doe : Doe) (os : List Oracle) (s : St) (f : Files)
    (h : run cfg P doe os = .ok s) :
    ∃ f', runObs cfg P doe os f = .ok (s, f') ∧ (s.iter = 0 → f' = f) ∧
      (s.iter ≠ 0 → ∃ m hist, f' = ⟨some m, some hist⟩ ∧ IsDoeFile s.data m ∧ hist.length = s.iter ∧
        ∀ k < s.iter, ∃ t r, run cfg P doe (os.take (k + 1)) = .ok t ∧ t.iter = k + 1 ∧ hist[k]? = some r ∧
          HistRow t r) := by
  have h' := h
  simp only [run, bind_ok] at h
  obtain ⟨s0, h0, h⟩ := h
  have hi : s0.iter = 0 := (init_spec h0).2.2.2.2.2.2.2.2.2.2.1
  obtain ⟨o', f', ps, cs, g1, g2, g3, g4, g5, g6⟩ := loopObs_spec cfg P os s0 s Obs.new f [] [] (init_aligned h0)
    (Or.inl ⟨rfl, rfl, rfl⟩) rfl h
  rw [hi, Nat.zero_add] at g2
  refine ⟨f', ?_, ?_, ?_⟩
  · simp only [runObs, bind, Except.bind, h0, g1]
  · intro hz
    exact (g4 (List.eq_nil_of_length_eq_zero (by omega))).1
  · intro hz
    have hne : ps ≠ [] := by rintro rfl; exact hz g2
    obtain ⟨⟨m, e1, e2⟩, e3⟩ := g5 hne
    refine ⟨m, List.zipWith (· ++ ·) cs (ps.map (·.map .fin)), ?_, e2, ?_, ?_⟩
    · cases f'; simp only [List.nil_append] at e1 e3; rw [e1, e3]
    · simp [← g3, g2]
    · intro k hk
      rw [g2] at hk
      obtain ⟨t, w1, w2, w3, w4⟩ := g6 k hk
      obtain ⟨r, r1, r2⟩ := hist_row hk g3 w3 w4
      refine ⟨t, r, ?_, by omega, by simpa using r1, r2⟩
      simp only [run, bind, Except.bind, h0]
      exact w1

theorem loop_same_iter {cfg : Cfg} {P : Prob} {os : List Oracle} {s s' : St} (ha : Aligned s.data)
    (h : loop cfg P os s = .ok s') (hi : s'.iter = s.iter) : s' = s := by
  obtain ⟨_, _, ps, _, _, g2, _, g4, _⟩ := loopObs_spec cfg P os s s' Obs.new ⟨none, none⟩ [] [] ha
    (Or.inl ⟨rfl, rfl, rfl⟩) rfl h
  exact (g4 (List.eq_nil_of_length_eq_zero (by omega))).2

/-- **C124**. The last row of `egor_history.npy` is the outcome of the run: `y_opt` then `x_opt`, for problems without
discrete variable. -/
theorem C124_last_row_is_result (cfg : Cfg) (P : Prob) (doe : Doe) (os : List Oracle) (s : St) (f : Files)
    (h : run cfg P doe os = .ok s) (hz : s.iter ≠ 0) (hd : isDiscrete cfg.xtypes = false) :
    ∃ m hist res, runObs cfg P doe os f = .ok (s, ⟨some m, some hist⟩) ∧ optimResult cfg s = .ok res ∧
      hist.getLast? = some (res.yOpt ++ res.xOpt.map .fin) := by
  obtain ⟨f', h1, _, h2⟩ := C124_files cfg P doe os s f h
  obtain ⟨m, hist, rfl, _, hl, h3⟩ := h2 hz
  obtain ⟨t, r, ht, hti, hr, x, y, hx, hy, rfl⟩ := h3 (s.iter - 1) (by omega)
  have hst : s = t := by
    have h' := h
    rw [← List.take_append_drop (s.iter - 1 + 1) os, run_append, ht] at h'
    exact loop_same_iter (C15_run_data_aligned cfg P doe _ t ht) h' (by omega)
  subst hst
  obtain ⟨⟨p, hp, hp'⟩, ⟨c, hc, hc'⟩, _⟩ := run_best h
  have e1 : p = x := Option.some.inj (hp'.symm.trans hx)
  have e2 : c = y := Option.some.inj (hc'.symm.trans hy)
  subst e1 e2
  refine ⟨m, hist, ⟨p, c, s.data.x, s.data.y⟩, h1, ?_, ?_⟩
  · simp only [optimResult, hp, hc, hd]; rfl
  · rw [List.getLast?_eq_getElem?, hl, hr]

/-- **C124**. Rows never get worse: of two rows of `egor_history.npy`, the later one is the evaluation of a point which
ranks (feasibility, then objective or violation) at least as well; without constraint its objective is at most that of
the earlier one. -/
theorem C124_never_worse (cfg : Cfg) (P : Prob) (doe : Doe) (os : List Oracle) (s : St) (f f' : Files) (tol : List ℚ)
    (hist : List (List Flt)) (h : run cfg P doe os = .ok s) (hg : GoodRun cfg tol s) (hz : s.iter ≠ 0)
    (hf : runObs cfg P doe os f = .ok (s, f')) (hh : f'.history = some hist) (j k : ℕ) (hjk : j ≤ k)
    (hk : k < hist.length) :
    ∃ x y c x' y' c', hist[j]? = some (y ++ x) ∧ hist[k]? = some (y' ++ x') ∧ y ++ c ∈ evals s.data ∧
      y' ++ c' ∈ evals s.data ∧ rank tol (y' ++ c') ≤ rank tol (y ++ c) ∧
      (tol = [] → toE (y'.headD .nan) ≤ toE (y.headD .nan)) := by
  obtain ⟨f'', h1, _, h2⟩ := C124_files cfg P doe os s f h
  rw [hf] at h1
  simp only [Except.ok.injEq, Prod.mk.injEq, true_and] at h1
  subst h1
  obtain ⟨m, hist', rfl, _, hl, h3⟩ := h2 hz
  simp only [Option.some.injEq] at hh
  subst hh
  obtain ⟨t, r, ht, hti, hr, x, y, hx, hy, rfl⟩ := h3 j (by omega)
  obtain ⟨t', r', ht', hti', hr', x', y', hx', hy', rfl⟩ := h3 k (by omega)
  have split1 : os.take (k + 1) = os.take (j + 1) ++ (os.take (k + 1)).drop (j + 1) := by
    have := (List.take_append_drop (j + 1) (os.take (k + 1))).symm
    rwa [List.take_take, min_eq_left (by omega)] at this
  have hs : run cfg P doe (os.take (k + 1) ++ os.drop (k + 1)) = .ok s := by rw [List.take_append_drop]; exact h
  obtain ⟨hg', hp'⟩ := goodRun_of_more ht' hs hg
  have ht2 := ht'
  rw [split1] at ht2
  obtain ⟨hg0, hp⟩ := goodRun_of_more ht ht2 hg'
  obtain ⟨e, e', he, he', hrank, hfeas⟩ := C13_best_never_worse cfg P doe _ _ t t' tol ht ht2 hg'
  have form : ∀ (u : St) (e y : List Flt), (evals u.data)[u.best]? = some e →
      u.data.y.rows[u.best]? = some y → ∃ c, e = y ++ c := by
    intro u e y h1 h2
    simp only [evals, List.getElem?_zipWith, h2] at h1
    rcases hc : u.data.c.rows[u.best]? with _ | c
    · simp [hc] at h1
    · simp only [hc, Option.some.injEq] at h1
      exact ⟨c, h1.symm⟩
  obtain ⟨c, rfl⟩ := form t e y he hy
  obtain ⟨c', rfl⟩ := form t' e' y' he' hy'
  refine ⟨_, y, c, _, y', c', hr, hr', hp'.subset (hp.subset (List.mem_of_getElem? he)),
    hp'.subset (List.mem_of_getElem? he'), hrank, ?_⟩
  rintro rfl
  have key : ∀ (u : St) (y c : List Flt), GoodRun cfg [] u → u.data.y.rows[u.best]? = some y →
      y ++ c ∈ evals u.data → Feasible [] (y ++ c).tail ∧ (y ++ c).headD .nan = y.headD .nan := by
    intro u y c hgu hyu hmem
    obtain ⟨o, cs, e, hlen, _⟩ := hgu.data.valid _ hmem
    rw [List.length_nil, List.length_eq_zero_iff] at hlen
    subst hlen
    refine ⟨by rw [e]; exact List.Forall₂.nil, ?_⟩
    have h1 := hgu.data.y_wf _ (List.mem_of_getElem? hyu)
    have h2 := hgu.data.obj
    cases y with
    | nil => simp only [List.length_nil] at h1; omega
    | cons a y => rfl
  obtain ⟨k1, k2⟩ := key t y c hg0 hy (List.mem_of_getElem? he)
  obtain ⟨_, k3⟩ := key t' y' c' hg' hy' (List.mem_of_getElem? he')
  have := (hfeas k1).2
  rwa [k2, k3] at this

example : ∃ s f', run exCfg exProb (.points [[5], [3]]) [exOracle 5 (1/2), exOracle (1/3) (1/4)] = .ok s ∧
    runObs exCfg exProb (.points [[5], [3]]) [exOracle 5 (1/2), exOracle (1/3) (1/4)] ⟨none, none⟩ = .ok (s, f') ∧
    s.iter = 2 ∧ f'.history = some [[.fin (1/4), .fin (-1/2), .fin (1/2)], [.fin (1/16), .fin (-3/4), .fin (1/4)]] := by
  have h : ((runObs exCfg exProb (.points [[5], [3]]) [exOracle 5 (1/2), exOracle (1/3) (1/4)] ⟨none, none⟩).map
      fun r => (r.1.iter, r.2.history))
      = .ok (2, some [[.fin (1/4), .fin (-1/2), .fin (1/2)], [.fin (1/16), .fin (-3/4), .fin (1/4)]]) := by
    decide +kernel
  have h' : ((run exCfg exProb (.points [[5], [3]]) [exOracle 5 (1/2), exOracle (1/3) (1/4)]).map
      fun r => r.iter) = .ok 2 := by decide +kernel
  obtain ⟨s, hs, h2⟩ := ok_of_map h'
  obtain ⟨f', h3, _⟩ := C124_files _ _ _ _ _ ⟨none, none⟩ hs
  rw [h3] at h
  simp only [Except.map, Except.ok.injEq, Prod.mk.injEq] at h
  exact ⟨s, f', hs, h3, h.1, h.2⟩

/-! ## C125 -/

/-- C125 (part). Each row of `egor_history.npy` has the inputs and the outputs of the best point of its iteration: as
many values as inputs and outputs, the outputs being first. -/
theorem C125_row_contents_partial (cfg : Cfg) (P : Prob) (doe : Doe) (os : List Oracle) (s : St) (f f' : Files)
    (hist : List (List Flt)) (h : run cfg P doe os = .ok s) (hz : s.iter ≠ 0)
    (hf : runObs cfg P doe os f = .ok (s, f')) (hh : f'.history = some hist) (k : ℕ) (hk : k < s.iter) :
    ∃ t x y r, run cfg P doe (os.take (k + 1)) = .ok t ∧ t.bestParam = some x ∧ t.bestCost = some y ∧
      hist[k]? = some r ∧ r.length = x.length + y.length ∧ r.take y.length = y ∧ r.drop y.length = x.map .fin := by
  obtain ⟨f'', h1, _, h2⟩ := C124_files cfg P doe os s f h
  rw [hf] at h1
  simp only [Except.ok.injEq, Prod.mk.injEq, true_and] at h1
  subst h1
  obtain ⟨m, hist', rfl, _, hl, h3⟩ := h2 hz
  simp only [Option.some.injEq] at hh
  subst hh
  obtain ⟨t, r, ht, hti, hr, x, y, hx, hy, rfl⟩ := h3 k hk
  obtain ⟨⟨p, hp, hp'⟩, ⟨c, hc, hc'⟩, _⟩ := run_best ht
  have e1 : p = x := Option.some.inj (hp'.symm.trans hx)
  have e2 : c = y := Option.some.inj (hc'.symm.trans hy)
  subst e1 e2
  exact ⟨t, p, c, _, ht, hp, hc, hr, by simp [Nat.add_comm], by simp, by simp⟩

/-- C125 (part). A run restarted from a checkpoint writes the rows of its own iterations only; `egor_doe.npy` has all
the points, those of the first run included. -/
theorem C125_restart_partial (cfg : Cfg) (P : Prob) (doe : Doe) (os os' : List Oracle) (ext : ℕ) (s s' : St)
    (f : Files) (h : run cfg P doe os = .ok s)
    (h' : loop cfg P os' { s with maxIters := s.maxIters + ext } = .ok s') (hz : s'.iter ≠ s.iter) :
    ∃ m hist, resumeObs cfg P ext s os' f = .ok (s', ⟨some m, some hist⟩) ∧ IsDoeFile s'.data m ∧
      hist.length = s'.iter - s.iter ∧ s.iter < s'.iter ∧ s.data.x <+: s'.data.x := by
  have ha : Aligned s.data := C15_run_data_aligned cfg P doe os s h
  obtain ⟨o', f', ps, cs, g1, g2, g3, g4, g5, g6⟩ := loopObs_spec cfg P os' _ s' Obs.new f [] [] (by exact ha)
    (Or.inl ⟨rfl, rfl, rfl⟩) rfl h'
  simp only at g2
  have hne : ps ≠ [] := by rintro rfl; exact hz g2
  obtain ⟨⟨m, e1, e2⟩, e3⟩ := g5 hne
  obtain ⟨xs, hext, _⟩ := loop_ext h'
  have hpos : 0 < ps.length := List.length_pos_iff.2 hne
  refine ⟨m, List.zipWith (· ++ ·) cs (ps.map (·.map .fin)), ?_, e2, ?_, by omega, ?_⟩
  · simp only [resumeObs, bind, Except.bind, g1]
    cases f'; simp only [List.nil_append] at e1 e3; rw [e1, e3]
  · simp only [List.length_zipWith, List.length_map, ← g3, min_self]; omega
  · rw [hext.x]; exact List.prefix_append _ _

/-- C125 does not hold: rows are not (inputs, outputs) as documented. -/
theorem C125_refuted_columns :
    ∃ (cfg : Cfg) (P : Prob) (doe : Doe) (os : List Oracle) (s : St) (f' : Files) (hist : List (List Flt))
      (x : List ℚ) (y : List Flt), run cfg P doe os = .ok s ∧ runObs cfg P doe os ⟨none, none⟩ = .ok (s, f') ∧
      f'.history = some hist ∧ s.iter = 1 ∧ s.bestParam = some x ∧ s.bestCost = some y ∧
      hist ≠ [x.map .fin ++ y] := by
  have h' : ((run exCfg exProb (.points [[5], [3]]) [exOracle 5 (1/2)]).map
      fun r => (r.iter, r.bestParam, r.bestCost)) = .ok (1, some [1/2], some [.fin (1/4), .fin (-1/2)]) := by
    decide +kernel
  have h : ((runObs exCfg exProb (.points [[5], [3]]) [exOracle 5 (1/2)] ⟨none, none⟩).map fun r => r.2.history)
      = .ok (some [[.fin (1/4), .fin (-1/2), .fin (1/2)]]) := by decide +kernel
  obtain ⟨s, hs, h2⟩ := ok_of_map h'
  simp only [Prod.mk.injEq] at h2
  obtain ⟨f', h3, _⟩ := C124_files _ _ _ _ _ ⟨none, none⟩ hs
  rw [h3] at h
  simp only [Except.map, Except.ok.injEq] at h
  exact ⟨_, _, _, _, s, f', _, _, _, hs, h3, h, h2.1, h2.2.1, h2.2.2, by decide +kernel⟩

/-- C125 does not hold: after a restart the file has less rows than the run has iterations. -/
theorem C125_refuted_restart :
    ∃ (cfg : Cfg) (P : Prob) (doe : Doe) (os os' : List Oracle) (s s' : St) (f f' : Files) (hist hist' : List (List Flt)),
      runObs cfg P doe os ⟨none, none⟩ = .ok (s, f) ∧ f.history = some hist ∧ hist.length = 2 ∧ s.iter = 2 ∧
      resumeObs cfg P 0 s os' f = .ok (s', f') ∧ f'.history = some hist' ∧ hist'.length = 1 ∧ s'.iter = 3 := by
  have h : ((runObs exCfg exProb (.points [[5], [3]]) [exOracle 5 (1/2), exOracle (1/3) (1/4)] ⟨none, none⟩ >>=
      fun r => (resumeObs exCfg exProb 0 r.1 [exOracle 5 (1/5)] r.2).map fun r' =>
        ((r.1.iter, r.2.history), r'.1.iter, r'.2.history)))
      = .ok ((2, some [[.fin (1/4), .fin (-1/2), .fin (1/2)], [.fin (1/16), .fin (-3/4), .fin (1/4)]]),
          3, some [[.fin (1/25), .fin (-4/5), .fin (1/5)]]) := by decide +kernel
  rw [bind_ok] at h
  obtain ⟨⟨s, f⟩, h1, h⟩ := h
  obtain ⟨⟨s', f'⟩, h2, h⟩ := ok_of_map h
  simp only [Prod.mk.injEq] at h
  exact ⟨_, _, _, _, _, s, s', f, f', _, _, h1, h.1.2, rfl, h.1.1, h2, h.2.2, rfl, h.2.1⟩

/-- A problem with a categorical variable: `f(0) = 3`, `f(1) = 2`, `f(2) = 1`. -/
def enumCfg : Cfg := { exCfg with xtypes := [.enum 3], qPoints := 1, nOut := 1, tol := [] }

def enumProb : Prob where
  f := fun x => match x with
    | [a] => [.fin (3 - a)]
    | _ => []
  g := []

/-- C125 does not hold: with discrete variables rows have coordinates of the relaxed space, here three columns for one
variable and values which are not those given to the objective. -/
theorem C125_refuted_discrete :
    ∃ (os : List Oracle) (s : St) (f' : Files) (res : Optim),
      runObs enumCfg enumProb (.points [[1, 0, 0]]) os ⟨none, none⟩ = .ok (s, f') ∧
      optimResult enumCfg s = .ok res ∧ res.xOpt = [2] ∧ res.yOpt = [.fin 1] ∧
      f'.history = some [[.fin 1, .fin 0, .fin (1/4), .fin (1/2)]] := by
  have h : ((runObs enumCfg enumProb (.points [[1, 0, 0]])
      [⟨fun _ _ => some ⟨[0, 1/4, 1/2], [.fin 0], []⟩, []⟩] ⟨none, none⟩ >>=
      fun r => (optimResult enumCfg r.1).map fun res => (r.2.history, res.xOpt, res.yOpt)))
      = .ok (some [[.fin 1, .fin 0, .fin (1/4), .fin (1/2)]], [2], [.fin 1]) := by decide +kernel
  rw [bind_ok] at h
  obtain ⟨⟨s, f⟩, h1, h⟩ := h
  obtain ⟨res, h2, h⟩ := ok_of_map h
  simp only [Prod.mk.injEq] at h
  exact ⟨_, s, f, res, h1, h2, h.2.1, h.2.2, h.1⟩

end Verif.Props
