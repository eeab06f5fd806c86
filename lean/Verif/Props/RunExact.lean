import Verif.Props.RunCstr
import Verif.Props.Result

/-!
# C13, C14, C20, C26: what happens where these properties fail

The counterexamples of `Best.lean`, `RunBest.lean` and `RunCstr.lean` are instances of the general statements below.
-/

set_option autoImplicit false

namespace Verif.Props

open Verif Spec FindResult MixInt Run

/-! ## C13 -/

/-- **C13**, refuted by default. Unless `EGOR_USE_MAX_PROBA_OF_FEASIBILITY` is set, the flag says 'feasible' in all the
states of all runs, whatever the evaluations: it is right only when the current best is feasible. -/
theorem C13_refuted_flag_always (cfg : Cfg) (P : Prob) (doe : Doe) (os : List Oracle) (s : St)
    (hpof : cfg.usePof = false) (h : run cfg P doe os = .ok s) : s.feasible = true := by
  simp only [run, bind_ok] at h
  obtain ⟨s0, h0, h⟩ := h
  have hf := (init_spec h0).2.2.2.2.1
  refine loop_induction (fun t => t.feasible = true) ?_ h ?_
  · intro t t' o xs us _ ht _ _ hT
    cases hT.kind with
    | noMore _ _ _ _ _ a6 => rw [a6, ht]
    | ego _ _ _ _ _ a6 => simpa [updFeasible, ht] using a6.symm
    | trego _ _ _ _ _ _ _ _ _ _ a7 => simpa [updFeasible, ht] using a7.symm
  · simpa [updFeasible, hpof] using hf.symm

/-- An infeasible first evaluation, the flag being 'feasible'. -/
example : ((run { exCfg with usePof := false, tol := [.fin 0] } { exProb with g := [] }
    (.points [[5]]) []).map fun s => ((evals s.data)[s.best]?, s.feasible))
    = .ok (some [.fin 25, .fin 4], true) := by decide +kernel

/-! ## C14 -/

/-- A constraint value where NaN is replaced by a value below any tolerance. -/
def met (v : Flt) : Flt := if v = .nan then .ninf else v

/-- The evaluations where constraints which are NaN are replaced by satisfied ones; objectives are kept. -/
def metOutputs (m : Mat Flt) : Mat Flt := ⟨m.ncols, m.rows.map fun r => r.take 1 ++ (r.drop 1).map met⟩

/-- Same for values of function constraints. -/
def metConstraints (m : Mat Flt) : Mat Flt := ⟨m.ncols, m.rows.map fun r => r.map met⟩

theorem met_gt (v t : Flt) : Flt.gt (met v) t = Flt.gt v t := by
  cases v <;> cases t <;> simp [met, Flt.gt, Flt.cmp]

theorem met_sub (v t : Flt) (h : Flt.gt v t = true) : met v = v := by
  cases v <;> simp_all [met, Flt.gt, Flt.cmp]

theorem csumZip_met (cs tol : List Flt) : ∀ acc, csumZip acc (cs.map met) tol = csumZip acc cs tol := by
  induction cs generalizing tol with
  | nil => intro acc; rfl
  | cons c cs ih =>
    intro acc
    cases tol with
    | nil => simp [csumZip]
    | cons t ts =>
      simp only [List.map_cons, csumZip, met_gt, ih]
      split_ifs with hg
      · rw [met_sub _ _ hg]
      · rfl

theorem cstrSumLoop_met (cs tol : List Flt) : ∀ acc, cstrSumLoop acc (cs.map met) tol = cstrSumLoop acc cs tol := by
  induction cs generalizing tol with
  | nil => intro acc; rfl
  | cons c cs ih =>
    intro acc
    cases tol with
    | nil => simp [cstrSumLoop]
    | cons t ts =>
      simp only [List.map_cons, cstrSumLoop, met_gt, ih]
      split_ifs with hg
      · rw [met_sub _ _ hg]
      · rfl

/-- A row with its constraints replaced. -/
def metRow (r : List Flt) : List Flt := r.take 1 ++ (r.drop 1).map met

theorem metRow_cons (o : Flt) (cs : List Flt) : metRow (o :: cs) = o :: cs.map met := by simp [metRow]

theorem cstrSum_met (r tol : List Flt) : cstrSum (metRow r) tol = cstrSum r tol := by
  cases r with
  | nil => rfl
  | cons o cs => rw [metRow_cons]; exact cstrSumLoop_met cs tol _

theorem objCmp_met (a b : List Flt) : objCmp (metRow a) (metRow b) = objCmp a b := by
  cases a with
  | nil => rfl
  | cons o cs =>
    cases b with
    | nil => rfl
    | cons o' cs' => rw [metRow_cons, metRow_cons]; rfl

theorem metRow_length (r : List Flt) : (metRow r).length = r.length := by
  cases r <;> simp [metRow]

theorem cstrMin_met (a b tol : List Flt) : cstrMin (metRow a) (metRow b) tol = cstrMin a b tol := by
  unfold cstrMin
  rw [cstrSum_met, cstrSum_met, objCmp_met, metRow_length]

theorem minFold_met (tol : List Flt) (rs : List (List Flt)) : ∀ (k : Option ℕ) (b : List Flt) (i : ℕ),
    (minFold tol (k, metRow b) i (rs.map metRow)).map Prod.fst = (minFold tol (k, b) i rs).map Prod.fst := by
  induction rs with
  | nil => intro k b i; rfl
  | cons r rs ih =>
    intro k b i
    simp only [List.map_cons, minFold, cstrMin_met, bind, Except.bind]
    cases cstrMin b r tol with
    | error e => rfl
    | ok o => cases o <;> simp only [ih]

theorem allRows_met (y c : Mat Flt) (hy : ∀ r ∈ y.rows, r ≠ []) :
    allRows (metOutputs y) (metConstraints c) = (allRows y c).map metRow := by
  simp only [allRows, metOutputs, metConstraints, List.map_zipWith, List.zipWith_map]
  have : ∀ (a b : List (List Flt)), (∀ r ∈ a, r ≠ []) →
      List.zipWith (fun a b => (a.take 1 ++ (a.drop 1).map met) ++ b.map met) a b =
        List.zipWith (fun a b => metRow (a ++ b)) a b := by
    intro a
    induction a with
    | nil => intro b _; simp
    | cons r a ih =>
      intro b hb
      cases b with
      | nil => simp
      | cons r' b =>
        simp only [List.zipWith_cons_cons, ih b fun r hr => hb r (by simp [hr])]
        congr 1
        have := hb r (by simp)
        cases r with
        | nil => exact absurd rfl this
        | cons o cs => simp [metRow]
  exact this _ _ hy

/-- **C14**, what the code does with NaN constraints. A constraint which is NaN counts as satisfied, whatever its
tolerance: replacing it by a value below any tolerance changes neither the best evaluation found, at once or
incrementally, nor panics, nor feasibility. -/
theorem C14_nan_constraint_is_met (tol : List Flt) (y c : Mat Flt) (hy : ∀ r ∈ y.rows, r ≠ []) :
    findBest (metOutputs y) (metConstraints c) tol = findBest y c tol ∧
    (∀ current offset, findBestFrom current offset (metOutputs y) (metConstraints c) tol =
      findBestFrom current offset y c tol) ∧
    ∀ o cs c', isFeasible (o :: List.map met cs) (List.map met c') tol = isFeasible (o :: cs) c' tol := by
  have hn : ∀ a b : Mat Flt, (metOutputs a).rows.length = (metConstraints b).rows.length ↔
      a.rows.length = b.rows.length := by intro a b; simp [metOutputs, metConstraints]
  refine ⟨?_, ?_, ?_⟩
  · unfold findBest
    have e1 : (metOutputs y).ncols = y.ncols := rfl
    have e2 : (metConstraints c).ncols = c.ncols := rfl
    rw [e1, e2]
    split_ifs with hc h0
    · by_cases hl : y.rows.length = c.rows.length
      · rw [hcat_eq hl, hcat_eq ((hn y c).2 hl)]
        simp only [bind, Except.bind, allRows_met y c hy, List.map_map]
        have hco : ((fun r : List Flt => (csumZip .zero (r.drop 1) tol, r.headD .nan)) ∘ metRow) =
            fun r : List Flt => (csumZip .zero (r.drop 1) tol, r.headD .nan) := by
          funext r
          cases r with
          | nil => rfl
          | cons o cs => simp [metRow, csumZip_met]
        rw [hco]
        cases hR : allRows y c with
        | nil => simp [FindResult.argmin, fallback]
        | cons r rs =>
          obtain ⟨k, hk, _⟩ := argmin_spec
            (((r :: rs).map fun r : List Flt => (csumZip .zero (r.drop 1) tol, r.headD .nan)).map Prod.fst)
            (by simp)
            (by
              intro e he
              obtain ⟨p, hp, rfl⟩ := List.mem_map.1 he
              obtain ⟨r', _, rfl⟩ := List.mem_map.1 hp
              exact (csumZip_nonNeg _ _ _ (by simp [Flt.zero, NonNeg])).ne_nan)
          rw [List.map_map] at hk
          rw [hk]
      · have h1 : ¬ (metOutputs y).rows.length = (metConstraints c).rows.length := fun h => hl ((hn y c).1 h)
        simp [Mat.hcat, hl, h1, bind, Except.bind]
    · rfl
    · have : (metOutputs y).rows.map (fun r => r.headD .nan) = y.rows.map fun r => r.headD .nan := by
        simp only [metOutputs, List.map_map]
        refine List.map_congr_left fun r hr => ?_
        cases r with
        | nil => rfl
        | cons o cs => simp
      rw [this]
  · intro current offset
    unfold findBestFrom
    by_cases hl : y.rows.length = c.rows.length
    · rw [hcat_eq hl, hcat_eq ((hn y c).2 hl)]
      simp only [bind, Except.bind, allRows_met y c hy, List.length_map, List.getElem?_map]
      split_ifs with ho
      · rfl
      · cases hb : (allRows y c)[current]? with
        | none => rfl
        | some b =>
          simp only [Option.map_some, ← List.map_drop]
          have := minFold_met tol ((allRows y c).drop offset) none b 0
          cases h1 : minFold tol (none, metRow b) 0 (((allRows y c).drop offset).map metRow) with
          | error e =>
            cases h2 : minFold tol (none, b) 0 ((allRows y c).drop offset) with
            | error e' => rw [h1, h2] at this; simp [Except.map] at this; rw [this]
            | ok m => rw [h1, h2] at this; simp [Except.map] at this
          | ok m =>
            cases h2 : minFold tol (none, b) 0 ((allRows y c).drop offset) with
            | error e' => rw [h1, h2] at this; simp [Except.map] at this
            | ok m' =>
              rw [h1, h2] at this
              simp only [Except.map, Except.ok.injEq] at this
              simp only [this]
    · have h1 : ¬ (metOutputs y).rows.length = (metConstraints c).rows.length := fun h => hl ((hn y c).1 h)
      simp [Mat.hcat, hl, h1, bind, Except.bind]
  · intro o cs c'
    unfold isFeasible
    have : (o :: List.map met cs) ++ List.map met c' = metRow ((o :: cs) ++ c') := by simp [metRow]
    simp only [this, metRow_length, cstrSum_met]

/-- The NaN constraint of the second row is seen as satisfied. -/
example : metOutputs ⟨2, [[.fin 1, .fin (-1)], [.fin 0, .nan]]⟩ = ⟨2, [[.fin 1, .fin (-1)], [.fin 0, .ninf]]⟩ := by
  decide +kernel

/-- **C14**, refuted in general. An evaluation whose constraints are NaN or satisfied, with an objective below all
others, is always selected, even when the constraints of other evaluations are all known to be satisfied. -/
theorem C14_refuted_nan_selected (tol : List ℚ) (y c : Mat Flt) (hl : y.rows.length = c.rows.length) (hy : y.WF)
    (hc : c.WF) (hobj : 1 ≤ y.ncols) (ht : y.ncols + c.ncols = tol.length + 1)
    (hv : ∀ r ∈ evals ⟨[], y, c⟩, r.headD .nan ≠ .nan ∧ r.headD .nan ≠ .pinf) (i : ℕ) (r : List Flt)
    (hr : (evals ⟨[], y, c⟩)[i]? = some r)
    (hcs : List.Forall₂ (fun v (t : ℚ) => v = .nan ∨ toE v ≤ ((t : ℝ) : EReal)) r.tail tol)
    (hbest : ∀ j r', (evals ⟨[], y, c⟩)[j]? = some r' → j ≠ i → toE (r.headD .nan) < toE (r'.headD .nan)) :
    findBest y c (tol.map .fin) = .ok i := by
  have hrow : ∀ r ∈ evals ⟨[], y, c⟩, ∃ o cs, r = o :: cs ∧ cs.length = tol.length := by
    intro r hr
    obtain ⟨j, hj, rfl⟩ := List.mem_iff_getElem.1 hr
    simp only [evals, List.length_zipWith] at hj
    simp only [evals, List.getElem_zipWith]
    have h1 : (y.rows[j]'(by omega)).length = y.ncols := hy _ (List.getElem_mem _)
    have h2 : (c.rows[j]'(by omega)).length = c.ncols := hc _ (List.getElem_mem _)
    cases hR : (y.rows[j]'(by omega)) ++ (c.rows[j]'(by omega)) with
    | nil =>
      have := congrArg List.length hR
      simp only [List.length_append, h1, h2, List.length_nil] at this
      omega
    | cons o cs =>
      refine ⟨o, cs, rfl, ?_⟩
      have := congrArg List.length hR
      simp only [List.length_append, h1, h2, List.length_cons] at this
      omega
  have hyne : ∀ r ∈ y.rows, r ≠ [] := by
    intro r hr h0
    have := hy r hr
    rw [h0] at this
    simp at this
    omega
  have hE : List.zipWith (· ++ ·) (metOutputs y).rows (metConstraints c).rows = (evals ⟨[], y, c⟩).map metRow :=
    allRows_met y c hyne
  have hD : EvalData tol (metOutputs y) (metConstraints c) := by
    refine ⟨by simp [metOutputs, metConstraints, hl], ?_, ?_, hobj, ht, ?_⟩
    · intro r hr
      simp only [metOutputs, List.mem_map] at hr
      obtain ⟨r', hr', rfl⟩ := hr
      exact (metRow_length r').trans (hy r' hr')
    · intro r hr
      simp only [metConstraints, List.mem_map] at hr
      obtain ⟨r', hr', rfl⟩ := hr
      simpa [metConstraints] using hc r' hr'
    · intro r hr
      rw [hE] at hr
      obtain ⟨r', hr', rfl⟩ := List.mem_map.1 hr
      obtain ⟨o, cs, rfl, hcl⟩ := hrow r' hr'
      obtain ⟨h1, h2⟩ := hv _ hr'
      refine ⟨o, cs.map met, metRow_cons o cs, by simp [hcl], by simpa using h1, by simpa using h2, ?_⟩
      intro v hv
      obtain ⟨w, _, rfl⟩ := List.mem_map.1 hv
      cases w <;> simp [met]
  have hne : (metOutputs y).rows ≠ [] := by
    intro h0
    have : (evals ⟨[], y, c⟩).map metRow = [] := by rw [← hE, h0]; simp
    rw [List.map_eq_nil_iff] at this
    rw [this] at hr
    simp at hr
  obtain ⟨k, hk, hmin⟩ := C11_best_is_lexicographic_optimum tol _ _ hD hne
  rw [(C14_nan_constraint_is_met (tol.map .fin) y c hyne).1] at hk
  rw [hk]
  congr 1
  rw [hE, List.map_map] at hmin
  refine IsFirstMin.unique hmin ?_
  obtain ⟨hil, hir⟩ := List.getElem?_eq_some_iff.1 hr
  obtain ⟨o, cs, ho, hcl⟩ := hrow r (List.mem_of_getElem? hr)
  have hF : Feasible tol (metRow r).tail := by
    rw [ho, metRow_cons, List.tail_cons]
    rw [ho, List.tail_cons] at hcs
    clear hcl ho hir hil hr hbest hmin hk hne hD hE hyne hrow hv hl ht
    unfold Feasible
    induction hcs with
    | nil => exact .nil
    | @cons v t vs ts h _ ih =>
      refine .cons ?_ ih
      rcases h with rfl | h
      · simp [met, toE]
      · by_cases hn : v = .nan
        · simp [met, hn, toE]
        · simpa [met, hn] using h
  have hri : rank tol (metRow r) = toLex (0, toE (r.headD .nan)) := by
    unfold rank
    rw [if_pos hF]
    congr 2
    rw [ho, metRow_cons]
    rfl
  have hlt : ∀ j r', (evals ⟨[], y, c⟩)[j]? = some r' → j ≠ i → rank tol (metRow r) < rank tol (metRow r') := by
    intro j r' hr' hji
    rw [hri]
    obtain ⟨o', cs', ho', _⟩ := hrow r' (List.mem_of_getElem? hr')
    have hb := hbest j r' hr' hji
    unfold rank
    split_ifs with h
    · rw [Prod.Lex.toLex_lt_toLex]
      right
      refine ⟨rfl, ?_⟩
      rw [ho', metRow_cons]
      rw [ho'] at hb
      exact hb
    · rw [Prod.Lex.toLex_lt_toLex]
      left
      norm_num
  refine ⟨by simpa using hil, ?_, ?_⟩
  · intro x hx
    obtain ⟨r', hr', rfl⟩ := List.mem_map.1 hx
    obtain ⟨j, hj, hjr⟩ := List.mem_iff_getElem.1 hr'
    simp only [List.getElem_map, Function.comp, hir]
    by_cases hji : j = i
    · subst hji
      rw [← hjr, hir]
    · exact (hlt j r' (List.getElem?_eq_some_iff.2 ⟨hj, hjr⟩) hji).le
  · intro j hj
    simp only [List.getElem_map, Function.comp, hir]
    exact hlt j _ (List.getElem?_eq_getElem (by omega)) (by omega)

/-- The first evaluation is feasible, the second one has a NaN constraint. -/
example : findBest ⟨2, [[.fin 1, .fin (-1)], [.fin 0, .nan]]⟩ ⟨0, [[], []]⟩ ([0].map .fin) = .ok 1 := by
  refine C14_refuted_nan_selected [0] ⟨2, [[.fin 1, .fin (-1)], [.fin 0, .nan]]⟩ ⟨0, [[], []]⟩ rfl ?_ ?_ (by norm_num)
    rfl ?_ 1 [.fin 0, .nan] rfl ?_ ?_
  · intro r hr; simp at hr; rcases hr with rfl | rfl <;> rfl
  · intro r hr; simp at hr; subst hr; rfl
  · intro r hr; simp [evals] at hr; rcases hr with rfl | rfl <;> simp
  · exact .cons (.inl rfl) .nil
  · intro j r' h hj
    rcases j with _ | _ | j
    · simp [evals] at h
      subst h
      simp [toE]
    · exact absurd rfl hj
    · simp [evals] at h

/-! ## C20 -/

theorem lastBestIter_le {cfg : Cfg} {P : Prob} {doe : Doe} {os : List Oracle} {s : St}
    (h : run cfg P doe os = .ok s) : s.lastBestIter ≤ s.iter := by
  simp only [run, bind_ok] at h
  obtain ⟨s0, h0, h⟩ := h
  have hi := init_spec h0
  refine loop_induction (fun t => t.lastBestIter ≤ t.iter) ?_ h ?_
  · intro t t' o xs us _ ht _ _ hT
    rw [hT.lastBestIter]
    split_ifs
    · exact le_rfl
    · rw [hT.iter]; omega
  · rw [hi.2.2.2.2.2.2.2.2.2.2.2.1]; omega

/-- **C20**, refuted for all runs. An iteration which finds its new best at the first point added after the initial
design is never recorded: the iteration of the last best result stays an earlier one. -/
theorem C20_refuted_first_point_never_recorded (cfg : Cfg) (P : Prob) (doe : Doe) (os : List Oracle) (o : Oracle)
    (s s' : St) (h : run cfg P doe os = .ok s) (h' : turn cfg P o s = .ok s') (hidx : s'.best = doe.size) :
    s'.lastBestIter = s.lastBestIter ∧ s'.lastBestIter < s'.iter := by
  obtain ⟨_, _, _, _, _, hds, _⟩ := run_ext h
  obtain ⟨xs, us, ht⟩ := turn_spec h'
  have e : s'.lastBestIter = s.lastBestIter := by
    rw [ht.lastBestIter, if_neg]
    rintro ⟨h1, _⟩
    rw [ht.doeSize, hds] at h1
    omega
  refine ⟨e, ?_⟩
  rw [e, ht.iter]
  have := lastBestIter_le h
  omega

/-- **C20**, for all runs which end as no more point can be added. The last iteration changes nothing, and is recorded as
the one of the last best result exactly when the previous iteration found a new best (beyond the first added point). -/
theorem C20_refuted_last_iteration (cfg : Cfg) (P : Prob) (doe : Doe) (os : List Oracle) (o : Oracle)
    (s s' : St) (h : run cfg P doe os = .ok s) (hst : stops cfg s = false) (h' : turn cfg P o s = .ok s')
    (hc : s'.converged = true) :
    s'.data = s.data ∧ s'.best = s.best ∧
      (s'.lastBestIter = s'.iter ↔ doe.size < s.best ∧ s.best ≠ s.prevBest) := by
  obtain ⟨_, _, _, _, _, hds, _⟩ := run_ext h
  obtain ⟨xs, us, ht⟩ := turn_spec h'
  have hsc : s.converged = false := by
    simp only [stops, Bool.or_eq_false_iff] at hst
    exact hst.1.1
  cases ht.kind with
  | noMore _ _ a3 a4 a5 =>
    refine ⟨a3, a4, ?_⟩
    rw [ht.lastBestIter, ht.doeSize, hds, a4, a5]
    split_ifs with hh
    · exact ⟨fun _ => hh, fun _ => rfl⟩
    · refine ⟨fun e => ?_, fun e => absurd e hh⟩
      have := lastBestIter_le h
      rw [ht.iter] at e
      omega
  | ego _ _ _ _ _ _ _ a8 => rw [a8, hsc] at hc; cases hc
  | trego _ _ _ _ _ _ _ _ _ _ _ _ a9 => rw [a9, hsc] at hc; cases hc

/-! ## C26 -/

/-- The samples of the last iteration are the last rows of the data. -/
theorem last_recorded (cfg : Cfg) (P : Prob) (doe : Doe) (os : List Oracle) (s : St)
    (hr : cfg.recorder = true) (h : run cfg P doe os = .ok s) (hc : s.converged = false) :
    s.history.getLast?.getD s.initial =
      samples (s.data.x.drop (s.data.x.length - (s.added - s.prevAdded)))
        (s.data.y.rows.drop (s.data.x.length - (s.added - s.prevAdded))) := by
  simp only [run, bind_ok] at h
  obtain ⟨s0, h0, h⟩ := h
  obtain ⟨_, _, _, _, _, _, _, hadd, hpa, _, _, _, _, _, hhist, hinit⟩ := init_spec h0
  rw [hr, if_pos rfl] at hinit
  refine loop_induction (fun t => t.converged = false → t.history.getLast?.getD t.initial =
      samples (t.data.x.drop (t.data.x.length - (t.added - t.prevAdded)))
        (t.data.y.rows.drop (t.data.x.length - (t.added - t.prevAdded)))) ?_ h ?_ hc
  · intro t t' o xs us _ _ _ _ hT _
    rcases hT.history with ⟨hf, _⟩ | ⟨_, _, hh⟩
    · rw [hr] at hf; cases hf
    · rw [hh]; simp
  · intro _
    rw [hhist, hinit, hadd, hpa]
    simp

/-- **C26**, for all runs ended as no more point can be added. The recorder has the added points, each once and in order,
and then again those of the iteration before, or the initial design if there is none. -/
theorem C26_refuted_ended_run (cfg : Cfg) (P : Prob) (doe : Doe) (os : List Oracle) (s : St)
    (hr : cfg.recorder = true) (h : run cfg P doe os = .ok s) (hc : s.converged = true) :
    s.initial = samples (s.data.x.take doe.size) (s.data.y.rows.take doe.size) ∧
    ∃ hs, s.history = hs ++ [hs.getLast?.getD s.initial] ∧ hs.length + 1 = s.iter ∧
      hs.flatten = samples (s.data.x.drop doe.size) (s.data.y.rows.drop doe.size) := by
  induction os using List.reverseRecOn generalizing s with
  | nil =>
    simp only [run, loop, bind_ok, Except.ok.injEq] at h
    obtain ⟨s0, h0, rfl⟩ := h
    rw [(init_spec h0).2.2.2.2.2.2.2.2.2.2.2.2.1] at hc
    cases hc
  | append_singleton os o ih =>
    have hrun := h
    rw [run_append, bind_ok] at h
    obtain ⟨t, ht, h⟩ := h
    cases htc : t.converged with
    | true =>
      have : stops cfg t = true := by simp [stops, htc]
      simp only [loop, this, if_true, Except.ok.injEq] at h
      subst h
      exact ih t ht htc
    | false =>
      simp only [loop] at h
      split_ifs at h with hst
      · simp only [Except.ok.injEq] at h
        subst h
        rw [htc] at hc
        cases hc
      · simp only [bind_ok, Except.ok.injEq] at h
        obtain ⟨t', ht', rfl⟩ := h
        obtain ⟨xs, us, hT⟩ := turn_spec ht'
        obtain ⟨e1, e2, e3⟩ := C26_history_partial cfg P doe os t hr ht htc
        have hlast := last_recorded cfg P doe os t hr ht htc
        cases hT.kind with
        | noMore _ _ a3 _ _ _ _ a8 a9 =>
          refine ⟨by rw [hT.initial, a3, e1], t.history, ?_, by rw [e3, hT.iter], by rw [a3, e2]⟩
          rcases hT.history with ⟨hf, _⟩ | ⟨_, _, hh⟩
          · rw [hr] at hf; cases hf
          · rw [hh, a3, a8, a9, hT.initial, ← hlast]
        | ego _ _ _ _ _ _ _ a8 => rw [a8, htc] at hc; cases hc
        | trego _ _ _ _ _ _ _ _ _ _ _ _ a9 => rw [a9, htc] at hc; cases hc

end Verif.Props
