import Verif.Lemmas.Run

/-!
# C15 to C19: data of a run
-/

set_option autoImplicit false

namespace Verif.Run

open Spec FindResult MixInt

theorem loop_append (cfg : Cfg) (P : Prob) (os os' : List Oracle) (s : St) :
    loop cfg P (os ++ os') s = loop cfg P os s >>= loop cfg P os' := by
  induction os generalizing s with
  | nil => simp [loop, bind, Except.bind]
  | cons o os ih =>
    simp only [List.cons_append, loop]
    split_ifs with hs
    · simp only [bind, Except.bind]
      cases os' with
      | nil => rfl
      | cons => simp [loop, hs]
    · cases ht : turn cfg P o s with
      | error e => rfl
      | ok s1 => exact ih s1

theorem run_append (cfg : Cfg) (P : Prob) (doe : Doe) (os os' : List Oracle) :
    run cfg P doe (os ++ os') = run cfg P doe os >>= loop cfg P os' := by
  unfold run
  cases init cfg P doe with
  | error e => rfl
  | ok s => exact loop_append cfg P os os' s

/-- Induction principle on the executor loop. -/
theorem loop_induction {cfg : Cfg} {P : Prob} {os : List Oracle} (I : St → Prop)
    (hstep : ∀ s s' o xs us, o ∈ os → I s → stops cfg s = false → turn cfg P o s = .ok s' →
      Turn cfg P o s s' xs us → I s')
    {s s' : St} (h : loop cfg P os s = .ok s') (hs : I s) : I s' := by
  induction os generalizing s with
  | nil => simp only [loop, Except.ok.injEq] at h; exact h ▸ hs
  | cons o os ih =>
    simp only [loop] at h
    split_ifs at h with hst
    · simp only [Except.ok.injEq] at h; exact h ▸ hs
    · rw [bind_ok] at h
      obtain ⟨s1, h1, h⟩ := h
      obtain ⟨xs, us, ht⟩ := turn_spec h1
      exact ih (fun s s' o' xs us ho => hstep s s' o' xs us (by simp [ho])) h (hstep _ _ _ _ _ (by simp) hs (by simpa using hst) h1 ht)

/-- The point is a choice of the environment in one of the iterations. -/
def FromAny (os : List Oracle) (x : List ℚ) (src : Option (List Flt)) : Prop :=
  ∃ o ∈ os, Proposed o x src

theorem loop_ext {cfg : Cfg} {P : Prob} {os : List Oracle} {s s' : St}
    (h : loop cfg P os s = .ok s') :
    ∃ xs, Ext cfg P (FromAny os) s.data s'.data xs ∧ s'.doeSize = s.doeSize ∧
      s'.added = s.added + xs.length := by
  refine loop_induction (fun t => ∃ xs, Ext cfg P (FromAny os) s.data t.data xs ∧ t.doeSize = s.doeSize ∧
    t.added = s.added + xs.length) ?_ h ⟨[], Ext.refl _ _ _ _, rfl, rfl⟩
  rintro t t' o xs us ho ⟨xs0, h1, h2, h3⟩ _ _ ht
  refine ⟨xs0 ++ xs, h1.trans (ht.ext.mono fun x src h => ⟨o, ho, h⟩), by rw [ht.doeSize, h2], ?_⟩
  cases ht.kind with
  | noMore a1 _ _ _ _ _ _ a8 => simp [a8, h3, a1]
  | ego _ _ _ _ _ _ _ _ a9 => simp [a9, h3, Nat.add_assoc]
  | trego _ _ _ _ _ _ _ _ _ _ _ _ _ a10 => simp [a10, h3, Nat.add_assoc]

/-- The three components of the data have as many rows. -/
def Aligned (d : Data) : Prop := d.x.length = d.y.rows.length ∧ d.x.length = d.c.rows.length

theorem Ext.aligned {cfg : Cfg} {P : Prob} {S : List ℚ → Option (List Flt) → Prop} {d d' : Data}
    {xs : List (List ℚ)} (h : Ext cfg P S d d' xs)
    (ha : Aligned d) : Aligned d' := by
  obtain ⟨hx, ⟨ys, hy, fy⟩, ⟨cs, hc, fc⟩, _⟩ := h
  constructor
  · rw [hx, hy]; simp [ha.1, fy.length_eq]
  · rw [hx, hc]; simp [ha.2, fc.length_eq]

/-- Effect of the initialization. -/
theorem init_spec {cfg : Cfg} {P : Prob} {doe : Doe} {s : St} (h : init cfg P doe = .ok s) :
    (match doe with
      | .points x => s.data.x = x ∧ s.data.y.ncols = cfg.nOut ∧
          List.Forall₂ (fun x u => userInput cfg x = .ok u) x s.calls ∧
          s.data.y.rows = s.calls.map P.f ∧ ∀ r ∈ s.data.y.rows, r.length = cfg.nOut
      | .full x y => s.data.x = x ∧ s.data.y = y ∧ s.calls = [] ∧ x.length = y.rows.length) ∧
    s.data.c.ncols = P.g.length ∧
    List.Forall₂ (fun x c => evalFcstr cfg P x = .ok c) s.data.x s.data.c.rows ∧
    findBest s.data.y s.data.c cfg.tol = .ok s.best ∧
    updFeasible (!cfg.usePof) s.data s.best cfg.tol = .ok s.feasible ∧
    s.prevBest = s.best ∧ s.doeSize = s.data.x.length ∧ s.added = s.data.x.length ∧ s.prevAdded = 0 ∧
    s.retries = maxRetry ∧ s.iter = 0 ∧ s.lastBestIter = 0 ∧ s.converged = false ∧
    s.maxIters = cfg.maxIters ∧ s.history = [] ∧
    s.initial = (if cfg.recorder then samples s.data.x s.data.y.rows else []) := by
  simp only [init, bind_ok] at h
  obtain ⟨⟨x, y, calls⟩, hd, c, hc, b, hb, fe, hfe, h⟩ := h
  rw [mapM_ok] at hc
  simp only [update, bind_ok] at h
  obtain ⟨cost, _, h⟩ := h
  split at h
  · simp at h
  simp only [Except.ok.injEq] at h
  subst h
  refine ⟨?_, rfl, hc, hb, hfe, rfl, rfl, rfl, rfl, rfl, rfl, by simp, rfl, rfl, rfl, rfl⟩
  cases doe with
  | points x0 =>
    simp only [bind_ok] at hd
    obtain ⟨ev, hev, hd⟩ := hd
    simp only [evalObj, bind_ok, Except.ok.injEq] at hev
    obtain ⟨us, hus, rfl⟩ := hev
    split_ifs at hd with hall
    simp only [Except.ok.injEq, Prod.mk.injEq] at hd
    obtain ⟨rfl, rfl, rfl⟩ := hd
    refine ⟨rfl, rfl, mapM_ok.1 hus, rfl, ?_⟩
    simpa using hall
  | full x0 y0 =>
    simp only at hd
    split_ifs at hd with hl
    simp only [Except.ok.injEq, Prod.mk.injEq] at hd
    obtain ⟨rfl, rfl, rfl⟩ := hd
    exact ⟨rfl, rfl, rfl, hl⟩

theorem init_aligned {cfg : Cfg} {P : Prob} {doe : Doe} {s : St} (h : init cfg P doe = .ok s) :
    Aligned s.data := by
  obtain ⟨h1, _, h2, _⟩ := init_spec h
  refine ⟨?_, h2.length_eq⟩
  cases doe with
  | points x0 =>
    obtain ⟨rfl, _, h4, h5, _⟩ := h1
    rw [h5, List.length_map, h4.length_eq]
  | full x0 y0 =>
    obtain ⟨rfl, rfl, _, h⟩ := h1
    exact h

/-- Number of points of an initial design. -/
def Doe.size : Doe → ℕ
  | .points x => x.length
  | .full x _ => x.length

theorem run_ext {cfg : Cfg} {P : Prob} {doe : Doe} {os : List Oracle} {s : St}
    (h : run cfg P doe os = .ok s) :
    ∃ s0 xs, init cfg P doe = .ok s0 ∧ Ext cfg P (FromAny os) s0.data s.data xs ∧ s0.data.x.length = doe.size ∧
      s.doeSize = doe.size ∧ s.added = doe.size + xs.length := by
  simp only [run, bind_ok] at h
  obtain ⟨s0, h0, h⟩ := h
  obtain ⟨xs, h1, h2, h3⟩ := loop_ext h
  have hi := init_spec h0
  have : s0.data.x.length = doe.size := by
    cases doe <;> simp only at hi <;> rw [hi.1.1, Doe.size]
  refine ⟨s0, xs, h0, h1, this, ?_, ?_⟩
  · rw [h2, hi.2.2.2.2.2.2.1, this]
  · rw [h3, hi.2.2.2.2.2.2.2.1, this]

end Verif.Run

namespace Verif.Props

open Verif Spec FindResult MixInt Run

/-- **C15** (alignment). At any time of a run there are as many input rows, output rows and function
constraint rows. -/
theorem C15_run_data_aligned (cfg : Cfg) (P : Prob) (doe : Doe) (os : List Oracle) (s : St)
    (h : run cfg P doe os = .ok s) :
    s.data.x.length = s.data.y.rows.length ∧ s.data.x.length = s.data.c.rows.length := by
  obtain ⟨s0, xs, h0, h1, _⟩ := run_ext h
  exact h1.aligned (init_aligned h0)

/-- **C15** (append-only). Rows stored at some time of a run are still there, at the same indices, after
any further iterations. -/
theorem C15_run_data_append_only (cfg : Cfg) (P : Prob) (doe : Doe) (os os' : List Oracle) (s s' : St)
    (h : run cfg P doe os = .ok s) (h' : run cfg P doe (os ++ os') = .ok s') :
    s.data.x <+: s'.data.x ∧ s.data.y.rows <+: s'.data.y.rows ∧ s.data.c.rows <+: s'.data.c.rows := by
  rw [run_append, h] at h'
  obtain ⟨xs, ⟨hx, ⟨ys, hy, _⟩, ⟨cs, hc, _⟩, _⟩, _⟩ := loop_ext (h' : loop cfg P os' s = .ok s')
  rw [hx, hy, hc]
  exact ⟨List.prefix_append _ _, List.prefix_append _ _, List.prefix_append _ _⟩

/-- **C16**. Every point added by the iterations is at L1 distance at least `100 * epsilon` of every
point stored before it. -/
theorem C16_no_near_duplicate (cfg : Cfg) (P : Prob) (doe : Doe) (os : List Oracle) (s : St)
    (h : run cfg P doe os = .ok s) (i j : ℕ) (hij : i < j) (hdoe : doe.size ≤ j)
    (hj : j < s.data.x.length) :
    minSep ≤ l1 s.data.x[i] s.data.x[j] := by
  obtain ⟨s0, xs, h0, h1, h2, _⟩ := run_ext h
  have hx := h1.x
  have hlen : j - s0.data.x.length < xs.length := by
    rw [hx, List.length_append] at hj; omega
  have := h1.far (j - s0.data.x.length) hlen (s.data.x[i]) (by
    by_cases hi : i < s0.data.x.length
    · apply List.mem_append_left
      simp only [hx]
      rw [List.getElem_append_left hi]
      exact List.getElem_mem hi
    · apply List.mem_append_right
      simp only [hx]
      rw [List.getElem_append_right (by omega), List.mem_take_iff_getElem]
      exact ⟨i - s0.data.x.length, by omega, rfl⟩)
  have e : s.data.x[j] = xs[j - s0.data.x.length] := by
    simp only [hx]; rw [List.getElem_append_right (by omega)]
  rw [e]
  exact this.2

/-- **C17**. When the user's function returns `nOut` outputs and the initial design is evaluated by the
run, every stored output row is the value of the user's function at the stored input (decoded in the
discrete case, see C22). -/
theorem C17_outputs_are_true_values (cfg : Cfg) (P : Prob) (x0 : List (List ℚ)) (os : List Oracle)
    (s : St) (hf : ∀ u, (P.f u).length = cfg.nOut) (h : run cfg P (.points x0) os = .ok s)
    (i : ℕ) (hi : i < s.data.x.length) :
    ∃ u, userInput cfg s.data.x[i] = .ok u ∧ s.data.y.rows[i]? = some (P.f u) := by
  obtain ⟨s0, xs, h0, h1, h2, _⟩ := run_ext h
  obtain ⟨⟨i1, i2, i3, i4, i5⟩, _⟩ := init_spec h0
  obtain ⟨hx, ⟨ys, hy, fy⟩, _, _⟩ := h1
  have hal := init_aligned h0
  have hx' := hx
  simp only [hx']
  by_cases hlt : i < s0.data.x.length
  · rw [List.getElem_append_left hlt, hy]
    rw [List.getElem?_append_left (by rw [← hal.1]; exact hlt)]
    have hc : i < s0.calls.length := by rw [← i3.length_eq, ← i1]; exact hlt
    refine ⟨s0.calls[i], ?_, ?_⟩
    · have := i3.get (i := i) (by rw [← i1]; exact hlt) hc
      simpa [i1] using this
    · rw [i4]; simp [hc]
  · have hlt2 : i - s0.data.x.length < xs.length := by
      rw [hx, List.length_append] at hi; omega
    rw [List.getElem_append_right (by omega), hy, List.getElem?_append_right (by rw [← hal.1]; omega),
      ← hal.1]
    have hys : i - s0.data.x.length < ys.length := by rw [← fy.length_eq]; exact hlt2
    have := fy.get hlt2 hys
    simp only [List.get_eq_getElem] at this
    obtain ⟨_, u, hu, ha⟩ := this
    refine ⟨u, hu, ?_⟩
    rw [i2, assignRow_self (hf u)] at ha
    simp only [Except.ok.injEq] at ha
    simp [hys, ha]

/-- **C17** (outputs given with the initial design). Rows added by the iterations are values of the
user's function, rows of the initial design are the given ones. -/
theorem C17_added_outputs_are_true_values (cfg : Cfg) (P : Prob) (x0 : List (List ℚ)) (y0 : Mat Flt)
    (os : List Oracle) (s : St) (hf : ∀ u, (P.f u).length = y0.ncols)
    (h : run cfg P (.full x0 y0) os = .ok s) :
    y0.rows <+: s.data.y.rows ∧ ∀ (i : ℕ) (hi : i < s.data.x.length), x0.length ≤ i →
      ∃ u, userInput cfg s.data.x[i] = .ok u ∧ s.data.y.rows[i]? = some (P.f u) := by
  obtain ⟨s0, xs, h0, h1, h2, _⟩ := run_ext h
  obtain ⟨⟨i1, i2, i3, i4⟩, _⟩ := init_spec h0
  obtain ⟨hx, ⟨ys, hy, fy⟩, _, _⟩ := h1
  have hal := init_aligned h0
  refine ⟨by rw [hy, i2]; exact List.prefix_append _ _, ?_⟩
  intro i hi hge
  have hx' := hx
  simp only [hx']
  have hge' : s0.data.x.length ≤ i := by rw [i1]; exact hge
  have hlt2 : i - s0.data.x.length < xs.length := by
    rw [hx, List.length_append] at hi; omega
  rw [List.getElem_append_right (by omega), hy, List.getElem?_append_right (by rw [← hal.1]; omega),
    ← hal.1]
  have hys : i - s0.data.x.length < ys.length := by rw [← fy.length_eq]; exact hlt2
  have := fy.get hlt2 hys
  simp only [List.get_eq_getElem] at this
  obtain ⟨_, u, hu, ha⟩ := this
  refine ⟨u, hu, ?_⟩
  rw [i2, assignRow_self (hf u)] at ha
  simp only [Except.ok.injEq] at ha
  simp [hys, ha]

/-- **C17** (continuous variables): the user's function is valued at the stored inputs. -/
theorem C17_continuous_outputs (cfg : Cfg) (P : Prob) (x0 : List (List ℚ)) (os : List Oracle) (s : St)
    (hcont : ∀ t ∈ cfg.xtypes, ∃ l u, t = .float l u) (hf : ∀ u, (P.f u).length = cfg.nOut)
    (h : run cfg P (.points x0) os = .ok s) : s.data.y.rows = s.data.x.map P.f := by
  have hal := C15_run_data_aligned cfg P _ os s h
  apply List.ext_getElem?
  intro i
  by_cases hi : i < s.data.x.length
  · obtain ⟨u, hu, hy⟩ := C17_outputs_are_true_values cfg P x0 os s hf h i hi
    have hd : isDiscrete cfg.xtypes = false := by
      unfold isDiscrete
      rw [List.any_eq_false]
      intro t ht
      obtain ⟨l, u, rfl⟩ := hcont t ht
      simp
    simp only [userInput, hd, Bool.false_eq_true, if_false, Except.ok.injEq] at hu
    rw [hy, ← hu]
    simp [hi]
  · rw [List.getElem?_eq_none (by omega), List.getElem?_eq_none (by simpa using hi)]

/-- **C18** (one EGO iteration). The user's function is called exactly on the points added, at least one
and at most `q_points`, unless the iteration ends the run without any call and without changing data. -/
theorem C18_ego_iteration_calls (cfg : Cfg) (P : Prob) (o : Oracle) (s s' : St)
    (hego : cfg.trego = false) (h : turn cfg P o s = .ok s') :
    ∃ us, s'.calls = s.calls ++ us ∧ us.length ≤ cfg.qPoints ∧
      s.data.x <+: s'.data.x ∧
      List.Forall₂ (fun x u => userInput cfg x = .ok u) (s'.data.x.drop s.data.x.length) us ∧
      (us = [] → s'.converged = true ∧ s'.data = s.data) := by
  obtain ⟨xs, us, ht⟩ := turn_spec h
  refine ⟨us, ht.calls, ?_, ?_, ?_, ?_⟩
  · cases ht.kind with
    | noMore _ a2 => simp [a2]
    | ego _ a2 a3 => rw [← a3.length_eq]; exact a2
    | trego _ _ _ a0 => rw [hego] at a0; cases a0
  · rw [ht.ext.x]; exact List.prefix_append _ _
  · rw [ht.ext.x, List.drop_left]
    cases ht.kind with
    | noMore a1 a2 => rw [a1, a2]; exact .nil
    | ego _ _ a3 => exact a3
    | trego _ _ _ a0 => rw [hego] at a0; cases a0
  · intro hus
    cases ht.kind with
    | noMore _ _ a3 _ _ _ a7 => exact ⟨a7, a3⟩
    | ego a1 _ a3 =>
      have := a3.length_eq
      rw [hus, List.length_nil] at this
      omega
    | trego _ _ _ a0 => rw [hego] at a0; cases a0

/-- **C18** (whole run, EGO). The number of stored points is the size of the initial design plus the
number of points evaluated by the iterations, and at most `q_points` per iteration. -/
theorem C18_ego_run_budget (cfg : Cfg) (P : Prob) (doe : Doe) (os : List Oracle) (s0 s : St)
    (hego : cfg.trego = false) (h0 : run cfg P doe [] = .ok s0) (h : run cfg P doe os = .ok s) :
    s.data.x.length + s0.calls.length = doe.size + s.calls.length ∧ s.iter ≤ os.length ∧
      s.data.x.length ≤ doe.size + s.iter * cfg.qPoints := by
  obtain ⟨s00, xs, h00, _, h2, _⟩ := run_ext h0
  have e0 : s00 = s0 := by
    have : run cfg P doe [] = .ok s00 := by simp [run, h00, loop, bind, Except.bind]
    rw [this] at h0; exact Except.ok.inj h0
  subst e0
  have hit := (init_spec h00).2.2.2.2.2.2.2.2.2.2.1
  simp only [run, h00, bind, Except.bind] at h
  have key : ∀ (os : List Oracle) (t t' : St), loop cfg P os t = .ok t' →
      t'.data.x.length + t.calls.length = t.data.x.length + t'.calls.length ∧
      t.iter ≤ t'.iter ∧ t'.iter ≤ t.iter + os.length ∧
      t'.data.x.length ≤ t.data.x.length + (t'.iter - t.iter) * cfg.qPoints := by
    intro os
    induction os with
    | nil =>
      intro t t' h
      simp only [loop, Except.ok.injEq] at h
      subst h; simp
    | cons o os ih =>
      intro t t' h
      simp only [loop] at h
      split_ifs at h with hs
      · simp only [Except.ok.injEq] at h
        subst h; simp
      · rw [bind_ok] at h
        obtain ⟨t1, h1, h⟩ := h
        obtain ⟨g1, g2, g3, g4⟩ := ih t1 t' h
        obtain ⟨us, e1, e2, e3, e4, _⟩ := C18_ego_iteration_calls cfg P o t t1 hego h1
        have hiter : t1.iter = t.iter + 1 := by
          obtain ⟨_, _, ht⟩ := turn_spec h1
          exact ht.iter
        have hl : t1.data.x.length = t.data.x.length + us.length := by
          have := e4.length_eq
          rw [List.length_drop] at this
          have := e3.length_le
          omega
        have hc : t1.calls.length = t.calls.length + us.length := by rw [e1]; simp
        refine ⟨by omega, by omega, by simp; omega, ?_⟩
        have : t'.iter - t.iter = (t'.iter - t1.iter) + 1 := by omega
        rw [this, Nat.add_mul, Nat.one_mul]
        omega
  obtain ⟨k1, k2, k3, k4⟩ := key os _ _ h
  rw [h2] at k1 k4
  rw [hit] at k3 k4
  exact ⟨k1, by simpa using k3, by simpa using k4⟩

/-- **C18** (whole run, EGO or TREGO). At most `max(q_points, 1)` points are added per iteration, and
added points were evaluated. -/
theorem C18_run_budget (cfg : Cfg) (P : Prob) (doe : Doe) (os : List Oracle) (s0 s : St)
    (h0 : run cfg P doe [] = .ok s0) (h : run cfg P doe os = .ok s) :
    s.data.x.length + s0.calls.length ≤ doe.size + s.calls.length ∧
      s.data.x.length ≤ doe.size + os.length * max cfg.qPoints 1 := by
  obtain ⟨s00, xs, h00, _, h2, _⟩ := run_ext h0
  have e0 : s00 = s0 := by
    have : run cfg P doe [] = .ok s00 := by simp [run, h00, loop, bind, Except.bind]
    rw [this] at h0; exact Except.ok.inj h0
  subst e0
  simp only [run, h00, bind, Except.bind] at h
  have key : ∀ (os : List Oracle) (t t' : St), loop cfg P os t = .ok t' →
      t'.data.x.length + t.calls.length ≤ t.data.x.length + t'.calls.length ∧
      t'.data.x.length ≤ t.data.x.length + os.length * max cfg.qPoints 1 := by
    intro os
    induction os with
    | nil =>
      intro t t' h
      simp only [loop, Except.ok.injEq] at h
      subst h; simp
    | cons o os ih =>
      intro t t' h
      simp only [loop] at h
      split_ifs at h with hs
      · simp only [Except.ok.injEq] at h
        subst h; simp
      · rw [bind_ok] at h
        obtain ⟨t1, h1, h⟩ := h
        obtain ⟨g1, g2⟩ := ih t1 t' h
        obtain ⟨xs, us, ht⟩ := turn_spec h1
        have hx := congrArg List.length ht.ext.x
        have hc := congrArg List.length ht.calls
        simp only [List.length_append] at hx hc
        have hle : xs.length ≤ us.length ∧ xs.length ≤ max cfg.qPoints 1 := by
          cases ht.kind with
          | noMore a1 a2 => simp [a1, a2]
          | ego _ a2 a3 => exact ⟨a3.length_eq.le, le_trans a2 (le_max_left _ _)⟩
          | trego _ _ _ _ a1 _ a3 =>
            rcases a3 with ⟨a3, _⟩ | a3 <;> simp [a1, a3]
        refine ⟨by omega, ?_⟩
        simp only [List.length_cons, Nat.add_mul, Nat.one_mul]
        omega
  have := key os _ _ h
  rw [h2] at this
  exact this

/-- **C19** (convergence). If the three successive proposals of an iteration are non empty and only made of
points too close to stored points, the iteration ends with 'no more point to add'; nothing else is
changed in the state. -/
theorem C19_all_rejected_stops (cfg : Cfg) (P : Prob) (sel : ℕ → ℕ → Option Cand) (s : St)
    (hr : s.retries = 3) (n : ℕ) (hn : 1 ≤ n) (hx : ∀ a ∈ s.data.x, a.length = n)
    (hprop : ∀ k < 3, ∃ ps, selectNextPoints cfg P (sel k) = .ok ps ∧ ps ≠ [] ∧
      ∀ p ∈ ps, p.x.length = n ∧ ∃ a ∈ s.data.x, l1 a p.x < minSep) :
    egoStep cfg P sel s = .ok (.noMore { s with retries := 0 }) := by
  have hnear : ∀ (x : List ℚ) (l : List (List ℚ)), x.length = n → (∀ a ∈ l, a.length = n) →
      (∃ a ∈ l, l1 a x < minSep) → isUpdateOk x l = .ok false := by
    intro x l hxn
    induction l with
    | nil => intro _ ⟨a, ha, _⟩; simp at ha
    | cons r l ih =>
      intro hl ⟨a, ha, hlt⟩
      have hr : l1dist r x = .ok (l1 r x) := by
        have h1 := hl r (by simp)
        unfold l1dist
        rw [if_neg (by rintro rfl; simp at h1; omega), if_neg (by simp [h1, hxn])]
        rfl
      simp only [isUpdateOk, hr, bind, Except.bind]
      split_ifs with hc
      · rfl
      · rcases List.mem_cons.1 ha with rfl | ha
        · exact absurd hlt hc
        · exact ih (fun b hb => hl b (by simp [hb])) ⟨a, ha, hlt⟩
  have hloop : ∀ (r k : ℕ), k + (r + 1) = 3 → egoLoop cfg P sel s.data k (r + 1) = .ok (.noMore s.data) := by
    intro r
    induction r with
    | zero =>
      intro k hk
      obtain ⟨ps, h1, h2, h3⟩ := hprop k (by omega)
      have := updateData_near (d := s.data) (ps := ps) 0
        (fun p hp => hnear p.x s.data.x (h3 p hp).1 hx (h3 p hp).2)
      simp [egoLoop, h1, this, bind, Except.bind, h2]
    | succ r ih =>
      intro k hk
      obtain ⟨ps, h1, h2, h3⟩ := hprop k (by omega)
      have hu := updateData_near (d := s.data) (ps := ps) 0
        (fun p hp => hnear p.x s.data.x (h3 p hp).1 hx (h3 p hp).2)
      rw [egoLoop]
      simp only [h1, hu, bind, Except.bind, List.length_nil, Nat.sub_zero, if_true]
      rw [if_neg (by simpa using h2), if_neg (by omega)]
      exact ih (k + 1) (by omega)
  unfold egoStep
  rw [hr, hloop 2 0 rfl]
  rfl

/-- **C19** (state preserved). Whenever an iteration ends with 'no more point to add', data, best index,
counters and calls are those from before the iteration. -/
theorem C19_no_more_point_preserves_state (cfg : Cfg) (P : Prob) (sel : ℕ → ℕ → Option Cand) (s s' : St)
    (h : egoStep cfg P sel s = .ok (.noMore s')) : s' = { s with retries := 0 } := by
  rcases egoStep_spec (o := ⟨sel, []⟩) h with h | ⟨_, _, _, _, _, h, _⟩
  · simpa using h
  · simp at h

/-- **C19** (bounded number of attempts). The outcome of an iteration depends on three proposals only. -/
theorem C19_at_most_three_attempts (cfg : Cfg) (P : Prob) (sel sel' : ℕ → ℕ → Option Cand) (s : St)
    (hr : s.retries = 3) (hsel : ∀ k < 3, sel k = sel' k) :
    egoStep cfg P sel s = egoStep cfg P sel' s := by
  have : ∀ (r k : ℕ) (d : Data), k + r ≤ 3 →
      egoLoop cfg P sel d k r = egoLoop cfg P sel' d k r := by
    intro r
    induction r with
    | zero => intros; rfl
    | succ r ih =>
      intro k d hk
      simp only [egoLoop, hsel k (by omega)]
      congr 1
      funext ps
      congr 1
      funext u
      rw [ih (k + 1) u.1 (by omega)]
  unfold egoStep
  rw [hr, this 3 0 s.data (by omega)]

/-- **C19** (retries). Along a run, an iteration always starts with three attempts. -/
theorem C19_retries_reset (cfg : Cfg) (P : Prob) (doe : Doe) (os : List Oracle) (s : St)
    (h : run cfg P doe os = .ok s) (hc : s.converged = false) : s.retries = 3 := by
  simp only [run, bind_ok] at h
  obtain ⟨s0, h0, h⟩ := h
  have hi := init_spec h0
  refine loop_induction (fun t => t.converged = false → t.retries = 3) ?_ h
    (fun _ => hi.2.2.2.2.2.2.2.2.2.1) hc
  intro t t' o xs us _ hI _ _ ht hc'
  cases ht.kind with
  | noMore _ _ _ _ _ _ a7 => rw [a7] at hc'; cases hc'
  | ego _ _ _ _ _ _ a7 => exact a7
  | trego _ _ _ _ _ _ _ _ _ _ _ a8 a9 => rw [a8]; exact hI (by rw [← a9]; exact hc')

/-! ### A concrete run

One variable in [0, 10], objective `x²` with one output constraint `x - 1`, one function constraint, an
initial design of two points and three iterations with batches of two points: in the first iteration one
point is a duplicate, in the last one everything is rejected three times. -/

/-- configuration of the example -/
def exCfg : Cfg where
  xtypes := [.float 0 10]
  qPoints := 2
  nOut := 2
  tol := [.fin 0, .fin 0]
  maxIters := 10
  target := .ninf
  usePof := true
  trego := false
  nLocalSteps := 1
  gamma := 10 / 9
  beta := 9 / 10
  recorder := true

/-- problem of the example -/
def exProb : Prob where
  f := fun x => match x with
    | [a] => [.fin (a * a), .fin (a - 1)]
    | _ => []
  g := [fun x => match x with
    | [a] => .fin (a - 7)
    | _ => .nan]

/-- choices of the environment: always propose the same couple of points -/
def exOracle (a b : ℚ) : Oracle where
  sel := fun _ i => if i = 0 then some ⟨[a], [.nan, .nan], [.fin 2]⟩
    else some ⟨[b], [.fin 0, .fin 0], [.fin 2]⟩
  loc := []

example : ((run exCfg exProb (.points [[5], [3]])
      [exOracle 5 (1/2), exOracle (1/3) (1/4), exOracle 5 (1/2), exOracle 8 9]).map fun s =>
      (s.data.x, s.best, s.converged, s.iter, s.calls.length, s.added))
    = .ok ([[5], [3], [1/2], [1/3], [1/4]], 4, true, 3, 5, 5) := by decide +kernel

end Verif.Props
