import Verif.Props.RunBest
import Verif.Props.MixInt

/-!
# C21, C22, C26: function constraints, inputs given to the user's functions, recorded history
-/

set_option autoImplicit false

namespace Verif.Props

open Verif Spec FindResult MixInt Run

/-! ## C21 -/

/-- **C21** (partial: initial design). Function constraint rows of the initial design are the values of the
user's constraints. -/
theorem C21_initial_design_partial (cfg : Cfg) (P : Prob) (doe : Doe) (os : List Oracle) (s : St)
    (h : run cfg P doe os = .ok s) (i : ℕ) (hi : i < s.data.x.length) (hd : i < doe.size) :
    s.data.c.rows[i]? = some (P.g.map fun g => g s.data.x[i]) := by
  obtain ⟨s0, xs, h0, h1, h2, _⟩ := run_ext h
  obtain ⟨hx, _, ⟨cs, hc, fc⟩, _⟩ := h1
  have hi0 := (init_spec h0).2.2.1
  have hl : i < s0.data.x.length := by omega
  have hlc : i < s0.data.c.rows.length := by rw [← hi0.length_eq]; exact hl
  have hx' := hx
  simp only [hx', List.getElem_append_left hl]
  rw [hc, List.getElem?_append_left hlc, List.getElem?_eq_getElem hlc]
  have := hi0.get hl hlc
  simp only [List.get_eq_getElem, evalFcstr, bind_ok, Except.ok.injEq] at this
  obtain ⟨_, _, this⟩ := this
  rw [this]

/-- **C21** (partial). Function constraint rows of points added by the iterations are the values of the
user's constraints divided by the scaling factors given with the selected point (EGO), or the values of
the user's constraints (TREGO local steps). In particular they are the user's values when all the scaling
factors are 1. Missing: the property for other scaling factors, which is false (see below). -/
theorem C21_added_points_partial (cfg : Cfg) (P : Prob) (doe : Doe) (os : List Oracle) (s : St)
    (h : run cfg P doe os = .ok s) (i : ℕ) (hi : i < s.data.x.length) (hd : doe.size ≤ i) :
    ∃ o ∈ os,
      (s.data.x[i] = o.loc ∧ s.data.c.rows[i]? = some (P.g.map fun g => g s.data.x[i])) ∨
      ∃ k j c, o.sel k j = some c ∧ c.x = s.data.x[i] ∧ P.g.length ≤ c.scale.length ∧
        s.data.c.rows[i]? =
          some (List.zipWith (fun g sc => Flt.div (g s.data.x[i]) sc) P.g c.scale) := by
  obtain ⟨s0, xs, h0, h1, h2, _⟩ := run_ext h
  obtain ⟨hx, _, ⟨cs, hc, fc⟩, _⟩ := h1
  have hal := init_aligned h0
  have hlt2 : i - s0.data.x.length < xs.length := by
    rw [hx, List.length_append] at hi; omega
  have hcs : i - s0.data.x.length < cs.length := by rw [← fc.length_eq]; exact hlt2
  have hx' := hx
  simp only [hx']
  rw [List.getElem_append_right (by omega), hc, List.getElem?_append_right (by rw [← hal.2]; omega),
    ← hal.2]
  have := fc.get hlt2 hcs
  simp only [List.get_eq_getElem] at this
  obtain ⟨_, src, ⟨o, ho, hp⟩, hst⟩ := this
  refine ⟨o, ho, ?_⟩
  rw [List.getElem?_eq_getElem hcs]
  cases src with
  | none =>
    left
    refine ⟨hp, ?_⟩
    simp only [StoredCstr, evalFcstr, bind_ok, Except.ok.injEq] at hst
    obtain ⟨_, _, hst⟩ := hst
    rw [hst]
  | some sc =>
    right
    obtain ⟨k, j, c, e1, e2, rfl⟩ := hp
    simp only [StoredCstr, scaledFcstr] at hst
    split_ifs at hst with hlen
    simp only [bind_ok, Except.ok.injEq] at hst
    obtain ⟨_, _, hst⟩ := hst
    exact ⟨k, j, c, e1, e2, by omega, by rw [hst]⟩

/-- **C21** is refuted: after one EGO iteration the stored value of the function constraint is not the
user's value (5 - 7 = -2 is stored as -1 with a scaling factor 2). -/
theorem C21_refuted_scaled_value :
    ∃ (cfg : Cfg) (P : Prob) (doe : Doe) (o : Oracle) (s : St),
      run cfg P doe [o] = .ok s ∧ s.data.x[2]? = some [5] ∧ P.g.map (fun g => g [5]) = [.fin (-2)] ∧
      s.data.c.rows[2]? = some [.fin (-1)] := by
  have h : ((run exCfg exProb (.points [[4], [3]]) [exOracle 5 (1/2)]).map
      fun s => (s.data.x[2]?, s.data.c.rows[2]?)) = .ok (some [5], some [.fin (-1)]) := by
    decide +kernel
  obtain ⟨s, hs, h⟩ := ok_of_map h
  simp only [Prod.mk.injEq] at h
  exact ⟨_, _, _, _, s, hs, h.1, by decide +kernel, h.2⟩

/-- **C21** is refuted (reported feasibility): the user's constraint value 8 violates the tolerance 1/2,
the stored scaled value 1/2 does not, hence the run reports as best a point which the
user's functions do not consider feasible although the initial design has a feasible point. -/
theorem C21_refuted_infeasible_best :
    ∃ (cfg : Cfg) (P : Prob) (doe : Doe) (o : Oracle) (s : St),
      run cfg P doe [o] = .ok s ∧ cfg.tol = [.fin (1/2)] ∧
      s.data.x = [[9], [1]] ∧ s.best = 1 ∧ P.g.map (fun g => g [9]) = [.fin 0] ∧
      P.g.map (fun g => g [1]) = [.fin 8] := by
  have h : ((run { exCfg with tol := [.fin (1/2)], nOut := 1, qPoints := 1 }
      { f := fun x => x.map .fin, g := [fun x => .fin (9 - x.sum)] } (.points [[9]])
      [⟨fun _ _ => some ⟨[1], [.nan], [.fin 16]⟩, []⟩]).map
      fun s => (s.data.x, s.best)) = .ok ([[9], [1]], 1) := by
    decide +kernel
  obtain ⟨s, hs, h⟩ := ok_of_map h
  simp only [Prod.mk.injEq] at h
  refine ⟨_, _, _, _, s, hs, rfl, h.1, h.2, by decide +kernel, by decide +kernel⟩

/-- **C21** is refuted (NaN): a constraint which is zero on all the sampled points has a zero scaling
factor and its stored value is NaN. -/
theorem C21_refuted_zero_constraint (cfg : Cfg) (P : Prob) (x : List ℚ) (hP : P.g = [fun _ => .fin 0])
    (c : List Flt) (h : scaledFcstr cfg P x [.fin 0] = .ok c) : c = [.nan] := by
  simp only [scaledFcstr, hP, List.length_singleton, lt_self_iff_false, if_false, bind_ok,
    Except.ok.injEq] at h
  obtain ⟨_, _, rfl⟩ := h
  simp [Flt.div]

/-! ## C22 -/

theorem relaxed_of_floats (ts : List (XType ℚ)) (hc : isDiscrete ts = false) (lim : List (ℚ × ℚ))
    (hlim : continuousLimits ts = .ok lim) (x : List ℚ) (hx : InLimits lim x) : Relaxed ts x x := by
  induction ts generalizing lim x with
  | nil =>
    simp only [continuousLimits, Except.ok.injEq] at hlim
    subst hlim
    cases hx
    exact .nil
  | cons t ts ih =>
    simp only [isDiscrete, List.any_cons, Bool.or_eq_false_iff] at hc
    cases t with
    | float l u =>
      simp only [continuousLimits, bind_ok, Except.ok.injEq] at hlim
      obtain ⟨r, hr, rfl⟩ := hlim
      cases hx with
      | cons h1 h2 => exact .float h1.1 h1.2 (ih hc.2 r hr _ h2)
    | int l u => simp at hc
    | ord vs => simp at hc
    | enum n => simp at hc

/-- **C22** (objective, partial). If the initial design and the proposed points are inside the relaxed bounds,
every input given to the user's objective is an admissible point of the declared space.
Missing: the function constraints (false, see below). -/
theorem C22_objective_inputs_admissible_partial (cfg : Cfg) (P : Prob) (x0 : List (List ℚ))
    (os : List Oracle) (s : St) (h : run cfg P (.points x0) os = .ok s)
    (hok : ∀ t ∈ cfg.xtypes, TypeOk t)
    (lim : List (ℚ × ℚ)) (hlim : continuousLimits cfg.xtypes = .ok lim)
    (hdoe : ∀ x ∈ x0, InLimits lim x)
    (hprop : ∀ o ∈ os, InLimits lim o.loc ∧ ∀ k i c, o.sel k i = some c → InLimits lim c.x) :
    ∀ u ∈ s.calls, ∃ v, Relaxed cfg.xtypes u v := by
  have key : ∀ x u, InLimits lim x → userInput cfg x = .ok u → ∃ v, Relaxed cfg.xtypes u v := by
    intro x u hx hu
    unfold userInput at hu
    split_ifs at hu with hd
    · obtain ⟨x', u', e1, e3⟩ := C09_decode_in_space cfg.xtypes hok lim hlim x hx
      rw [e1] at hu
      simp only [Except.ok.injEq] at hu
      exact ⟨u', hu ▸ e3⟩
    · simp only [Except.ok.injEq] at hu
      subst hu
      exact ⟨x, relaxed_of_floats _ (by simpa using hd) lim hlim x hx⟩
  have forall2 : ∀ xs us : List (List ℚ), List.Forall₂ (fun x u => userInput cfg x = .ok u) xs us →
      (∀ x ∈ xs, InLimits lim x) → ∀ u ∈ us, ∃ v, Relaxed cfg.xtypes u v := by
    intro xs us hf
    induction hf with
    | nil => intro _ u hu; simp at hu
    | cons h1 _ ih =>
      intro hxs u hu
      rcases List.mem_cons.1 hu with rfl | hu
      · exact key _ _ (hxs _ (by simp)) h1
      · exact ih (fun x hx => hxs x (by simp [hx])) u hu
  simp only [run, bind_ok] at h
  obtain ⟨s0, h0, h⟩ := h
  obtain ⟨⟨i1, i2, i3, i4, i5⟩, _⟩ := init_spec h0
  refine loop_induction (fun t => ∀ u ∈ t.calls, ∃ v, Relaxed cfg.xtypes u v) ?_ h
    (forall2 _ _ i3 hdoe)
  intro t t' o xs us ho hI _ _ ht u hu
  rw [ht.calls] at hu
  rcases List.mem_append.1 hu with hu | hu
  · exact hI u hu
  · cases ht.kind with
    | noMore _ a2 => rw [a2] at hu; simp at hu
    | ego _ _ a3 =>
      refine forall2 _ _ a3 ?_ u hu
      intro x hx
      obtain ⟨cs, _, fc⟩ := ht.ext.c
      obtain ⟨j, hj, rfl⟩ := List.mem_iff_getElem.1 hx
      have := fc.get hj (by rw [← fc.length_eq]; exact hj)
      simp only [List.get_eq_getElem] at this
      obtain ⟨_, src, hp, _⟩ := this
      cases src with
      | none => rw [hp]; exact (hprop o ho).1
      | some sc =>
        obtain ⟨k, i, c, e1, e2, _⟩ := hp
        rw [← e2]
        exact (hprop o ho).2 k i c e1
    | trego x w hx _ a1 a2 =>
      rw [a1] at hu
      simp only [List.mem_singleton] at hu
      subst hu
      exact key x u (by rw [hx]; exact (hprop o ho).1) a2

/-- A configuration with an integer and a categorical variable: the proposed relaxed point
`[12/5, 1/3, 1/2]` is given to the objective as `[2, 1]`. -/
def exMixCfg : Cfg :=
  { exCfg with xtypes := [.int 0 5, .enum 2], nOut := 1, tol := [], qPoints := 1 }

example : ((run exMixCfg { f := fun x => [.fin (x.headD 0)], g := [] } (.points [[1/3, 0, 1]])
      [⟨fun _ _ => some ⟨[12/5, 1/3, 1/2], [.nan], []⟩, []⟩]).map fun s => s.calls)
    = .ok [[0, 1], [2, 1]] := by decide +kernel

/-- **C22** is refuted for function constraints: with an integer variable, the constraint function is valued
at the relaxed point (here `12/5`), not at an integer. -/
theorem C22_refuted_constraint_input :
    ∃ (cfg : Cfg) (P : Prob) (x : List ℚ), cfg.xtypes = [.int 0 5] ∧
      evalFcstr cfg P x = .ok [.fin (12/5)] ∧ P.g = [fun x => .fin x.sum] ∧
      userInput cfg x = .ok [2] := by
  refine ⟨{ exCfg with xtypes := [.int 0 5] }, ⟨fun _ => [], [fun x => .fin x.sum]⟩, [12/5], rfl, ?_, rfl, ?_⟩
    <;> decide +kernel

/-! ## C26 -/

theorem samples_append (a b : List (List ℚ)) (c d : List (List Flt)) (h : a.length = c.length) :
    samples (a ++ b) (c ++ d) = samples a c ++ samples b d := by
  unfold samples
  rw [List.zipWith_append h]

/-- **C26** (partial: runs not ended by 'no more point to add'). With the recorder enabled, the initial
samples are the initial design and the recorded iterations, put together, are the points added by the
iterations with their objectives, each exactly once and in order. -/
theorem C26_history_partial (cfg : Cfg) (P : Prob) (doe : Doe) (os : List Oracle) (s : St)
    (hr : cfg.recorder = true) (h : run cfg P doe os = .ok s) (hc : s.converged = false) :
    s.initial = samples (s.data.x.take doe.size) (s.data.y.rows.take doe.size) ∧
    s.history.flatten = samples (s.data.x.drop doe.size) (s.data.y.rows.drop doe.size) ∧
    s.history.length = s.iter := by
  simp only [run, bind_ok] at h
  obtain ⟨s0, h0, h⟩ := h
  have hi := init_spec h0
  obtain ⟨_, _, _, _, _, _, hds, hadd, _, _, hit, _, _, _, hhist, hinit⟩ := hi
  have hsz : s0.data.x.length = doe.size := by
    have := (init_spec h0).1
    cases doe <;> simp only at this <;> rw [this.1, Doe.size]
  have hal0 := init_aligned h0
  rw [hr, if_pos rfl] at hinit
  have key := loop_induction (cfg := cfg) (P := P) (os := os)
    (fun t => t.initial = s0.initial ∧ s0.data.x <+: t.data.x ∧ s0.data.y.rows <+: t.data.y.rows ∧
      Aligned t.data ∧ (t.converged = false →
      (t.history.flatten = samples (t.data.x.drop doe.size) (t.data.y.rows.drop doe.size) ∧
       t.history.length = t.iter ∧ t.added = t.data.x.length))) ?_ h
    ⟨rfl, List.prefix_refl _, List.prefix_refl _, hal0, fun _ => ⟨?_, ?_, hadd⟩⟩
  · obtain ⟨k1, ⟨bx, k2⟩, ⟨by', k3⟩, _, k4⟩ := key
    refine ⟨?_, (k4 hc).1, (k4 hc).2.1⟩
    rw [k1, hinit, ← k2, ← k3, ← hsz, List.take_left, hal0.1, List.take_left]
  · rintro t t' o xs us ho ⟨g1, g2, g3, g4, g5⟩ hst _ ht
    obtain ⟨ys, hy, fy⟩ := ht.ext.y
    have hx := ht.ext.x
    refine ⟨by rw [ht.initial, g1], g2.trans (by rw [hx]; exact List.prefix_append _ _),
      g3.trans (by rw [hy]; exact List.prefix_append _ _), ht.ext.aligned g4, ?_⟩
    intro hc'
    have hct : t.converged = false := by
      simp only [stops, Bool.or_eq_false_iff] at hst
      exact hst.1.1
    obtain ⟨g6, g7, g8⟩ := g5 hct
    have hadd : t'.added = t.added + xs.length ∧ t'.prevAdded = t.added := by
      cases ht.kind with
      | noMore _ _ _ _ _ _ a7 => rw [a7] at hc'; cases hc'
      | ego _ _ _ _ _ _ _ _ a9 a10 => exact ⟨a9, a10⟩
      | trego _ _ _ _ _ _ _ _ _ _ _ _ _ a10 a11 => exact ⟨a10, a11⟩
    rcases ht.history with ⟨hf, _⟩ | ⟨_, _, hh⟩
    · rw [hr] at hf; cases hf
    · have hn : t'.added - t'.prevAdded = xs.length := by rw [hadd.1, hadd.2]; omega
      have hlen : t'.data.x.length - xs.length = t.data.x.length := by rw [hx]; simp
      rw [hn, hlen] at hh
      have hdle : doe.size ≤ t.data.x.length := by rw [← hsz]; exact g2.length_le
      refine ⟨?_, ?_, ?_⟩
      · rw [hh, List.flatten_append, g6, hx, hy]
        simp only [List.flatten_cons, List.flatten_nil, List.append_nil]
        rw [List.drop_left, g4.1, List.drop_left, List.drop_append_of_le_length (by omega),
          List.drop_append_of_le_length (by rw [← g4.1]; omega), samples_append]
        simp only [List.length_drop]
        rw [g4.1]
      · rw [hh, List.length_append, g7, ht.iter]; rfl
      · rw [hadd.1, g8, hx]; simp
  · rw [hhist, ← hsz, List.drop_length, hal0.1, List.drop_length]; rfl
  · rw [hhist, hit]; rfl

example : ((run exCfg exProb (.points [[5], [3]]) [exOracle 5 (1/2), exOracle (1/3) (1/4)]).map
    fun s => (s.initial, s.history, s.converged))
    = .ok ([⟨[5], .fin 25⟩, ⟨[3], .fin 9⟩],
      [[⟨[1/2], .fin (1/4)⟩], [⟨[1/3], .fin (1/9)⟩, ⟨[1/4], .fin (1/16)⟩]], false) := by decide +kernel

/-- **C26** is refuted when the run ends with 'no more point to add': the last batch is recorded twice. -/
theorem C26_refuted_last_batch_twice :
    ∃ (cfg : Cfg) (P : Prob) (doe : Doe) (os : List Oracle) (s : St),
      run cfg P doe os = .ok s ∧ s.data.x = [[5], [3], [1/2]] ∧
      s.history = [[⟨[1/2], .fin (1/4)⟩], [⟨[1/2], .fin (1/4)⟩]] := by
  have h : ((run exCfg exProb (.points [[5], [3]]) [exOracle 5 (1/2), exOracle 5 (1/2)]).map
      fun s => (s.data.x, s.history))
      = .ok ([[5], [3], [1/2]], [[⟨[1/2], .fin (1/4)⟩], [⟨[1/2], .fin (1/4)⟩]]) := by decide +kernel
  obtain ⟨s, hs, h⟩ := ok_of_map h
  simp only [Prod.mk.injEq] at h
  exact ⟨_, _, _, _, s, hs, h.1, h.2⟩

/-- **C26** is refuted when the very first iteration finds no point to add: the initial design is recorded
again as a search iteration. -/
theorem C26_refuted_doe_recorded_again :
    ∃ (cfg : Cfg) (P : Prob) (doe : Doe) (os : List Oracle) (s : St),
      run cfg P doe os = .ok s ∧ s.data.x = [[5], [3]] ∧
      s.history = [[⟨[5], .fin 25⟩, ⟨[3], .fin 9⟩]] := by
  have h : ((run exCfg exProb (.points [[5], [3]]) [exOracle 5 3]).map
      fun s => (s.data.x, s.history))
      = .ok ([[5], [3]], [[⟨[5], .fin 25⟩, ⟨[3], .fin 9⟩]]) := by decide +kernel
  obtain ⟨s, hs, h⟩ := ok_of_map h
  simp only [Prod.mk.injEq] at h
  exact ⟨_, _, _, _, s, hs, h.1, h.2⟩

end Verif.Props
