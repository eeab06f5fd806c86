import Verif.Model.Config
import Verif.Spec.Config
import Verif.Props.RunBest
import Mathlib.Tactic.IntervalCases

/-!
# C62, C63, C64, C85: configuration and Python interface
-/

set_option autoImplicit false
set_option linter.unusedSectionVars false

namespace Verif.Props

open Verif Spec FindResult Config

/-! ## C62: tolerances -/

/-- **C62**, exact condition: a configuration is accepted iff tolerances, if any, are as many as the
*output* constraints when there are output constraints, and CoEGO and KPLS are not used together. -/
theorem C62_accepted_iff_partial (c : Cfg) :
    check c = .ok c ↔
      (∀ t, c.cstrTol = some t → c.nCstr = 0 ∨ t.length = c.nCstr) ∧ (c.coego = true → c.kplsDim = none) := by
  obtain ⟨n, t, co, k⟩ := c
  unfold check badLength
  rcases t with _ | t <;> rcases k with _ | k <;> rcases co with _ | _ <;>
    by_cases hn : n = 0 <;> try (by_cases hl : t.length = n) <;>
    simp_all [Nat.pos_iff_ne_zero]
  all_goals simp_all [Nat.pos_iff_ne_zero]

/-- **C62**, default: when no tolerance is given there is one for each constraint, equal to `1e-4`. -/
theorem C62_default_tolerances (c : Cfg) (nF : ℕ) (h : c.cstrTol = none) :
    (initTol c nF).length = c.nCstr + nF ∧ ∀ t ∈ initTol c nF, t = .fin (1 / 10000) := by
  refine ⟨by simp [initTol, h], ?_⟩
  intro t ht
  rw [initTol, h] at ht
  exact (List.mem_replicate.1 ht).2

/-- **C62** when there are only output constraints or only function constraints: a user giving one
tolerance per constraint has a valid configuration, the run uses these very tolerances, and the best
evaluation of any initial design is the optimum with respect to them. Missing: both kinds together, see
`C62_refuted_both_kinds`. -/
theorem C62_one_per_constraint_partial (c : Cfg) (nF : ℕ) (tol : List ℚ)
    (hkind : c.nCstr = 0 ∨ nF = 0) (hlen : tol.length = c.nCstr + nF)
    (hc : c.cstrTol = some (tol.map .fin)) (hk : c.coego = true → c.kplsDim = none)
    (y g : Mat Flt) (hy : y.ncols = 1 + c.nCstr) (hg : g.ncols = nF)
    (hrows : y.rows.length = g.rows.length) (hywf : y.WF) (hgwf : g.WF) (hne : y.rows ≠ [])
    (hvalid : ∀ r ∈ List.zipWith (· ++ ·) y.rows g.rows, Valid tol.length r) :
    check c = .ok c ∧ initTol c nF = tol.map .fin ∧
      ∃ i, findBest y g (initTol c nF) = .ok i ∧
        IsFirstMin ((List.zipWith (· ++ ·) y.rows g.rows).map (rank tol)) i := by
  have ht : initTol c nF = tol.map .fin := by simp [initTol, hc]
  refine ⟨(C62_accepted_iff_partial c).2 ⟨?_, hk⟩, ht, ?_⟩
  · intro t h
    rw [hc, Option.some.injEq] at h
    rw [← h, List.length_map]
    omega
  · rw [ht]
    exact C11_best_is_lexicographic_optimum tol y g
      ⟨hrows, hywf, hgwf, by omega, by omega, hvalid⟩ hne

/-- With two output constraints and one evaluation per feasibility class. -/
example : check ⟨1, some [.fin (1 / 100)], false, none⟩ = .ok ⟨1, some [.fin (1 / 100)], false, none⟩ ∧
    findBest ⟨2, [[.fin 0, .fin 1], [.fin 5, .fin (1 / 100)]]⟩ ⟨0, [[], []]⟩
      (initTol ⟨1, some [.fin (1 / 100)], false, none⟩ 0) = .ok 1 := by decide +kernel

/-- **C62**, suggestions: the best evaluation from which a suggestion starts is the optimum with respect to the
tolerances given, one for each output constraint, or to `1e-4` when none is given. -/
theorem C62_suggestions (c : Cfg) (tol : List ℚ) (hlen : tol.length = c.nCstr)
    (hc : c.cstrTol = some (tol.map .fin) ∨ c.cstrTol = none ∧ tol = List.replicate c.nCstr (1 / 10000))
    (y : Mat Flt) (hy : y.ncols = 1 + c.nCstr) (hywf : y.WF) (hne : y.rows ≠ []) (hvalid : ∀ r ∈ y.rows, Valid tol.length r) :
    ∃ i, findBest y ⟨0, List.replicate y.rows.length []⟩ (suggestTol c) = .ok i ∧
      IsFirstMin (y.rows.map (rank tol)) i := by
  have ht : suggestTol c = tol.map .fin := by
    rcases hc with hc | ⟨hc, rfl⟩
    · simp [suggestTol, hc]
    · simp [suggestTol, hc, defaultTol]
  have hz : ∀ l : List (List Flt), List.zipWith (· ++ ·) l (List.replicate l.length []) = l := by
    intro l
    induction l with
    | nil => rfl
    | cons a l ih => simp [List.replicate_succ, ih]
  have := C11_best_is_lexicographic_optimum tol y ⟨0, List.replicate y.rows.length []⟩
    ⟨by simp, hywf, by simp [Mat.WF], by omega, by simp only; omega, by simpa only [hz] using hvalid⟩ hne
  simpa only [ht, hz] using this

/-- Two evaluations, the second one is feasible. -/
example : findBest ⟨2, [[.fin 0, .fin 1], [.fin 5, .fin (1 / 20000)]]⟩ ⟨0, [[], []]⟩ (suggestTol ⟨1, none, false, none⟩) =
    .ok 1 := by decide +kernel

/-- **C62 is false** with both kinds of constraints: a user giving one tolerance per constraint is
rejected, whatever the tolerances. -/
theorem C62_refuted_both_kinds (c : Cfg) (nF : ℕ) (t : List Flt) (hn : 0 < c.nCstr) (hF : 0 < nF)
    (hc : c.cstrTol = some t) (hlen : t.length = c.nCstr + nF) : check c = .error .tolLength := by
  have : badLength c = true := by
    simp only [badLength, hc, bne_iff_ne, ne_eq]
    omega
  simp [check, this, hn]

/-- Reading the tolerances of more constraints than tolerances panics. -/
theorem cstrSumLoop_short (cs tol : List Flt) (acc : Flt) (h : tol.length < cs.length) :
    cstrSumLoop acc cs tol = .error .outOfBounds := by
  induction cs generalizing tol acc with
  | nil => simp at h
  | cons a cs ih =>
    cases tol with
    | nil => rfl
    | cons t ts =>
      simp only [cstrSumLoop]
      split_ifs <;> exact ih ts _ (by simpa using h)

/-- Comparing new evaluations with fewer tolerances than constraints panics. -/
theorem findBestFrom_short (tol : List Flt) (y c : Mat Flt) (i off : ℕ)
    (hl : y.rows.length = c.rows.length) (hoff : off < y.rows.length)
    (hw : ∀ r ∈ List.zipWith (· ++ ·) y.rows c.rows, tol.length + 1 < r.length) :
    findBestFrom i off y c tol = .error .outOfBounds := by
  set R := List.zipWith (· ++ ·) y.rows c.rows with hR
  have hRlen : R.length = y.rows.length := by simp [hR, hl]
  have hno : ¬ off > R.length := by omega
  unfold findBestFrom
  rw [hcat_eq hl]
  rcases hb : R[i]? with _ | best
  · simp [bind, Except.bind, allRows, ← hR, hb]
  · have hmem : best ∈ R := List.mem_of_getElem? hb
    have hlb := hw best hmem
    obtain ⟨o, cs, rfl⟩ : ∃ o cs, best = o :: cs := by
      cases best with
      | nil => simp at hlb
      | cons o cs => exact ⟨o, cs, rfl⟩
    have hbad : cstrSum (o :: cs) tol = .error .outOfBounds :=
      cstrSumLoop_short cs tol _ (by simpa using hlb)
    have hfold : minFold tol (none, o :: cs) 0 (R.drop off) = .error .outOfBounds := by
      rw [List.drop_eq_getElem_cons (by omega)]
      simp only [minFold, cstrMin, hbad, bind, Except.bind]
      rw [if_pos (by simp at hlb ⊢; omega)]
    simp [bind, Except.bind, allRows, ← hR, hb, hno, hfold]

theorem exists_left_of_forall₂ {α β : Type} {R : α → β → Prop} {l : List α} {l' : List β}
    (h : List.Forall₂ R l l') {b : β} (hb : b ∈ l') : ∃ a, a ∈ l ∧ R a b := by
  induction h with
  | nil => simp at hb
  | cons hR _ ih =>
    rcases List.mem_cons.1 hb with rfl | hb
    · exact ⟨_, List.mem_cons_self, hR⟩
    · obtain ⟨a, ha, h⟩ := ih hb
      exact ⟨a, List.mem_cons_of_mem _ ha, h⟩

/-- **C62 is false** with both kinds of constraints: when the accepted tolerances are fewer than the
constraints, a run never survives the addition of a point. Any run which does not panic has the data of
its initial design. -/
theorem C62_refuted_no_point_added (cfg : Run.Cfg) (P : Run.Prob) (doe : Run.Doe) (os : List Run.Oracle)
    (s0 s : Run.St) (h0 : Run.init cfg P doe = .ok s0) (h : Run.run cfg P doe os = .ok s)
    (hshort : cfg.tol.length < s0.data.y.ncols - 1 + P.g.length) (hobj : 1 ≤ s0.data.y.ncols)
    (hwf : s0.data.y.WF) : s.data = s0.data := by
  simp only [Run.run, bind_ok] at h
  obtain ⟨t0, ht0, h⟩ := h
  rw [h0, Except.ok.injEq] at ht0
  subst ht0
  have ha0 := Run.init_aligned h0
  obtain ⟨_, hcn, hcf, _⟩ := Run.init_spec h0
  have hcwf : ∀ r ∈ s0.data.c.rows, r.length = P.g.length := by
    intro r hr
    obtain ⟨x, _, hx⟩ := exists_left_of_forall₂ hcf hr
    simp only [Run.evalFcstr, bind_ok] at hx
    obtain ⟨_, _, hx⟩ := hx
    simp only [Except.ok.injEq] at hx
    rw [← hx, List.length_map]
  refine (Run.loop_induction (fun t => t.data = s0.data) ?_ h rfl)
  intro t t' o xs us _ hI _ _ ht
  have ha : Run.Aligned t.data := hI ▸ ha0
  have ha' := ht.ext.aligned ha
  have hwide : ∀ r ∈ List.zipWith (· ++ ·) t'.data.y.rows t'.data.c.rows, cfg.tol.length + 1 < r.length := by
    obtain ⟨_, ⟨ys, hy, fy⟩, ⟨cs, hc, fc⟩, _⟩ := ht.ext
    have hyl : ∀ r ∈ t'.data.y.rows, r.length = s0.data.y.ncols := by
      rw [hy, hI]
      intro r hr
      rcases List.mem_append.1 hr with hr | hr
      · exact hwf r hr
      · obtain ⟨x, _, hx⟩ := exists_left_of_forall₂ fy hr
        rw [hI] at hx
        exact hx.1
    have hcl : ∀ r ∈ t'.data.c.rows, r.length = P.g.length := by
      rw [hc, hI]
      intro r hr
      rcases List.mem_append.1 hr with hr | hr
      · exact hcwf r hr
      · obtain ⟨x, _, hx⟩ := exists_left_of_forall₂ fc hr
        rw [hI, hcn] at hx
        exact hx.1
    intro r hr
    obtain ⟨i, hi, rfl⟩ := List.mem_iff_getElem.1 hr
    rw [List.getElem_zipWith, List.length_append, hyl _ (List.getElem_mem _), hcl _ (List.getElem_mem _)]
    omega
  cases ht.kind with
  | noMore _ _ h3 => rw [h3, hI]
  | ego hx1 _ _ hb =>
    rw [findBestFrom_short cfg.tol _ _ _ _ (by rw [← ha'.1, ← ha'.2])
      (by rw [← ha.1, ← ha'.1, ht.ext.x, List.length_append]; omega) hwide] at hb
    cases hb
  | trego x u _ _ _ _ _ hpos hb =>
    rw [findBestFrom_short cfg.tol _ _ _ _ (by rw [← ha'.1, ← ha'.2]) (by omega) hwide] at hb
    cases hb

/-- **C62 is false**: with a single accepted tolerance for an output constraint and a function
constraint, the function constraint is ignored by the selection of the initial best evaluation: it
violates its constraint by 7 although a feasible evaluation exists. -/
theorem C62_refuted_initial_best_ignores :
    check ⟨1, some [.fin 0], false, none⟩ = .ok ⟨1, some [.fin 0], false, none⟩ ∧
    findBest ⟨2, [[.fin 3, .fin (-1)], [.fin 1, .fin (-1)]]⟩ ⟨1, [[.fin (-1)], [.fin 7]]⟩
      (initTol ⟨1, some [.fin 0], false, none⟩ 1) = .ok 1 := by decide +kernel

/-- **C62 is false**: without output constraint any number of tolerances is accepted, for instance none
for one function constraint; `C62_refuted_no_point_added` applies. -/
theorem C62_refuted_any_length_accepted (t : List Flt) :
    check ⟨0, some t, false, none⟩ = .ok ⟨0, some t, false, none⟩ := by
  simp [check]

/-- **C62**, Python: without tolerances given by the user `minimize` is configured iff one of the two
kinds of constraints is absent (and CoEGO is not used with KPLS): with both, the default configuration
panics. -/
theorem C62_python_default_iff_partial (p : Py) (nF : ℕ) (h : p.cstrTol = none) :
    (∃ c, p.minimizeCfg nF = .ok c) ↔
      (p.nCstr = 0 ∨ nF = 0) ∧ (p.coegoNCoop = 0 ∨ p.kplsDim = none) := by
  have key : check (p.config nF) = .ok (p.config nF) ↔
      (p.nCstr = 0 ∨ nF = 0) ∧ (p.coegoNCoop = 0 ∨ p.kplsDim = none) := by
    rw [C62_accepted_iff_partial]
    simp only [Py.config, Py.tol, h, Option.getD_none, Option.some.injEq, bne_iff_ne, ne_eq]
    constructor
    · rintro ⟨h1, h2⟩
      refine ⟨?_, ?_⟩
      · have := h1 _ rfl
        simp only [List.length_replicate] at this
        omega
      · by_cases hc : p.coegoNCoop = 0
        · exact .inl hc
        · exact .inr (h2 hc)
    · rintro ⟨h1, h2⟩
      refine ⟨?_, fun hc => h2.resolve_left hc⟩
      rintro t rfl
      simp only [List.length_replicate]
      omega
  have hcheck : ∀ c, check (p.config nF) = .ok c → c = p.config nF := by
    intro c hc
    unfold check at hc
    split_ifs at hc
    exact (Except.ok.inj hc).symm
  rw [← key]
  unfold Py.minimizeCfg
  rcases hc : check (p.config nF) with e | c
  · simp
  · simp [hcheck c hc]

/-- **C62**, Python: when no tolerance is given, there is one of 1e-4 for each constraint of both kinds; tolerances given
by the user are passed as they are. -/
theorem C62_python_tolerances (p : Py) (nF : ℕ) :
    (p.cstrTol = none → ∃ t, (p.config nF).cstrTol = some t ∧ t.length = p.nCstr + nF ∧ ∀ v ∈ t, v = .fin (1 / 10000)) ∧
    (∀ t, p.cstrTol = some t → (p.config nF).cstrTol = some t) := by
  refine ⟨fun h => ⟨List.replicate (p.nCstr + nF) defaultTol, ?_, by simp, ?_⟩, fun t h => ?_⟩
  · simp [Py.config, Py.tol, h]
  · intro v hv
    rw [List.eq_of_mem_replicate hv]
    rfl
  · simp [Py.config, Py.tol, h]

/-- Two output constraints and three function constraints: five tolerances. -/
example : ((⟨2, none, 0, none⟩ : Py).config 3).cstrTol = some (List.replicate 5 (.fin (1 / 10000))) := by decide +kernel

/-- **C62 is false** in Python: default tolerances, one output constraint, one function constraint. -/
theorem C62_refuted_python_default :
    (⟨1, none, 0, none⟩ : Py).minimizeCfg 1 = .error .other := by decide +kernel

/-- The hypotheses of `C62_refuted_no_point_added` are met by a run with a design of one point, an output
constraint, a function constraint and the single tolerance which the configuration accepts; proposing a
new point makes it panic. -/
example :
    let cfg : Run.Cfg := ⟨[.float 0 1], 1, 2, [.fin 0], 5, .ninf, false, false, 1, 1, 1, false⟩
    let P : Run.Prob := ⟨fun _ => [.fin 1, .fin (-1)], [fun _ => .fin (-1)]⟩
    ((Run.init cfg P (.points [[1 / 2]])).map fun s => s.data.y.ncols) = .ok 2 ∧
    cfg.tol.length < 2 - 1 + P.g.length := by
  decide +kernel

/-! ## C63: best result of a list of evaluations -/

/-- **C63**, exact condition: with one objective, `n_cstr` constraints, one tolerance per constraint and
comparable outputs, `get_result_index` returns the best evaluation iff there is no constraint or there
are exactly as many evaluations as outputs; otherwise it panics. -/
theorem C63_result_index_iff_partial (p : Py) (tol : List ℚ) (y : Mat Flt)
    (htol : p.tol 0 = tol.map .fin) (hlen : tol.length = p.nCstr) (hy : y.ncols = 1 + p.nCstr)
    (hwf : y.WF) (hne : y.rows ≠ []) (hvalid : ∀ r ∈ y.rows, Valid tol.length r) :
    ((∃ i, p.resultIndex y = .ok i ∧ IsFirstMin (y.rows.map (rank tol)) i) ↔
      (p.nCstr = 0 ∨ y.rows.length = 1 + p.nCstr)) ∧
    (¬ (p.nCstr = 0 ∨ y.rows.length = 1 + p.nCstr) → p.resultIndex y = .error .shape) := by
  -- same result with a matrix without columns of the right height
  have hz : ∀ n, List.zipWith (· ++ ·) y.rows (List.replicate n ([] : List Flt)) = y.rows.take n := by
    intro n
    generalize y.rows = l
    induction l generalizing n with
    | nil => simp
    | cons a l ih =>
      cases n with
      | zero => simp
      | succ n => simp [List.replicate_succ, ih]
  have hgood : ∃ i, findBest y (noCols y.rows.length) (tol.map .fin) = .ok i ∧
      IsFirstMin (y.rows.map (rank tol)) i := by
    have h := C11_best_is_lexicographic_optimum tol y (noCols y.rows.length)
      ⟨by simp [noCols], hwf, by
        intro r hr
        simp only [noCols, List.mem_replicate] at hr
        simp [noCols, hr.2], by omega, by simp only [noCols]; omega, by
        simp only [noCols, hz, List.take_length]
        exact hvalid⟩ hne
    simpa only [noCols, hz, List.take_length] using h
  have hbad : ¬ (p.nCstr = 0 ∨ y.rows.length = 1 + p.nCstr) → p.resultIndex y = .error .shape := by
    intro h
    unfold Py.resultIndex findBest
    rw [if_pos (by left; omega)]
    simp only [Mat.hcat, noCols, List.length_replicate]
    rw [if_neg (by omega)]
    rfl
  refine ⟨⟨?_, ?_⟩, hbad⟩
  · rintro ⟨i, hi, _⟩
    by_contra h
    rw [hbad h] at hi
    cases hi
  · intro h
    obtain ⟨i, hi, hm⟩ := hgood
    refine ⟨i, ?_, hm⟩
    unfold Py.resultIndex
    rw [htol, ← hi]
    rcases h with h | h
    · unfold findBest
      rw [if_neg (by simp [noCols]; omega), if_neg (c := y.ncols > 1 ∨ _) (by simp [noCols]; omega)]
    · rw [hy, ← h]

/-- **C63**: the result itself, when the index is found and there are as many inputs as outputs. -/
theorem C63_result_partial (p : Py) (x y : Mat Flt) (i : ℕ) (hl : x.rows.length = y.rows.length)
    (hi : p.resultIndex y = .ok i) (hlt : i < y.rows.length) :
    p.result x y = .ok (x.rows[i]'(by omega), y.rows[i]) := by
  unfold Py.result
  unfold Py.resultIndex at hi
  simp [hi, bind, Except.bind, hlt, hl]

/-- **C63 is false**: three evaluations of an objective and a constraint. -/
theorem C63_refuted_three_evaluations :
    (⟨1, none, 0, none⟩ : Py).resultIndex
      ⟨2, [[.fin 3, .fin (-1)], [.fin 2, .fin (-1)], [.fin 1, .fin 1]]⟩ = .error .shape := by
  decide +kernel

/-- The two good cases. -/
example : (⟨1, none, 0, none⟩ : Py).resultIndex ⟨2, [[.fin 1, .fin 1], [.fin 2, .fin (-1)]]⟩ = .ok 1 ∧
    (⟨0, none, 0, none⟩ : Py).resultIndex ⟨1, [[.fin 3], [.fin 1], [.fin 2]]⟩ = .ok 1 := by
  decide +kernel

/-! ## C64: names and flags -/

/-- **C64**: the string of a mean model is parsed back to this model; the parser of a model accepts no
other string, in particular not those of other models; the displayed name is the same string. -/
theorem C64_mean_round_trip (k : Moe.MeanKind) (s : String) :
    (meanTryFrom k s = some k ↔ s = meanToString k) ∧ (s ≠ meanToString k → meanTryFrom k s = none) ∧
      meanDisplay k = meanToString k := by
  have e1 : "Constant" ++ "Mean" = "ConstantMean" := by decide
  have e2 : "Linear" ++ "Mean" = "LinearMean" := by decide
  have e3 : "Quadratic" ++ "Mean" = "QuadraticMean" := by decide
  cases k <;> simp only [meanTryFrom, meanToString, meanDisplay, e1, e2, e3] <;> split_ifs <;> simp_all

/-- **C64**: same for correlation models. -/
theorem C64_corr_round_trip (k : Moe.CorrKind) (s : String) :
    (corrTryFrom k s = some k ↔ s = corrToString k) ∧ (s ≠ corrToString k → corrTryFrom k s = none) ∧
      corrDisplay k = corrToString k := by
  cases k <;> simp only [corrTryFrom, corrToString, corrDisplay] <;> split_ifs <;> simp_all

/-- **C64**: different models have different names. -/
theorem C64_names_injective :
    Function.Injective meanToString ∧ Function.Injective corrToString ∧
      ∀ m c, meanToString m ≠ corrToString c := by
  refine ⟨?_, ?_, ?_⟩
  · intro a b h
    cases a <;> cases b <;> first | rfl | (exfalso; revert h; decide)
  · intro a b h
    cases a <;> cases b <;> first | rfl | (exfalso; revert h; decide)
  · intro a b
    cases a <;> cases b <;> decide

/-- **C64**: flags given as an integer are accepted iff they are a union of documented flags (at most 7),
and then hold exactly the models whose bit is set. -/
theorem C64_regression_bits (b : ℕ) :
    ((regrFromBits b).isSome ↔ b ≤ 7) ∧
      ∀ s, regrFromBits b = some s → ∀ k, s.contains k = true ↔ b &&& regrBit k = regrBit k := by
  have key : ∀ b < 8, ∀ s, regrFromBits b = some s → ∀ k, s.contains k = true ↔ b &&& regrBit k = regrBit k := by
    intro b hb s hs k
    interval_cases b <;> cases k <;> simp [regrFromBits, Nat.testBit] at hs <;> subst hs <;> decide
  unfold regrFromBits at *
  by_cases h : b / 8 = 0
  · have hb : b < 8 := by omega
    refine ⟨by simp [h]; omega, ?_⟩
    exact key b hb
  · refine ⟨by simp [h]; omega, ?_⟩
    intro s hs
    simp [h] at hs

/-- **C64**: same for correlation flags (at most 15). -/
theorem C64_correlation_bits (b : ℕ) :
    ((corrFromBits b).isSome ↔ b ≤ 15) ∧
      ∀ s, corrFromBits b = some s → ∀ k, s.contains k = true ↔ b &&& corrBit k = corrBit k := by
  have key : ∀ b < 16, ∀ s, corrFromBits b = some s → ∀ k, s.contains k = true ↔ b &&& corrBit k = corrBit k := by
    intro b hb s hs k
    interval_cases b <;> cases k <;> simp [corrFromBits, Nat.testBit] at hs <;> subst hs <;> decide
  unfold corrFromBits at *
  by_cases h : b / 16 = 0
  · have hb : b < 16 := by omega
    refine ⟨by simp [h]; omega, ?_⟩
    exact key b hb
  · refine ⟨by simp [h]; omega, ?_⟩
    intro s hs
    simp [h] at hs

/-- A few values. -/
example : meanToString .linear = "LinearMean" ∧ meanTryFrom .linear "Linear" = none ∧
    corrTryFrom .matern32 "Matern52" = none ∧ regrFromBits 3 = some ⟨true, true, false⟩ ∧
    regrFromBits 9 = none := by decide

/-! ## C85: Python domain -/

section Domain

variable {K : Type} [Field K] [LinearOrder K] [IsStrictOrderedRing K] [FloorRing K]

theorem trunc_int (z : ℤ) : trunc (z : K) = z := by
  unfold trunc
  split_ifs
  · simp
  · rw [← Int.cast_neg, Int.floor_intCast, neg_neg]

/-- One documented specification gives a variable with the documented values. -/
theorem specOf_spec (s : XSpec K) (h : SpecOk s) :
    ∃ t, specOf s = .ok t ∧ ∀ v, IsValue t v ↔ SpecValue s v := by
  obtain ⟨k, lim, tags⟩ := s
  cases k with
  | float =>
    obtain ⟨l, u, hl⟩ := h
    simp only at hl
    subst hl
    exact ⟨_, rfl, fun v => by simp [IsValue, SpecValue]⟩
  | int =>
    obtain ⟨l, u, hl, h1, h2, h3, h4⟩ := h
    simp only at hl
    subst hl
    refine ⟨.int l u, ?_, fun v => ?_⟩
    · simp only [specOf, asI32, trunc_int]
      rw [min_eq_right h2, max_eq_right h1, min_eq_right h4, max_eq_right h3]
    · simp only [IsValue, SpecValue, List.cons.injEq, and_true]
      constructor
      · rintro ⟨z, rfl, h1, h2⟩
        exact ⟨_, _, ⟨rfl, rfl⟩, z, rfl, by exact_mod_cast h1, by exact_mod_cast h2⟩
      · rintro ⟨_, _, ⟨rfl, rfl⟩, z, rfl, h1, h2⟩
        exact ⟨z, rfl, by exact_mod_cast h1, by exact_mod_cast h2⟩
  | ord => exact ⟨_, rfl, fun v => by simp [IsValue, SpecValue]⟩
  | enum =>
    simp only [SpecOk] at h
    by_cases ht : tags = 0
    · obtain ⟨n, hn⟩ := h.resolve_left (fun h => h ht)
      subst hn
      refine ⟨.enum n, ?_, fun v => ?_⟩
      · simp [specOf, ht, MixInt.asUsize]
      · simp only [IsValue, SpecValue, ht, List.cons.injEq, and_true]
        constructor
        · rintro ⟨k, rfl, hk⟩
          exact ⟨k, rfl, .inr ⟨trivial, _, rfl, by exact_mod_cast hk⟩⟩
        · rintro ⟨k, rfl, h⟩
          rcases h with ⟨h, _⟩ | ⟨_, _, rfl, h⟩
          · simp at h
          · exact ⟨k, rfl, by exact_mod_cast h⟩
    · refine ⟨.enum tags, by simp [specOf, ht], fun v => ?_⟩
      simp only [IsValue, SpecValue, ht]
      constructor
      · rintro ⟨k, rfl, hk⟩
        exact ⟨k, rfl, .inl ⟨ht, hk⟩⟩
      · rintro ⟨k, rfl, h⟩
        rcases h with ⟨_, h⟩ | ⟨h, _⟩
        · exact ⟨k, rfl, h⟩
        · exact absurd h (by simp)

theorem mapM_forall₂ {α β : Type} {f : α → Except Panic β} {R : α → β → Prop} (l : List α)
    (h : ∀ a ∈ l, ∃ b, f a = .ok b ∧ R a b) : ∃ bs, l.mapM f = .ok bs ∧ List.Forall₂ R l bs := by
  induction l with
  | nil => exact ⟨[], rfl, .nil⟩
  | cons a l ih =>
    obtain ⟨b, hb, hR⟩ := h a (by simp)
    obtain ⟨bs, hbs, hF⟩ := ih fun a ha => h a (by simp [ha])
    refine ⟨b :: bs, ?_, .cons hR hF⟩
    rw [List.mapM_cons]
    simp only [hb, hbs, bind, Except.bind]
    rfl

/-- **C85**: a non empty list of documented specifications is translated, variable by variable, to types
with exactly the documented values. -/
theorem C85_specs_documented_partial (l : List (XSpec K)) (hne : l ≠ []) (h : ∀ s ∈ l, SpecOk s) :
    ∃ ts, parse (.specs l) = .ok ts ∧
      List.Forall₂ (fun s t => ∀ v, IsValue t v ↔ SpecValue s v) l ts := by
  rw [show parse (.specs l) = l.mapM specOf by simp [parse, hne]]
  exact mapM_forall₂ l fun s hs => specOf_spec s (h s hs)

/-- **C85**: limits given as rows (list of lists or array) are translated to continuous variables within
these limits; an empty domain is refused. -/
theorem C85_rows (rows : List (List K)) (h : ∀ r ∈ rows, ∃ l u, r = [l, u]) :
    (rows = [] → parse (.lists rows) = .error .other ∧ parse (.array 2 rows) = .error .other) ∧
    (rows ≠ [] → parse (.lists rows) = parse (.array 2 rows) ∧ ∃ ts, parse (.lists rows) = .ok ts ∧
      List.Forall₂ (fun r t => ∃ l u, r = [l, u] ∧ ∀ v, IsValue t v ↔ l ≤ v ∧ v ≤ u) rows ts) := by
  refine ⟨fun h0 => by simp [parse, h0], fun h0 => ?_⟩
  have e1 : parse (.lists rows) = rows.mapM floatOf := by simp [parse, h0]
  have e2 : parse (.array 2 rows) = rows.mapM floatOf := by simp [parse, h0]
  refine ⟨by rw [e1, e2], ?_⟩
  rw [e1]
  refine mapM_forall₂ rows fun r hr => ?_
  obtain ⟨l, u, rfl⟩ := h r hr
  exact ⟨.float l u, rfl, l, u, rfl, fun v => by simp [IsValue]⟩

/-- **C85**: an empty domain is refused, however it is given. -/
theorem C85_empty (ncols : ℕ) :
    parse (.lists ([] : List (List K))) = .error .other ∧ parse (.array ncols ([] : List (List K))) = .error .other ∧
      parse (.specs ([] : List (XSpec K))) = .error .other := by
  simp [parse]

/-- **C85**: the columns of an array of limits: none is refused, one makes the parser panic, and those after the second
one are ignored. -/
theorem C85_columns (ncols : ℕ) (rows : List (List K)) (hne : rows ≠ []) (hw : ∀ r ∈ rows, r.length = ncols) :
    (ncols = 0 → parse (.array ncols rows) = .error .other) ∧
    (ncols = 1 → parse (.array ncols rows) = .error .outOfBounds) ∧
    (2 ≤ ncols → ∃ ts, parse (.array ncols rows) = .ok ts ∧ parse (.array 2 (rows.map (·.take 2))) = .ok ts) := by
  refine ⟨fun h => by simp [parse, h], fun h => ?_, fun h => ?_⟩
  · obtain ⟨r, rs, rfl⟩ := List.exists_cons_of_ne_nil hne
    have hr := hw r (by simp)
    rw [h] at hr
    obtain ⟨v, rfl⟩ := List.length_eq_one_iff.1 hr
    simp [parse, h, List.mapM_cons, floatOf, bind, Except.bind]
  · have e1 : parse (.array ncols rows) = rows.mapM floatOf := by
      simp only [parse]; rw [if_neg]; rintro (h0 | h0); exacts [hne h0, by omega]
    have e2 : parse (.array 2 (rows.map (·.take 2))) = (rows.map (·.take 2)).mapM floatOf := by
      simp only [parse]; rw [if_neg]; rintro (h0 | h0); exacts [hne (by simpa using h0), by omega]
    have e3 : ∀ r ∈ rows, floatOf r = floatOf (r.take 2) ∧ ∃ t, floatOf r = .ok t := by
      intro r hr
      have := hw r hr
      match r, this with
      | [], hl => simp at hl; omega
      | [_], hl => simp at hl; omega
      | l :: u :: s, _ => exact ⟨rfl, _, rfl⟩
    rw [e1, e2]
    clear e1 e2 hw hne h
    induction rows with
    | nil => exact ⟨[], rfl, rfl⟩
    | cons r rs ih =>
      obtain ⟨ts, h1, h2⟩ := ih fun r hr => e3 r (by simp [hr])
      obtain ⟨h3, t, h4⟩ := e3 r (by simp)
      refine ⟨t :: ts, ?_, ?_⟩
      · simp only [List.mapM_cons, h4, h1, bind, Except.bind, pure, Except.pure]
      · simp only [List.map_cons, List.mapM_cons, ← h3, h4, h2, bind, Except.bind, pure, Except.pure]

/-- Three columns: the third one is ignored. -/
example : parse (.array 3 [[0, 1, 7], [2, 5, 7]] : Domain ℚ) = .ok [.float 0 1, .float 2 5] := by
  simp [parse, floatOf, bind, Except.bind, pure, Except.pure]

/-- **C85 is false** for fractional limits of an integer variable: limits are truncated toward zero, the
value 0 is explored although it is below the declared limit `1/2`. -/
theorem C85_refuted_fractional_limits :
    ∃ t, specOf (⟨.int, [1 / 2, 5 / 2], 0⟩ : XSpec ℚ) = .ok t ∧ IsValue t 0 ∧
      ¬ SpecValue (⟨.int, [1 / 2, 5 / 2], 0⟩ : XSpec ℚ) 0 := by
  refine ⟨.int 0 2, by norm_num [specOf, asI32, trunc], ⟨0, by simp, by simp, by simp⟩, ?_⟩
  rintro ⟨l, u, hl, z, _, h1, _⟩
  simp only [List.cons.injEq, and_true] at hl
  rw [← hl.1] at h1
  norm_num at h1

/-- **C85 is false** without limits: a variable declared without limits panics instead of being refused. -/
theorem C85_refuted_missing_limits (k : XKind) (hk : k ≠ .ord) :
    specOf (⟨k, [], 0⟩ : XSpec K) = .error .outOfBounds := by
  cases k <;> first | rfl | exact absurd rfl hk

/-- Four documented specifications. -/
example : ∀ s ∈ ([⟨.float, [0, 1], 0⟩, ⟨.int, [-2, 3], 0⟩, ⟨.ord, [1, 5], 0⟩, ⟨.enum, [3], 0⟩,
    ⟨.enum, [], 2⟩] : List (XSpec ℚ)), SpecOk s := by
  intro s hs
  simp only [List.mem_cons, List.not_mem_nil, or_false] at hs
  rcases hs with rfl | rfl | rfl | rfl | rfl
  · exact ⟨0, 1, rfl⟩
  · exact ⟨-2, 3, by norm_num, by norm_num, by norm_num, by norm_num, by norm_num⟩
  · trivial
  · exact .inr ⟨3, by norm_num⟩
  · exact .inl (by norm_num)

end Domain

end Verif.Props
