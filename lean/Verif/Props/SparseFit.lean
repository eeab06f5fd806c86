import Verif.Model.Sparse
import Verif.Props.Tuning

/-!
# C52, C94, C95: inducing points and parameters of sparse Gaussian processes
-/

set_option autoImplicit false

namespace Verif.Props

open Verif Tuning Sparse

/-! ## Parameters -/

/-- Bounds of the parameters: `theta`, variance of the process and, if it is estimated, of the noise. -/
noncomputable def paramBounds (b : ℝ × ℝ) (k : ℕ) (sigma20 : ℝ) (noise : ParamTuning) : List (ℝ × ℝ) :=
  List.replicate k b ++ (1e-12, 9 * sigma20) :: (match noise with
    | .fixed _ => []
    | .optimized _ lo up => [(lo, up)])

theorem params0_length (theta0 : List ℝ) (sigma20 : ℝ) (noise : ParamTuning) (b : ℝ × ℝ) :
    (params0 theta0 sigma20 noise).length = (paramBounds b theta0.length sigma20 noise).length := by
  cases noise <;> simp [params0, paramBounds]

theorem boundsOf_ok {bounds r : List (ℝ × ℝ)} {initLen nParams : ℕ} (h : boundsOf bounds initLen nParams = .ok r)
    (hne : initLen ≠ nParams) : ∃ b, bounds = [b] ∧ r = List.replicate nParams b := by
  unfold boundsOf at h
  split at h
  · rename_i b
    simp only [Except.ok.injEq] at h
    exact ⟨b, rfl, h.symm⟩
  · rw [if_neg hne] at h
    simp at h

theorem adjust_ok (b : ℝ × ℝ) (k : ℕ) (sigma20 : ℝ) (noise : ParamTuning) (N : ℕ)
    (hN : N = (paramBounds b k sigma20 noise).length) :
    adjustBounds ((List.replicate N b).map fun b => (log10 b.1, log10 b.2)) k sigma20 noise =
      .ok ((paramBounds b k sigma20 noise).map fun b => (log10 b.1, log10 b.2)) := by
  subst hN
  cases noise with
  | fixed c =>
    simp only [adjustBounds, setBound, paramBounds, List.length_append, List.length_replicate, List.length_cons,
      List.length_nil, List.length_map, bind, Except.bind]
    rw [if_pos (by omega)]
    simp only [Except.ok.injEq]
    rw [List.replicate_add]
    simp
  | optimized c lo up =>
    simp only [adjustBounds, setBound, paramBounds, List.length_append, List.length_replicate, List.length_cons,
      List.length_nil, List.length_map, bind, Except.bind]
    rw [if_pos (by omega)]
    simp only [Except.ok.injEq, List.length_set, List.length_map, List.length_replicate]
    rw [List.replicate_add]
    simp [List.replicate_succ]

theorem fitParams_ok {env : Sparse.Env} {dim nStart maxEval : ℕ} {tuning : ThetaTuning} {noise : ParamTuning}
    {sigma20 : ℝ} {r : List ℝ × ℝ × ℝ} (hd : 1 ≤ dim)
    (h : fitParams env dim nStart maxEval tuning noise sigma20 = .ok r) :
    ∃ theta0 b ms limit, expand dim (initBounds tuning).1 = .ok theta0 ∧ (initBounds tuning).2 = [b] ∧
      prepareMultistart env.rng nStart (params0 theta0 sigma20 noise)
        (List.replicate (params0 theta0 sigma20 noise).length b) = .ok ms ∧
      evalLimit (initBounds tuning).1.length maxEval = .ok limit ∧
      r = readParams dim noise (((env.split (ms.1.map fun x0 => optimizeParams env.opt (Sparse.objective env dim noise) x0
        ((paramBounds b dim sigma20 noise).map fun b => (log10 b.1, log10 b.2)) limit)).reduce
          (List.replicate (params0 theta0 sigma20 noise).length 1)).2.map pow10) := by
  simp only [fitParams, bind_ok, Except.ok.injEq] at h
  obtain ⟨theta0, h1, bs, h2, ms, h3, bs', h4, limit, h5, h6⟩ := h
  have h1' := expand_ok.1 h1
  have hne : (initBounds tuning).1.length ≠ (params0 theta0 sigma20 noise).length := by
    cases noise <;> simp only [params0, List.length_append, List.length_cons, List.length_nil] <;> omega
  obtain ⟨b, hb, rfl⟩ := boundsOf_ok h2 hne
  refine ⟨theta0, b, ms, limit, h1, hb, h3, h5, ?_⟩
  rw [(prepare_ok h3).2.1, adjust_ok b dim sigma20 noise _ (by rw [← h1'.2.1]; exact params0_length _ _ _ _)] at h4
  simp only [Except.ok.injEq] at h4
  rw [h4]
  exact h6.symm

/-- C52: with bounds for each component (or any number of bounds other than one) every fit panics. -/
theorem C52_refuted_per_component (env : Sparse.Env) (dim nStart maxEval : ℕ) (init : List ℝ) (bounds : List (ℝ × ℝ))
    (active : List ℕ) (noise : ParamTuning) (sigma20 : ℝ) (hd : 1 ≤ dim) (hb : bounds.length ≠ 1)
    (tuning : ThetaTuning) (ht : tuning = .full init bounds ∨ tuning = .part init bounds active) :
    ∃ p, fitParams env dim nStart maxEval tuning noise sigma20 = .error p := by
  cases h : fitParams env dim nStart maxEval tuning noise sigma20 with
  | error p => exact ⟨p, rfl⟩
  | ok r =>
    obtain ⟨_, b, _, _, _, hb', _⟩ := fitParams_ok hd h
    rcases ht with rfl | rfl <;> exact absurd (by simp only [initBounds] at hb'; rw [hb']; rfl) hb

/-- C52: the same for fixed values, one for each of at least two components. -/
theorem C52_refuted_fixed (env : Sparse.Env) (dim nStart maxEval : ℕ) (init : List ℝ) (noise : ParamTuning)
    (sigma20 : ℝ) (hd : 1 ≤ dim) (hb : init.length ≠ 1) :
    ∃ p, fitParams env dim nStart maxEval (.fixed init) noise sigma20 = .error p := by
  cases h : fitParams env dim nStart maxEval (.fixed init) noise sigma20 with
  | error p => exact ⟨p, rfl⟩
  | ok r =>
    obtain ⟨_, b, _, _, _, hb', _⟩ := fitParams_ok hd h
    have := congrArg List.length hb'
    simp only [initBounds, List.length_map, List.length_cons, List.length_nil] at this
    exact absurd this hb

theorem fitParams_returns (env : Sparse.Env) (hu : UniformRng env.rng) (dim nStart maxEval : ℕ) (tuning : ThetaTuning)
    (b : ℝ × ℝ) (hb : (initBounds tuning).2 = [b])
    (hi : (initBounds tuning).1.length = 1 ∨ (initBounds tuning).1.length = dim) (noise : ParamTuning) (sigma20 : ℝ)
    (hpos : 0 < b.1 ∧ b.1 ≤ b.2) (h1 : nStart = 1 → b.1 < b.2) (hm : 25 ≤ maxEval) :
    ∃ r, fitParams env dim nStart maxEval tuning noise sigma20 = .ok r := by
  obtain ⟨theta0, h0⟩ := expand_exists (dim := dim) hi
  obtain ⟨rows, hr, _⟩ := C49_starts_partial env.rng hu nStart (params0 theta0 sigma20 noise)
    (List.replicate (params0 theta0 sigma20 noise).length b) (by simp)
    (fun c hc => by rw [List.eq_of_mem_replicate hc]; exact hpos)
    (fun h c hc => by rw [List.eq_of_mem_replicate hc]; exact h1 h)
  have ha := adjust_ok b dim sigma20 noise (params0 theta0 sigma20 noise).length
    (by rw [← (expand_ok.1 h0).2.1]; exact params0_length _ _ _ _)
  have he : evalLimit (initBounds tuning).1.length maxEval =
      .ok (max minEval (min (10 * (initBounds tuning).1.length) maxEval)) := if_pos hm
  have hbo : boundsOf [b] (initBounds tuning).1.length (params0 theta0 sigma20 noise).length =
      .ok (List.replicate (params0 theta0 sigma20 noise).length b) := rfl
  simp only [fitParams, h0, hb, hbo, hr, he, bind, Except.bind]
  change ∃ r, Except.bind (adjustBounds ((List.replicate _ b).map fun b => (log10 b.1, log10 b.2)) _ _ _) _ = _
  rw [ha]
  simp only [Except.bind]
  exact ⟨_, rfl⟩

/-- C52, part: with one interval for all components the fit does not panic. -/
theorem C52_single_bound_partial (env : Sparse.Env) (hu : UniformRng env.rng) (dim nStart maxEval : ℕ) (init : List ℝ)
    (b : ℝ × ℝ) (hi : init.length = 1 ∨ init.length = dim) (noise : ParamTuning) (sigma20 : ℝ)
    (hpos : 0 < b.1 ∧ b.1 ≤ b.2) (h1 : nStart = 1 → b.1 < b.2) (hm : 25 ≤ maxEval) :
    ∃ r, fitParams env dim nStart maxEval (.full init [b]) noise sigma20 = .ok r :=
  fitParams_returns env hu dim nStart maxEval (.full init [b]) b rfl hi noise sigma20 hpos h1 hm

/-- C52, part: nor with one fixed value for all components, except with one start. -/
theorem C52_single_value_partial (env : Sparse.Env) (hu : UniformRng env.rng) (dim nStart maxEval : ℕ) (v : ℝ)
    (noise : ParamTuning) (sigma20 : ℝ) (hpos : 0 < v) (h1 : nStart ≠ 1) (hm : 25 ≤ maxEval) :
    ∃ r, fitParams env dim nStart maxEval (.fixed [v]) noise sigma20 = .ok r :=
  fitParams_returns env hu dim nStart maxEval _ (v, v) rfl (Or.inl rfl) noise sigma20 ⟨hpos, le_rfl⟩
    (fun h => absurd h h1) hm

/-- C52: with one start every fit with a fixed value panics. -/
theorem C52_refuted_fixed_one_start (env : Sparse.Env) (dim maxEval : ℕ) (v : ℝ) (noise : ParamTuning) (sigma20 : ℝ)
    (hd : 1 ≤ dim) : ∃ p, fitParams env dim 1 maxEval (.fixed [v]) noise sigma20 = .error p := by
  cases h : fitParams env dim 1 maxEval (.fixed [v]) noise sigma20 with
  | error p => exact ⟨p, rfl⟩
  | ok r =>
    obtain ⟨theta0, b, ms, _, _, hb, hms, _⟩ := fitParams_ok hd h
    simp only [initBounds, List.map_cons, List.map_nil, List.cons.injEq, and_true] at hb
    subst hb
    have hl : ∃ N, (params0 theta0 sigma20 noise).length = N + 1 := by cases noise <;> simp [params0]
    obtain ⟨N, hN⟩ := hl
    rw [hN, List.replicate_succ] at hms
    simp [prepareMultistart, otherStarts, genRange, bind, Except.bind, List.range_succ_eq_map] at hms

/-! ## C95 -/

theorem take_within {x : List ℝ} {b : ℝ × ℝ} {k : ℕ} {rest : List (ℝ × ℝ)}
    (h : Spec.WithinBounds x (List.replicate k b ++ rest)) :
    (x.take k).length = k ∧ (∀ v ∈ x.take k, b.1 ≤ v ∧ v ≤ b.2) ∧ Spec.WithinBounds (x.drop k) rest := by
  induction k generalizing x with
  | zero => simpa using h
  | succ k ih =>
    rw [List.replicate_succ, List.cons_append] at h
    cases h with
    | cons h1 h2 =>
      obtain ⟨a1, a2, a3⟩ := ih h2
      refine ⟨by simpa using a1, ?_, by simpa using a3⟩
      simpa using ⟨h1, a2⟩

/-- The noise of the model. -/
def noiseOk (noise : ParamTuning) (v : ℝ) : Prop :=
  match noise with
  | .fixed c => v = c
  | .optimized _ lo up => lo ≤ v ∧ v ≤ up

theorem read_within {x : List ℝ} {b : ℝ × ℝ} {k : ℕ} {sigma20 : ℝ} {noise : ParamTuning}
    (h : Spec.WithinBounds x (paramBounds b k sigma20 noise)) :
    (readParams k noise x).1.length = k ∧ (∀ v ∈ (readParams k noise x).1, b.1 ≤ v ∧ v ≤ b.2) ∧
      (1e-12 ≤ (readParams k noise x).2.1 ∧ (readParams k noise x).2.1 ≤ 9 * sigma20) ∧
      noiseOk noise (readParams k noise x).2.2 := by
  obtain ⟨h1, h2, h3⟩ := take_within h
  have hd : ∀ i, x.getD (k + i) 0 = (x.drop k).getD i 0 := fun i => by
    rw [List.getD_eq_getElem?_getD, List.getD_eq_getElem?_getD, List.getElem?_drop]
  cases noise with
  | fixed c =>
    have e0 := hd 0
    rw [add_zero] at e0
    simp only [readParams]
    rw [e0]
    generalize x.drop k = e at h3 ⊢
    cases h3 with
    | cons a1 a2 => exact ⟨h1, h2, a1, rfl⟩
  | optimized c lo up =>
    have e0 := hd 0
    rw [add_zero] at e0
    simp only [readParams]
    rw [e0, hd 1]
    generalize x.drop k = e at h3 ⊢
    cases h3 with
    | cons a1 a2 =>
      cases a2 with
      | cons b1 b2 => exact ⟨h1, h2, a1, b1⟩

/-- C95: a fixed noise is kept, whatever the optimizer does. -/
theorem C95_fixed_noise (env : Sparse.Env) (dim nStart maxEval : ℕ) (hd : 1 ≤ dim) (tuning : ThetaTuning) (c sigma20 : ℝ)
    (r : List ℝ × ℝ × ℝ) (h : fitParams env dim nStart maxEval tuning (.fixed c) sigma20 = .ok r) : r.2.2 = c := by
  obtain ⟨_, _, _, _, _, _, _, _, rfl⟩ := fitParams_ok hd h
  rfl

theorem sparseObjective_real (env : Sparse.Env) (k : ℕ) (noise : ParamTuning) (x : List ℝ) :
    Sparse.objective env k noise (x.map some) =
      .ok (env.nll (readParams k noise (x.map pow10)).1 (readParams k noise (x.map pow10)).2.1
        (readParams k noise (x.map pow10)).2.2) := by
  rw [Sparse.objective, allSome_map]

theorem sparseObjective_total (env : Sparse.Env) (k : ℕ) (noise : ParamTuning) (x : List (Option ℝ)) :
    ∃ v, Sparse.objective env k noise x = .ok v := by
  unfold Sparse.objective
  split <;> exact ⟨_, rfl⟩

/-- What is expected of the bounds of the noise. -/
def validNoise (noise : ParamTuning) : Prop :=
  match noise with
  | .fixed _ => True
  | .optimized _ lo up => 0 < lo ∧ lo ≤ up

theorem paramBounds_pos {b : ℝ × ℝ} {k : ℕ} {sigma20 : ℝ} {noise : ParamTuning} (hb : 0 < b.1 ∧ b.1 ≤ b.2)
    (hs : 1e-12 ≤ 9 * sigma20) (hn : validNoise noise) :
    ∀ c ∈ paramBounds b k sigma20 noise, 0 < c.1 ∧ c.1 ≤ c.2 := by
  intro c hc
  cases noise with
  | fixed v =>
    simp only [paramBounds, List.mem_append, List.mem_cons, List.not_mem_nil, or_false] at hc
    rcases hc with hc | rfl
    · rw [List.eq_of_mem_replicate hc]; exact hb
    · exact ⟨by norm_num, hs⟩
  | optimized v lo up =>
    simp only [paramBounds, List.mem_append, List.mem_cons, List.not_mem_nil, or_false] at hc
    rcases hc with hc | rfl | rfl
    · rw [List.eq_of_mem_replicate hc]; exact hb
    · exact ⟨by norm_num, hs⟩
    · exact hn

/-- C95: parameters which are not all numbers never are better than others for the minimizer. -/
theorem C95_nan_parameters (env : Sparse.Env) (k : ℕ) (noise : ParamTuning) (x : List (Option ℝ)) (hx : none ∈ x) :
    ∃ v, Sparse.objective env k noise x = .ok v ∧ Spec.cost v = ⊤ := by
  exact ⟨.pinf, by simp only [Sparse.objective, allSome_none x hx], rfl⟩

/-- C95, part: when the minimizer does not fail and the likelihood is a number, all the parameters are within their
bounds. -/
theorem C95_within_bounds_partial (env : Sparse.Env) (hopt : Spec.IsMinimizer env.opt)
    (hsplit : ∀ l, (env.split l).items = l) (hnf : Spec.NeverFails env.opt)
    (hnll : ∀ t s v, Spec.cost (env.nll t s v) < ⊤) (dim nStart maxEval : ℕ) (hd : 1 ≤ dim) (init : List ℝ) (b : ℝ × ℝ)
    (hb : 0 < b.1 ∧ b.1 ≤ b.2) (tuning : ThetaTuning)
    (ht : tuning = .full init [b] ∨ (∃ act, tuning = .part init [b] act) ∨ (tuning = .fixed [b.1] ∧ b.1 = b.2))
    (noise : ParamTuning) (hn : validNoise noise) (sigma20 : ℝ) (hs : 1e-12 ≤ 9 * sigma20)
    (theta : List ℝ) (sigma2 v : ℝ)
    (h : fitParams env dim nStart maxEval tuning noise sigma20 = .ok (theta, sigma2, v)) :
    theta.length = dim ∧ (∀ t ∈ theta, b.1 ≤ t ∧ t ≤ b.2) ∧ (1e-12 ≤ sigma2 ∧ sigma2 ≤ 9 * sigma20) ∧
      noiseOk noise v := by
  obtain ⟨theta0, b', ms, limit, h0, hb', hms, _, hr⟩ := fitParams_ok hd h
  have hbb : b' = b := by
    rcases ht with rfl | ⟨_, rfl⟩ | ⟨rfl, he⟩ <;> simp only [initBounds, List.map_cons, List.map_nil, List.cons.injEq, and_true] at hb'
    · exact hb'.symm
    · exact hb'.symm
    · rw [← hb']; exact Prod.ext rfl he
  subst hbb
  set B := (paramBounds b' dim sigma20 noise).map fun b => (log10 b.1, log10 b.2) with hB
  set F := Sparse.objective env dim noise with hF
  have hpos := paramBounds_pos (k := dim) hb hs hn
  have hsel30 := C30_reduction_selects_first_minimum (List.replicate (params0 theta0 sigma20 noise).length (1 : ℝ))
    (env.split (ms.1.map fun x0 => optimizeParams env.opt F x0 B limit))
  rw [hsplit] at hsel30
  set res := (env.split (ms.1.map fun x0 => optimizeParams env.opt F x0 B limit)).reduce
    (List.replicate (params0 theta0 sigma20 noise).length (1 : ℝ)) with hres
  obtain ⟨⟨rows, hrows⟩, _, hlen⟩ := prepare_ok hms
  have hval : ∀ x0 ∈ ms.1, ∃ v, (env.opt F x0 B limit).1 = some v ∧ Spec.cost v < ⊤ := fun x0 _ => by
    obtain ⟨v, hv⟩ := Option.ne_none_iff_exists'.1 (hnf F (sparseObjective_total _ _ _) x0 B limit)
    refine ⟨v, hv, ?_⟩
    have := hopt.value _ _ _ _ _ hv
    rw [hF, sparseObjective_real, Except.ok.injEq] at this
    rw [← this]
    exact hnll _ _ _
  have key : Spec.WithinBounds (res.2.map pow10) (paramBounds b' dim sigma20 noise) := by
    rcases hsel30 with ⟨hall, hd⟩ | ⟨k, hk, hlt, hmin⟩
    · have hx0 : (params0 theta0 sigma20 noise).map log10 ∈ ms.1 := by rw [hrows]; exact List.mem_cons_self
      obtain ⟨v, hv, hlt⟩ := hval _ hx0
      have := hall _ (List.mem_map_of_mem (f := fun x0 => optimizeParams env.opt F x0 B limit) hx0)
      simp only [optimizeParams, hv, cost_optValue] at this
      rw [this] at hlt
      exact absurd hlt (lt_irrefl _)
    · have hmem := List.mem_of_getElem? hk
      rw [List.mem_map] at hmem
      obtain ⟨x0, hx0, he⟩ := hmem
      obtain ⟨v, hv, _⟩ := hval x0 hx0
      have hpt : res.2 = (env.opt F x0 B limit).2 := by rw [← he]; rfl
      rw [hpt]
      apply pow10_within hpos
      apply hopt.within _ _ _ _ v hv
      · rw [hlen x0 hx0, params0_length _ _ _ b', (expand_ok.1 h0).2.1, hB, List.length_map]
      · simp only [hB, List.mem_map]
        rintro _ ⟨c, hc, rfl⟩
        exact log10_le (hpos c hc).1 (hpos c hc).2
  have := read_within key
  rw [← hr] at this
  exact this

/-- C95, part: when the initial parameters are within their bounds the retained ones are at least as likely. -/
theorem C95_not_worse_partial (env : Sparse.Env) (hopt : Spec.IsMinimizer env.opt)
    (hsplit : ∀ l, (env.split l).items = l) (hnf : Spec.NeverFails env.opt)
    (hnll : ∀ t s v, Spec.cost (env.nll t s v) < ⊤) (dim nStart maxEval : ℕ) (hd : 1 ≤ dim) (c : ℝ) (b : ℝ × ℝ)
    (hb : 0 < b.1 ∧ b.1 ≤ c ∧ c ≤ b.2) (noise : ParamTuning) (hn : validNoise noise) (hn0 : noiseOk noise noise.init)
    (sigma20 : ℝ) (hs : 1e-12 ≤ sigma20) (theta : List ℝ) (sigma2 v : ℝ)
    (h : fitParams env dim nStart maxEval (.full [c] [b]) noise sigma20 = .ok (theta, sigma2, v)) :
    Spec.cost (env.nll theta sigma2 v) ≤ Spec.cost (env.nll (List.replicate dim c) sigma20 noise.init) := by
  obtain ⟨theta0, b', ms, limit, h0, hb', hms, _, hr⟩ := fitParams_ok hd h
  simp only [initBounds, List.cons.injEq, and_true] at hb'
  subst hb'
  have ht0 : theta0 = List.replicate dim c := by
    simp only [initBounds, expand, Except.ok.injEq] at h0
    exact h0.symm
  set B := (paramBounds b dim sigma20 noise).map fun b => (log10 b.1, log10 b.2) with hB
  set F := Sparse.objective env dim noise with hF
  have hpos := paramBounds_pos (k := dim) ⟨hb.1, hb.2.1.trans hb.2.2⟩ (by linarith : 1e-12 ≤ 9 * sigma20) hn
  have hsel30 := C30_reduction_selects_first_minimum (List.replicate (params0 theta0 sigma20 noise).length (1 : ℝ))
    (env.split (ms.1.map fun x0 => optimizeParams env.opt F x0 B limit))
  rw [hsplit] at hsel30
  set res := (env.split (ms.1.map fun x0 => optimizeParams env.opt F x0 B limit)).reduce
    (List.replicate (params0 theta0 sigma20 noise).length (1 : ℝ)) with hres
  obtain ⟨⟨rows, hrows⟩, _, hlen⟩ := prepare_ok hms
  have hval : ∀ x0 ∈ ms.1, ∃ v, (env.opt F x0 B limit).1 = some v ∧ Spec.cost v < ⊤ := fun x0 _ => by
    obtain ⟨v, hv⟩ := Option.ne_none_iff_exists'.1 (hnf F (sparseObjective_total _ _ _) x0 B limit)
    refine ⟨v, hv, ?_⟩
    have := hopt.value _ _ _ _ _ hv
    rw [hF, sparseObjective_real, Except.ok.injEq] at this
    rw [← this]
    exact hnll _ _ _
  have hx0 : (params0 theta0 sigma20 noise).map log10 ∈ ms.1 := by rw [hrows]; exact List.mem_cons_self
  have hw : Spec.WithinBounds (params0 theta0 sigma20 noise) (paramBounds b dim sigma20 noise) := by
    rw [ht0]
    have h1 : List.Forall₂ (fun (v : ℝ) (b : ℝ × ℝ) => b.1 ≤ v ∧ v ≤ b.2) (List.replicate dim c) (List.replicate dim b) := by
      rw [List.forall₂_iff_get]
      refine ⟨by simp, fun i _ _ => ?_⟩
      simp [hb.2.1, hb.2.2]
    have h2 : (1e-12 : ℝ) ≤ sigma20 ∧ sigma20 ≤ 9 * sigma20 := ⟨hs, by linarith⟩
    unfold Spec.WithinBounds
    cases noise with
    | fixed v => exact List.rel_append h1 (.cons h2 .nil)
    | optimized v lo up => exact List.rel_append h1 (.cons h2 (.cons hn0 .nil))
  have hw' : Spec.WithinBounds ((params0 theta0 sigma20 noise).map log10) B := log10_within (fun c hc => (hpos c hc).1) hw
  have hinit : F (((params0 theta0 sigma20 noise).map log10).map some) =
      .ok (env.nll (List.replicate dim c) sigma20 noise.init) := by
    have hp : ((params0 theta0 sigma20 noise).map log10).map pow10 = params0 theta0 sigma20 noise := by
      rw [List.map_map]
      conv_rhs => rw [← List.map_id (params0 theta0 sigma20 noise)]
      refine List.map_congr_left fun t ht => ?_
      refine pow10_log10 ?_
      obtain ⟨i, hi, rfl⟩ := List.mem_iff_getElem.1 ht
      obtain ⟨_, hw2⟩ := List.forall₂_iff_get.1 hw
      have hi' : i < (paramBounds b dim sigma20 noise).length := by rw [← hw.length_eq]; exact hi
      exact lt_of_lt_of_le (hpos _ (List.get_mem _ ⟨i, hi'⟩)).1 (hw2 i hi hi').1
    rw [hF, sparseObjective_real, hp, ht0]
    cases noise <;> simp [readParams, params0, ParamTuning.init, List.getD_eq_getElem?_getD]
  obtain ⟨v1, hv1, hlt1⟩ := hval _ hx0
  have hd1 := hopt.descent _ _ _ _ _ _ hv1 hw' hinit
  have hle := selected_cost_le hsel30 _
    (List.mem_map_of_mem (f := fun x0 => optimizeParams env.opt F x0 B limit) hx0)
  simp only [optimizeParams, hv1, cost_optValue] at hle
  rcases hsel30 with ⟨hall, _⟩ | ⟨k, hk, _, _⟩
  · have := hall _ (List.mem_map_of_mem (f := fun x0 => optimizeParams env.opt F x0 B limit) hx0)
    simp only [optimizeParams, hv1, cost_optValue] at this
    rw [this] at hlt1
    exact absurd hlt1 (lt_irrefl _)
  · have hmem := List.mem_of_getElem? hk
    rw [List.mem_map] at hmem
    obtain ⟨x1, hx1, he⟩ := hmem
    obtain ⟨v2, hv2, _⟩ := hval x1 hx1
    have hpt : res.2 = (env.opt F x1 B limit).2 := by rw [← he]; rfl
    have hco : Spec.cost res.1 = Spec.cost v2 := by rw [← he]; simp only [optimizeParams, hv2, cost_optValue]
    have hv3 := hopt.value _ _ _ _ _ hv2
    rw [← hpt, hF, sparseObjective_real, Except.ok.injEq, ← hr] at hv3
    rw [hv3, ← hco]
    exact hle.trans hd1

/-- C95, part: a `theta` fixed for all components is kept, up to the hypotheses on the minimizer. -/
theorem C95_fixed_theta_partial (env : Sparse.Env) (hopt : Spec.IsMinimizer env.opt)
    (hsplit : ∀ l, (env.split l).items = l) (hnf : Spec.NeverFails env.opt)
    (hnll : ∀ t s v, Spec.cost (env.nll t s v) < ⊤) (dim nStart maxEval : ℕ) (hd : 1 ≤ dim) (c : ℝ) (hc : 0 < c)
    (noise : ParamTuning) (hn : validNoise noise) (sigma20 : ℝ) (hs : 1e-12 ≤ 9 * sigma20)
    (theta : List ℝ) (sigma2 v : ℝ)
    (h : fitParams env dim nStart maxEval (.fixed [c]) noise sigma20 = .ok (theta, sigma2, v)) :
    theta = List.replicate dim c := by
  obtain ⟨h1, h2, _⟩ := C95_within_bounds_partial env hopt hsplit hnf hnll dim nStart maxEval hd [c] (c, c) ⟨hc, le_rfl⟩
    (.fixed [c]) (Or.inr (Or.inr ⟨rfl, rfl⟩)) noise hn sigma20 hs theta sigma2 v h
  rw [List.eq_replicate_iff]
  exact ⟨h1, fun t ht => le_antisymm (h2 t ht).2 (h2 t ht).1⟩

/-- C95: when every evaluation of the likelihood fails, the parameters are all 10 (`theta` even if it is fixed, and the
estimated noise) whatever the bounds. -/
theorem C95_refuted_all_fail (env : Sparse.Env) (hopt : Spec.IsMinimizer env.opt)
    (hsplit : ∀ l, (env.split l).items = l) (hnll : ∀ t s v, env.nll t s v = .pinf) (dim nStart maxEval : ℕ)
    (hd : 1 ≤ dim) (tuning : ThetaTuning) (noise : ParamTuning) (sigma20 : ℝ)
    (theta : List ℝ) (sigma2 v : ℝ)
    (h : fitParams env dim nStart maxEval tuning noise sigma20 = .ok (theta, sigma2, v)) :
    theta = List.replicate dim 10 ∧ sigma2 = 10 ∧ (noise.isEstimated = true → v = 10) := by
  obtain ⟨theta0, b', ms, limit, h0, hb', hms, _, hr⟩ := fitParams_ok hd h
  set B := (paramBounds b' dim sigma20 noise).map fun b => (log10 b.1, log10 b.2) with hB
  set F := Sparse.objective env dim noise with hF
  have hsel30 := C30_reduction_selects_first_minimum (List.replicate (params0 theta0 sigma20 noise).length (1 : ℝ))
    (env.split (ms.1.map fun x0 => optimizeParams env.opt F x0 B limit))
  rw [hsplit] at hsel30
  set res := (env.split (ms.1.map fun x0 => optimizeParams env.opt F x0 B limit)).reduce
    (List.replicate (params0 theta0 sigma20 noise).length (1 : ℝ)) with hres
  have hall : ∀ x0, Spec.cost (optimizeParams env.opt F x0 B limit).1 = ⊤ := by
    intro x0
    simp only [optimizeParams]
    cases hv : (env.opt F x0 B limit).1 with
    | none => simp [optValue, cost_pinf]
    | some v =>
      have := hopt.value _ _ _ _ _ hv
      rw [hF, sparseObjective_real, Except.ok.injEq, hnll] at this
      rw [← this]
      simp [optValue, cost_pinf]
  have hres2 : res.2 = List.replicate (params0 theta0 sigma20 noise).length 1 := by
    rcases hsel30 with ⟨_, hd⟩ | ⟨k, hk, hlt, _⟩
    · rw [hd]
    · have hmem := List.mem_of_getElem? hk
      rw [List.mem_map] at hmem
      obtain ⟨x0, hx0, he⟩ := hmem
      rw [← he, hall] at hlt
      exact absurd hlt (lt_irrefl _)
  have h10 : pow10 1 = 10 := by simp [pow10]
  have hlen : theta0.length = dim := (expand_ok.1 h0).2.1
  rw [hres2, List.map_replicate, h10] at hr
  cases noise with
  | fixed c =>
    simp only [params0, readParams, List.length_append, List.length_cons, List.length_nil, hlen] at hr
    simp only [Prod.mk.injEq] at hr
    refine ⟨by rw [hr.1]; simp, by rw [hr.2.1]; simp [List.getD_eq_getElem?_getD], by simp [ParamTuning.isEstimated]⟩
  | optimized c lo up =>
    simp only [params0, readParams, List.length_append, List.length_cons, List.length_nil, hlen] at hr
    simp only [Prod.mk.injEq] at hr
    refine ⟨by rw [hr.1]; simp, by rw [hr.2.1]; simp [List.getD_eq_getElem?_getD], fun _ => by
      rw [hr.2.2]; simp [List.getD_eq_getElem?_getD]⟩

/-! ## C94: inducing points -/

/-- C94: located inducing points are used as they are. -/
theorem C94_located {α : Type} (z xt : List α) (shuffled : List ℕ) : inducingPoints (.located z) xt shuffled = .ok z := rfl

/-- C94: randomized inducing points are, for any shuffle, distinct rows of the training inputs: as many as asked, or all
of them if there are not enough. -/
theorem C94_randomized {α : Type} (k : ℕ) (xt : List α) (shuffled : List ℕ)
    (hsh : shuffled.Perm (List.range xt.length)) :
    ∃ (z : List α) (rows : List ℕ), inducingPoints (.randomized k) xt shuffled = .ok z ∧ z.length = min k xt.length ∧
      rows.Nodup ∧ (∀ i ∈ rows, i < xt.length) ∧ z.map some = rows.map fun i => xt[i]? := by
  have hl : shuffled.length = xt.length := by rw [hsh.length_eq, List.length_range]
  have hnd : shuffled.Nodup := hsh.nodup_iff.2 List.nodup_range
  have hlt : ∀ i ∈ shuffled.take (min k xt.length), i < xt.length := fun i hi =>
    List.mem_range.1 (hsh.mem_iff.1 (List.mem_of_mem_take hi))
  obtain ⟨z, hz⟩ := select_exists hlt
  have hz' := select_ok.1 hz
  refine ⟨z, shuffled.take (min k xt.length), ?_, ?_, hnd.sublist (List.take_sublist _ _), hlt, hz'.symm⟩
  · simp only [inducingPoints, makeInducings]
    rw [if_pos (by omega)]
    exact hz
  · have := congrArg List.length hz'
    rw [pickAt_length, List.length_map, List.length_take] at this
    omega

/-- Case of `C94_randomized`. -/
example : ∃ (z : List String) (rows : List ℕ), inducingPoints (.randomized 2) ["a", "b", "c"] [2, 0, 1] = .ok z ∧ z.length = min 2 3 ∧
      rows.Nodup ∧ (∀ i ∈ rows, i < 3) ∧ z.map some = rows.map fun i => ["a", "b", "c"][i]? :=
  C94_randomized 2 ["a", "b", "c"] [2, 0, 1] (by decide)

/-- Case of `C95_within_bounds_partial`: the hypotheses hold for the minimizer of `Props/Tuning.lean` and the fit
returns. -/
example : ∃ r, fitParams ⟨fun _ _ _ => .fin 0, clampOpt, exRng, .task⟩ 2 3 50 (.full [1 / 10] [(1 / 100, 10)])
    (.optimized (1 / 100) (1 / 1000) 1) 4 = .ok r :=
  C52_single_bound_partial _ exRng_uniform 2 3 50 [1 / 10] (1 / 100, 10) (Or.inl rfl) _ 4 (by norm_num)
    (by norm_num) (by norm_num)

end Verif.Props
