import Verif.Model.RunFile
import Verif.Props.RunExact
import Mathlib.Tactic.NormNum
import Mathlib.Tactic.IntervalCases

/-!
# C151: the file of the run recorder describes the run

The model is `Model/RunFile.lean`, on top of the runs of `Model/Run.lean`; the samples themselves are the subject of C26.
-/

set_option autoImplicit false

namespace Verif.Props

open Verif Verif.Run Verif.RunFile Verif.MixInt

/-! ## The iterations -/

theorem recordLoop_some (bs : List (List Sample)) : ∀ (it : ℕ) (f : RunData),
    recordLoop true it bs (some f) = .ok (some { f with
      search := f.search ++ bs.mapIdx fun i b => (f.search.length + i + 1, b.length, b)
      boIterations := if bs = [] then f.boIterations else it + bs.length
      totalSamples := f.totalSamples + bs.flatten.length }) := by
  induction bs with
  | nil => intro it f; simp [recordLoop]
  | cons b bs ih =>
    intro it f
    have h1 : recordLoop true it (b :: bs) (some f) = recordLoop true (it + 1) bs (some (updateRunInfo f (it + 1) b)) := rfl
    rw [h1, ih]
    simp only [updateRunInfo, List.length_append, List.mapIdx_cons, List.append_assoc,
      List.singleton_append, List.flatten_cons, List.length_cons, Except.ok.injEq, Option.some.injEq]
    congr 1
    · by_cases h : bs = []
      · simp [h]
      · simp only [h, if_false, List.cons_ne_nil]; omega
    · omega
    · congr 2
      congr 1
      funext i c
      simp only [List.length_nil, Prod.mk.injEq, and_true]
      omega

/-- The file of a recorded run, in terms of the recorder's part of the final state. -/
theorem fileOfRun_eq (lims : List (ℚ × ℚ)) (cfg : Cfg) (m : Meta) (info : Option (String × ℕ)) (s : St)
    (hr : cfg.recorder = true) :
    ∃ f, fileOfRun lims cfg m info s = .ok (some f) ∧
      f.initial = s.initial.mapIdx (fun i x => (i + 1, x)) ∧ f.initialSamples = s.initial.length ∧
      f.search = s.history.mapIdx (fun i b => (i + 1, b.length, b)) ∧
      f.totalSamples = s.initial.length + s.history.flatten.length ∧
      f.boIterations = (if s.history = [] then cfg.maxIters else s.history.length) ∧
      f.dimensionality = lims.length ∧ f.lower = lims.map (·.1) ∧ f.upper = lims.map (·.2) ∧
      f.acquisition = m.infill.name ∧ f.kernel = kernelName m.corr ∧ f.batchSize = cfg.qPoints ∧
      f.seed = seedField m.seed ∧
      (f.testFunction, f.replication) = info.getD ("", 0) := by
  unfold fileOfRun
  rw [hr]
  simp only [if_true, recordLoop_some]
  refine ⟨_, rfl, ?_⟩
  simp [initRunInfo]

/-! ## Counts -/

/-- **C151** (partial: runs not ended as no more point can be added). The file has the points of the initial design,
numbered from 1, then the iterations, numbered from 1, which have together all the points added after the initial design;
the total number of samples is the number of evaluated points and the number of iterations that of the run, if there
is any; the other fields are those of the configuration. -/
theorem C151_counts_partial (lims : List (ℚ × ℚ)) (cfg : Cfg) (m : Meta) (info : Option (String × ℕ)) (P : Prob) (doe : Doe)
    (os : List Oracle) (s : St) (hr : cfg.recorder = true) (h : run cfg P doe os = .ok s) (hc : s.converged = false) :
    ∃ f, fileOfRun lims cfg m info s = .ok (some f) ∧
      f.initial.map (·.1) = List.range' 1 doe.size ∧
      f.initial.map (·.2) = samples (s.data.x.take doe.size) (s.data.y.rows.take doe.size) ∧
      f.initialSamples = doe.size ∧
      f.search.map (·.1) = List.range' 1 s.iter ∧
      (∀ b ∈ f.search, b.2.1 = b.2.2.length) ∧
      (f.search.map (·.2.2)).flatten = samples (s.data.x.drop doe.size) (s.data.y.rows.drop doe.size) ∧
      f.totalSamples = s.data.x.length ∧
      (f.boIterations = s.iter ↔ s.iter ≠ 0 ∨ cfg.maxIters = 0) ∧
      f.batchSize = cfg.qPoints ∧ f.lower = lims.map (·.1) ∧ f.upper = lims.map (·.2) ∧
      (f.testFunction, f.replication) = info.getD ("", 0) := by
  obtain ⟨h1, h2, h3⟩ := C26_history_partial cfg P doe os s hr h hc
  obtain ⟨f, hf, g1, g2, g3, g4, g5, g6, g7, g8, g9, g10, g11, g12, g13⟩ := fileOfRun_eq lims cfg m info s hr
  obtain ⟨s0, xs, _, hext, hsz, _⟩ := run_ext h
  have hle : doe.size ≤ s.data.x.length := by rw [hext.1, List.length_append]; omega
  have hal := (C15_run_data_aligned cfg P doe os s h).1
  have hini : s.initial.length = doe.size := by
    rw [h1, samples, List.length_zipWith, List.length_take, List.length_take, ← hal]
    omega
  refine ⟨f, hf, ?_, ?_, by rw [g2, hini], ?_, ?_, ?_, ?_, ?_, g11, g7, g8, g13⟩
  · rw [g1, ← hini]
    apply List.ext_getElem <;> simp [Nat.add_comm]
  · rw [g1, ← h1]
    apply List.ext_getElem <;> simp
  · rw [g3, ← h3]
    apply List.ext_getElem <;> simp [Nat.add_comm]
  · rw [g3]
    intro b hb
    obtain ⟨i, hi, rfl⟩ := List.mem_mapIdx.1 hb
    rfl
  · rw [g3, ← h2]
    congr 1
    apply List.ext_getElem <;> simp
  · rw [g4, hini, h2, samples, List.length_zipWith, List.length_drop, List.length_drop, ← hal]
    omega
  · rw [g5]
    have : s.history = [] ↔ s.iter = 0 := by rw [← h3, List.length_eq_zero_iff]
    by_cases hz : s.iter = 0
    · rw [if_pos (this.2 hz), hz]; simp
    · rw [if_neg (fun e => hz (this.1 e)), h3]; simp [hz]

example : ((run exCfg exProb (.points [[5], [3]]) [exOracle 5 (1/2), exOracle (1/3) (1/4)]).map fun s =>
      (s.converged, (fileOfRun [(0, 10)] exCfg ⟨.logEi, ⟨true, false, false, false⟩, some 42⟩ (some ("square", 1)) s).toOption.join.map
        (fun f => (f.kernel, f.totalSamples, f.search.map (·.2.1)))))
    = .ok (false, (some ("Squared Exponential", 5, [1, 2]))) := by decide +kernel

/-- **C151** is refuted, for all runs ended as no more point can be added: an iteration more than those which added points
is counted, and the samples of the last of them (the initial design if there is none) are counted twice. -/
theorem C151_refuted_ended_run (lims : List (ℚ × ℚ)) (cfg : Cfg) (m : Meta) (info : Option (String × ℕ)) (P : Prob)
    (doe : Doe) (os : List Oracle) (s : St) (hr : cfg.recorder = true) (h : run cfg P doe os = .ok s)
    (hc : s.converged = true) :
    ∃ f hs, fileOfRun lims cfg m info s = .ok (some f) ∧
      hs.flatten = samples (s.data.x.drop doe.size) (s.data.y.rows.drop doe.size) ∧
      f.search.map (·.2.2) = hs ++ [hs.getLast?.getD (f.initial.map (·.2))] ∧
      f.boIterations = hs.length + 1 ∧
      f.totalSamples = s.data.x.length + (hs.getLast?.getD (f.initial.map (·.2))).length := by
  obtain ⟨h1, hs, h2, h3, h4⟩ := C26_refuted_ended_run cfg P doe os s hr h hc
  obtain ⟨f, hf, g1, g2, g3, g4, g5, _⟩ := fileOfRun_eq lims cfg m info s hr
  obtain ⟨s0, xs, _, hext, hsz, _⟩ := run_ext h
  have hle : doe.size ≤ s.data.x.length := by rw [hext.1, List.length_append]; omega
  have hal := (C15_run_data_aligned cfg P doe os s h).1
  have hmap : f.initial.map (·.2) = s.initial := by
    rw [g1]
    apply List.ext_getElem <;> simp
  have hini : s.initial.length = doe.size := by
    rw [h1, samples, List.length_zipWith, List.length_take, List.length_take, ← hal]
    omega
  refine ⟨f, hs, hf, h4, ?_, ?_, ?_⟩
  · rw [hmap, ← h2, g3]
    apply List.ext_getElem <;> simp
  · rw [g5, if_neg (by rw [h2]; simp), h2]
    simp
  · rw [hmap, g4, hini, h2, List.flatten_append, h4, List.length_append, samples, List.length_zipWith, List.length_drop,
      List.length_drop, ← hal]
    simp only [List.flatten_cons, List.flatten_nil, List.append_nil]
    omega

example : ((run exCfg exProb (.points [[5], [3]]) [exOracle 5 (1/2), exOracle 5 (1/2)]).map fun s =>
      (s.converged, s.data.x.length, (fileOfRun [(0, 10)] exCfg ⟨.ei, ⟨true, true, false, false⟩, none⟩ none s).toOption.join.map
        (fun f => (f.kernel, f.boIterations, f.totalSamples))))
    = .ok (true, 3, (some ("Mixed", 2, 4))) := by decide +kernel

/-- **C151** is refuted for runs without iteration (the target is reached by the initial design): the file has the maximal
number of iterations, instead of zero. -/
theorem C151_refuted_no_iteration (lims : List (ℚ × ℚ)) (cfg : Cfg) (m : Meta) (info : Option (String × ℕ)) (P : Prob)
    (doe : Doe) (os : List Oracle) (s : St) (hr : cfg.recorder = true) (h0 : init cfg P doe = .ok s)
    (hs : stops cfg s = true) :
    run cfg P doe os = .ok s ∧ ∃ f, fileOfRun lims cfg m info s = .ok (some f) ∧ f.search = [] ∧
      f.boIterations = cfg.maxIters := by
  have hhist := (init_spec h0).2.2.2.2.2.2.2.2.2.2.2.2.2.2.1
  constructor
  · simp only [run, h0]
    cases os with
    | nil => rfl
    | cons o os =>
      change loop cfg P (o :: os) s = _
      simp only [loop, hs, if_true]
  · obtain ⟨f, hf, g1, g2, g3, g4, g5, _⟩ := fileOfRun_eq lims cfg m info s hr
    exact ⟨f, hf, by rw [g3, hhist]; rfl, by rw [g5, hhist, if_pos rfl]⟩

example : ((run { exCfg with target := .fin 30 } exProb (.points [[5], [3]]) [exOracle 5 (1/2)]).map fun s =>
      (s.iter, (fileOfRun [(0, 10)] exCfg ⟨.wb2 none, ⟨false, false, false, true⟩, some 3⟩ none s).toOption.join.map
        (fun f => (f.acquisition, f.boIterations, f.totalSamples))))
    = .ok (0, (some ("WB2S", 10, 2))) := by decide +kernel

/-! ## Checkpoints -/

theorem recordLoop_none (bs : List (List Sample)) (it : ℕ) :
    recordLoop true it bs none = if bs = [] then .ok none else .error .other := by
  cases bs <;> rfl

theorem recordLoop_off (bs : List (List Sample)) : ∀ (it : ℕ) (f : Option RunData), recordLoop false it bs f = .ok f := by
  induction bs with
  | nil => intro it f; rfl
  | cons b bs ih => intro it f; exact ih (it + 1) f

/-- **C151**. A run recorded from its start, stopped and continued from its checkpoint, has the same file as if it had not
been stopped. -/
theorem C151_continued (on : Bool) (info : Option (String × ℕ)) (it : ℕ) (as bs : List (List Sample)) (f : Option RunData) :
    (recordLoop on it as f >>= recordLoop on (it + as.length) bs >>= saveRun on info) =
      (recordLoop on it (as ++ bs) f >>= saveRun on info) := by
  congr 1
  induction as generalizing it f with
  | nil => rfl
  | cons a as ih =>
    simp only [List.cons_append, recordLoop, List.length_cons]
    cases recordStep on it a f with
    | error e => rfl
    | ok g =>
      have := ih (it + 1) g
      rw [show it + 1 + as.length = it + (as.length + 1) by omega] at this
      exact this

example : (recordLoop true 1 [[⟨[1], .fin 2⟩]] (some (initRunInfo [(0, 10)] exCfg
      ⟨.ei, ⟨true, true, false, false⟩, none⟩ [⟨[0], .fin 1⟩]))).map (Option.map fun f => (f.totalSamples, f.boIterations)) =
    .ok (some (2, 2)) := by decide +kernel

/-- **C151** is refuted for runs continued with the recorder switched on, whose checkpoint comes from a run without: the
run panics, even if no iteration is left to do. -/
theorem C151_refuted_switched_on (info : Option (String × ℕ)) (it : ℕ) (as bs : List (List Sample)) :
    (recordLoop false it as none >>= recordLoop true (it + as.length) bs >>= saveRun true info) = .error .other := by
  rw [recordLoop_off]
  change (recordLoop true (it + as.length) bs none >>= saveRun true info) = _
  rw [recordLoop_none]
  split_ifs <;> rfl

/-- **C151** is refuted for runs continued for a while with the recorder switched off: the iterations meanwhile are not in
the file, the following ones are numbered as if there had been none, and the total number of samples leaves them out,
while the number of iterations has them. -/
theorem C151_refuted_switched_off (info : Option (String × ℕ)) (f : RunData) (h0 : f.search = []) (as bs cs : List (List Sample))
    (hcs : cs ≠ []) :
    ∃ g, (recordLoop true 0 as (some f) >>= recordLoop false as.length bs >>=
        recordLoop true (as.length + bs.length) cs >>= saveRun true info) = .ok (some g) ∧
      g.search.map (·.1) = List.range' 1 (as.length + cs.length) ∧
      g.search.map (·.2.2) = as ++ cs ∧
      g.boIterations = as.length + bs.length + cs.length ∧
      g.totalSamples = f.totalSamples + as.flatten.length + cs.flatten.length := by
  rw [recordLoop_some]
  change ∃ g, (recordLoop false as.length bs (some _) >>= recordLoop true (as.length + bs.length) cs >>= saveRun true info) =
    _ ∧ _
  rw [recordLoop_off]
  change ∃ g, (recordLoop true (as.length + bs.length) cs (some _) >>= saveRun true info) = _ ∧ _
  rw [recordLoop_some]
  refine ⟨_, rfl, ?_⟩
  simp only [h0, List.nil_append, List.length_nil, List.length_mapIdx, hcs, if_false, List.map_append, and_true]
  refine ⟨?_, ?_⟩
  · apply List.ext_getElem
    · simp
    · intro i h1 h2
      by_cases hi : i < as.length
      · rw [List.getElem_append_left (by simpa using hi)]; simp [Nat.add_comm]
      · rw [List.getElem_append_right (by simpa using hi)]; simp; omega
  · congr 1 <;> apply List.ext_getElem <;> simp

/-! ## Seed -/

/-- **C151**. The seed of the file is that of the configuration exactly when it is less than 2³¹. -/
theorem C151_seed_iff (v : ℕ) : seedField (some v) = v ↔ v < 2 ^ 31 := by
  simp only [seedField, asI32]
  constructor
  · intro h; split_ifs at h with h1
    · have h' : v % 2 ^ 32 = v := by exact_mod_cast h
      rwa [h'] at h1
    · omega
  · intro h
    have h' : v % 2 ^ 32 = v := Nat.mod_eq_of_lt (by omega)
    rw [h', if_pos h]

/-- **C151** is refuted for larger seeds: the file does not tell apart two seeds which are equal modulo 2³² (and no others). -/
theorem C151_seed_collision_iff (v w : ℕ) :
    seedField (some v) = seedField (some w) ↔ v % 2 ^ 32 = w % 2 ^ 32 := by
  simp only [seedField, asI32]
  split_ifs <;> omega

/-- **C151**. A run with a seed is taken for a run without exactly when the 32 low bits of its seed are ones. -/
theorem C151_no_seed_iff (v : ℕ) : seedField (some v) = seedField none ↔ v % 2 ^ 32 = 2 ^ 32 - 1 := by
  simp only [seedField, asI32]
  split_ifs with h
  · constructor
    · intro h1; exact h1.elim
    · intro h1; omega
  · omega

example : seedField (some 42) = 42 ∧ seedField (some (2 ^ 32 + 42)) = 42 ∧ seedField (some (2 ^ 31)) = -2 ^ 31 ∧
    seedField (some (2 ^ 64 - 1)) = -1 := by decide +kernel

/-! ## Kernel and criterion -/

/-- **C151**. The kernel field tells apart two configurations exactly when one of them allows exactly one correlation model
(and they differ). -/
theorem C151_kernel_iff (s t : Moe.CorrelationSpec) :
    kernelName s = kernelName t ↔
      s = t ∨ ((Moe.allowedCorrs s).length ≠ 1 ∧ (Moe.allowedCorrs t).length ≠ 1) := by
  obtain ⟨a, b, c, d⟩ := s
  obtain ⟨a', b', c', d'⟩ := t
  revert a b c d a' b' c' d'
  decide +kernel

/-- Names of the correlation models, for a reader of the file. -/
def corrLabel : Moe.CorrKind → String
  | .squaredExponential => "Squared Exponential"
  | .absoluteExponential => "Absolute Exponential"
  | .matern32 => "Matern 3/2"
  | .matern52 => "Matern 5/2"

/-- **C151**. The kernel field is the name of a correlation model exactly when it is the only one which the training may
choose, and otherwise "Mixed". -/
theorem C151_kernel_name (s : Moe.CorrelationSpec) :
    (∀ k, kernelName s = corrLabel k ↔ Moe.allowedCorrs s = [k]) ∧
    (kernelName s = "Mixed" ↔ ∀ k, Moe.allowedCorrs s ≠ [k]) := by
  have h : ∀ a b c d, (∀ k ∈ [Moe.CorrKind.squaredExponential, .absoluteExponential, .matern32, .matern52],
        (kernelName ⟨a, b, c, d⟩ = corrLabel k ↔ Moe.allowedCorrs ⟨a, b, c, d⟩ = [k])) ∧
      (kernelName ⟨a, b, c, d⟩ = "Mixed" ↔
        ∀ k ∈ [Moe.CorrKind.squaredExponential, .absoluteExponential, .matern32, .matern52],
          Moe.allowedCorrs ⟨a, b, c, d⟩ ≠ [k]) := by decide +kernel
  obtain ⟨a, b, c, d⟩ := s
  have hk : ∀ k, k ∈ [Moe.CorrKind.squaredExponential, .absoluteExponential, .matern32, .matern52] := by
    intro k; cases k <;> simp
  refine ⟨fun k => (h a b c d).1 k (hk k), (h a b c d).2.trans ⟨fun h' k => h' k (hk k), fun h' k _ => h' k⟩⟩

/-- **C151**. The acquisition field tells apart all criteria but the scaled WB2 ones. -/
theorem C151_acquisition_iff (i j : Infill) :
    i.name = j.name ↔ i = j ∨ ∃ a b, i = .wb2 a ∧ j = .wb2 b ∧ a ≠ some 1 ∧ b ≠ some 1 := by
  have e1 : "EI" ≠ "LogEI" := by decide
  have e2 : "EI" ≠ "WB2" := by decide
  have e3 : "EI" ≠ "WB2S" := by decide
  have e4 : "LogEI" ≠ "WB2" := by decide
  have e5 : "LogEI" ≠ "WB2S" := by decide
  have e6 : "WB2" ≠ "WB2S" := by decide
  cases i with
  | ei => cases j with
    | ei => simp
    | logEi => simp [Infill.name]
    | wb2 b => by_cases hb : b = some 1 <;> simp [Infill.name, hb]
  | logEi => cases j with
    | ei => simp [Infill.name]
    | logEi => simp
    | wb2 b => by_cases hb : b = some 1 <;> simp [Infill.name, hb]
  | wb2 a => cases j with
    | ei => by_cases ha : a = some 1 <;> simp [Infill.name, ha]
    | logEi => by_cases ha : a = some 1 <;> simp [Infill.name, ha]
    | wb2 b =>
      by_cases ha : a = some 1 <;> by_cases hb : b = some 1 <;> simp [Infill.name, ha, hb]
      exact fun h => hb h.symm

/-- **C151**. The names of the criteria in the file. -/
theorem C151_acquisition_name (i : Infill) :
    (i.name = "EI" ↔ i = .ei) ∧ (i.name = "LogEI" ↔ i = .logEi) ∧ (i.name = "WB2" ↔ i = .wb2 (some 1)) ∧
    (i.name = "WB2S" ↔ ∃ a, i = .wb2 a ∧ a ≠ some 1) := by
  cases i with
  | ei => simp [Infill.name]
  | logEi => simp [Infill.name]
  | wb2 a => by_cases ha : a = some 1 <;> simp [Infill.name, ha]

/-! ## Dimension -/

theorem continuousLimits_length (ts : List (XType ℚ)) : ∀ lim, MixInt.continuousLimits ts = .ok lim →
    lim.length = (ts.map MixInt.width).sum := by
  induction ts with
  | nil => intro lim h; cases h; rfl
  | cons t ts ih =>
    intro lim h
    cases t with
    | float l u =>
      simp only [MixInt.continuousLimits, bind_ok, Except.ok.injEq] at h
      obtain ⟨r, hr, rfl⟩ := h
      simp [ih r hr, MixInt.width]; omega
    | int l u =>
      simp only [MixInt.continuousLimits, bind_ok, Except.ok.injEq] at h
      obtain ⟨r, hr, rfl⟩ := h
      simp [ih r hr, MixInt.width]; omega
    | ord vs =>
      cases vs with
      | nil => cases h
      | cons v vs =>
        simp only [MixInt.continuousLimits, bind_ok, Except.ok.injEq] at h
        obtain ⟨r, hr, rfl⟩ := h
        simp [ih r hr, MixInt.width]; omega
    | «enum» v =>
      simp only [MixInt.continuousLimits, bind_ok, Except.ok.injEq] at h
      obtain ⟨r, hr, rfl⟩ := h
      simp [ih r hr, MixInt.width]

/-- **C151**. The dimension of the file is the number of variables exactly when no categorical variable has two values or
more: it is the dimension of the relaxed space, as are the bounds and the samples. -/
theorem C151_dimension_iff (lims : List (ℚ × ℚ)) (cfg : Cfg) (m : Meta) (info : Option (String × ℕ)) (s : St)
    (hr : cfg.recorder = true) (hl : MixInt.continuousLimits cfg.xtypes = .ok lims)
    (hpos : ∀ v, XType.enum v ∈ cfg.xtypes → 1 ≤ v) :
    ∃ f, fileOfRun lims cfg m info s = .ok (some f) ∧ f.lower.length = f.dimensionality ∧
      f.upper.length = f.dimensionality ∧
      (f.dimensionality = cfg.xtypes.length ↔ ∀ v, XType.enum v ∈ cfg.xtypes → v = 1) := by
  obtain ⟨f, hf, g1, g2, g3, g4, g5, g6, g7, g8, _⟩ := fileOfRun_eq lims cfg m info s hr
  refine ⟨f, hf, by rw [g6, g7, List.length_map], by rw [g6, g8, List.length_map], ?_⟩
  rw [g6, continuousLimits_length _ _ hl]
  have hw : ∀ t ∈ cfg.xtypes, 1 ≤ MixInt.width t := by
    intro t ht
    cases t with
    | «enum» v => exact hpos v ht
    | _ => exact le_rfl
  clear hl hpos
  generalize cfg.xtypes = ts at hw
  have key : ts.length ≤ (ts.map MixInt.width).sum ∧
      ((ts.map MixInt.width).sum = ts.length ↔ ∀ t ∈ ts, MixInt.width t = 1) := by
    induction ts with
    | nil => simp
    | cons t ts ih =>
      obtain ⟨i1, i2⟩ := ih fun u hu => hw u (List.mem_cons_of_mem _ hu)
      have := hw t List.mem_cons_self
      simp only [List.map_cons, List.sum_cons, List.length_cons, List.forall_mem_cons]
      refine ⟨by omega, ?_⟩
      rw [← i2]
      omega
  rw [key.2]
  constructor
  · intro h v hv; exact h _ hv
  · intro h t ht
    cases t with
    | «enum» v => exact h v ht
    | _ => rfl

example : MixInt.continuousLimits [XType.float (0 : ℚ) 10, .enum 3] = .ok [(0, 10), (0, 1), (0, 1), (0, 1)] := by
  decide +kernel

end Verif.Props
