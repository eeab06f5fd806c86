import Verif.Model.Options
import Mathlib.Tactic.NormNum
import Mathlib.Data.List.Perm.Basic

/-!
# C143: settings of models and of the optimizer
-/

set_option autoImplicit false

namespace Verif.Spec

open Verif Options Tuning

variable {M C X G R : Type}

/-! ### What a setting says -/

/-- The parameters are as the setting says. Bounds are not used by a fixed tuning. -/
def GpSays (p : GpParams M C) : GpSet M C → Prop
  | .mean v => p.mean = v
  | .corr v => p.corr = v
  | .kplsDim v => p.kpls = v
  | .thetaInit v => p.tuning.init = v
  | .thetaBounds v => p.tuning.bounds = none ∨ p.tuning.bounds = some v
  | .thetaTuning v => p.tuning = v
  | .nStart v => p.nStart = v
  | .maxEval v => p.maxEval = max 25 v
  | .nugget v => p.nugget = v

/-- The first setting concerns what the second one says. -/
def GpConcerns : GpSet M C → GpSet M C → Prop
  | .mean _, .mean _ => True
  | .corr _, .corr _ => True
  | .kplsDim _, .kplsDim _ => True
  | .thetaInit _, .thetaInit _ => True
  | .thetaInit _, .thetaTuning _ => True
  | .thetaBounds _, .thetaBounds _ => True
  | .thetaBounds _, .thetaTuning _ => True
  | .thetaTuning _, .thetaInit _ => True
  | .thetaTuning _, .thetaBounds _ => True
  | .thetaTuning _, .thetaTuning _ => True
  | .nStart _, .nStart _ => True
  | .maxEval _, .maxEval _ => True
  | .nugget _, .nugget _ => True
  | _, _ => False

/-- As `GpSays`, for sparse models. -/
def SgpSays (p : SgpParams C X) : SgpSet C X → Prop
  | .corr v => p.gp.corr = v
  | .thetaInit v => p.gp.tuning.init = v
  | .thetaBounds v => p.gp.tuning.bounds = none ∨ p.gp.tuning.bounds = some v
  | .thetaTuning v => p.gp.tuning = v
  | .kplsDim v => p.gp.kpls = v
  | .nStart v => p.gp.nStart = v
  | .maxEval v => p.gp.maxEval = max 25 v
  | .nugget v => p.gp.nugget = v
  | .sparseMethod v => p.method = v
  | .inducings v => p.z = .located v
  | .nInducings v => p.z = .randomized v
  | .noiseVariance v => p.noise = v
  | .seed v => p.seed = v

/-- As `GpConcerns`, for sparse models: inducing points are given by their places or by their number. -/
def SgpConcerns : SgpSet C X → SgpSet C X → Prop
  | .corr _, .corr _ => True
  | .kplsDim _, .kplsDim _ => True
  | .thetaInit _, .thetaInit _ => True
  | .thetaInit _, .thetaTuning _ => True
  | .thetaBounds _, .thetaBounds _ => True
  | .thetaBounds _, .thetaTuning _ => True
  | .thetaTuning _, .thetaInit _ => True
  | .thetaTuning _, .thetaBounds _ => True
  | .thetaTuning _, .thetaTuning _ => True
  | .nStart _, .nStart _ => True
  | .maxEval _, .maxEval _ => True
  | .nugget _, .nugget _ => True
  | .sparseMethod _, .sparseMethod _ => True
  | .inducings _, .inducings _ => True
  | .inducings _, .nInducings _ => True
  | .nInducings _, .inducings _ => True
  | .nInducings _, .nInducings _ => True
  | .noiseVariance _, .noiseVariance _ => True
  | .seed _, .seed _ => True
  | _, _ => False

/-- As `GpSays`, for mixtures. -/
def MoeSays (p : MoeParams G R) : MoeSet G R → Prop
  | .gpType v => p.gpType = v
  | .nClusters v => p.nClusters = v
  | .recombination v => p.recombination = v
  | .regressionSpec v => p.regression = v
  | .correlationSpec v => p.correlation = v
  | .kplsDim v => p.kplsDim = v
  | .thetaTunings v => p.tunings = v
  | .nStart v => p.nStart = v
  | .maxEval v => p.maxEval = v
  | .gmx v => p.gmx = some v
  | .withRng v => p.rng = v

/-- What a setting of a mixture concerns. -/
def moeTopic : MoeSet G R → String
  | .gpType _ => "gp_type"
  | .nClusters _ => "n_clusters"
  | .recombination _ => "recombination"
  | .regressionSpec _ => "regression_spec"
  | .correlationSpec _ => "correlation_spec"
  | .kplsDim _ => "kpls_dim"
  | .thetaTunings _ => "theta_tunings"
  | .nStart _ => "n_start"
  | .maxEval _ => "max_eval"
  | .gmx _ => "gmx"
  | .withRng _ => "rng"

/-- As `GpSays`, for the surrogates of the optimizer. -/
def GpCfgSays (p : PyGp.Options) : GpCfgSet → Prop
  | .regressionSpec v => p.regr = v
  | .correlationSpec v => p.corr = v
  | .kplsDim v => p.kplsDim = v
  | .kpls v => p.kplsDim = some v
  | .noKpls => p.kplsDim = none
  | .nClusters v => p.nClusters = v
  | .recombination v => p.recombination = v
  | .thetaTuning v => p.tuning = v
  | .nStart v => p.nStart = v
  | .maxEval v => p.maxEval = v

/-- What a setting of the surrogates concerns. -/
def gpCfgTopic : GpCfgSet → String
  | .regressionSpec _ => "regression_spec"
  | .correlationSpec _ => "correlation_spec"
  | .kplsDim _ | .kpls _ | .noKpls => "kpls_dim"
  | .nClusters _ => "n_clusters"
  | .recombination _ => "recombination"
  | .thetaTuning _ => "theta_tuning"
  | .nStart _ => "n_start"
  | .maxEval _ => "max_eval"

/-- Criterion of a strategy. -/
noncomputable def critOf : PyEgor.Infill → Criteria.Crit
  | .ei => .ei
  | .logEi => .logEi
  | .wb2 => .wb2 (some 1)
  | .wb2s => .wb2 none

/-- As `GpSays`, for the optimizer; the settings of surrogates are those of the whole `configure_gp`, see
`C143_surrogates`. -/
def EgorSays (c : PyEgor.EgorConfig) : EgorSet → Prop
  | .infillCriterion v => c.criterion = v
  | .maxIters v => c.maxIters = v
  | .nStart v => c.nStart = v
  | .nDoe v => c.nDoe = v
  | .nCstr v => c.nCstr = v
  | .cstrTol v => c.cstrTol = some v
  | .doe v => c.doe = some v
  | .defaultDoe => c.doe = none
  | .qeiStrategy v => c.qEi = v
  | .qOptmod v => c.qOptmod = v
  | .qPoints v => c.qPoints = v
  | .infillStrategy v => c.criterion = critOf v
  | .infillOptimizer v => c.optimizer = v
  | .configureGp l => ∀ l1 s l2, l = l1 ++ s :: l2 → (∀ t ∈ l2, gpCfgTopic t ≠ gpCfgTopic s) → GpCfgSays c.gp s
  | .target v => c.target = v
  | .outdir v => c.outdir = some v
  | .noOutdir => c.outdir = none
  | .warmStart v => c.warmStart = v
  | .hotStart v => c.hotStart = v
  | .seed v => c.seed = some v
  | .xtypes v => c.xtypes = v
  | .trego v => c.trego.activated = v
  | .coego .disabled => c.coego.activated = false
  | .coego (.enabled n) => c.coego = ⟨true, n⟩
  | .cstrInfill v => c.cstrInfill = v
  | .cstrStrategy v => c.cstrStrategy = v

/-- What a setting of the optimizer concerns. -/
def egorTopic : EgorSet → String
  | .infillCriterion _ | .infillStrategy _ => "criterion"
  | .maxIters _ => "max_iters"
  | .nStart _ => "n_start"
  | .nDoe _ => "n_doe"
  | .nCstr _ => "n_cstr"
  | .cstrTol _ => "cstr_tol"
  | .doe _ | .defaultDoe => "doe"
  | .qeiStrategy _ => "q_ei"
  | .qOptmod _ => "q_optmod"
  | .qPoints _ => "q_points"
  | .infillOptimizer _ => "optimizer"
  | .configureGp _ => "gp"
  | .target _ => "target"
  | .outdir _ | .noOutdir => "outdir"
  | .warmStart _ => "warm_start"
  | .hotStart _ => "hot_start"
  | .seed _ => "seed"
  | .xtypes _ => "xtypes"
  | .trego _ => "trego"
  | .coego _ => "coego"
  | .cstrInfill _ => "cstr_infill"
  | .cstrStrategy _ => "cstr_strategy"

/-- The components of theta which are tuned, of `dim`. -/
def tuned (dim : ℕ) : ThetaTuning → List ℕ
  | .fixed _ => []
  | .full _ _ => List.range dim
  | .part _ _ active => active

end Verif.Spec

namespace Verif.Props

open Verif Spec Options Tuning

variable {M C X G R : Type}

/-! ### General facts on sequences -/

theorem says_foldl {P S : Type} {apply : P → S → P} {Says : P → S → Prop} {Over : S → S → Prop}
    (hset : ∀ p s, Says (apply p s) s) (hkeep : ∀ p s t, Says p s → ¬ Over t s → Says (apply p t) s) (p : P)
    (l1 : List S) (s : S) (l2 : List S) (h : ∀ t ∈ l2, ¬ Over t s) : Says ((l1 ++ s :: l2).foldl apply p) s := by
  rw [List.foldl_append, List.foldl_cons]
  have : ∀ (l : List S) (q : P), Says q s → (∀ t ∈ l, ¬ Over t s) → Says (l.foldl apply q) s := by
    intro l
    induction l with
    | nil => intro q hq _; exact hq
    | cons t l ih =>
      intro q hq hl
      exact ih _ (hkeep _ _ _ hq (hl t (by simp))) fun u hu => hl u (List.mem_cons_of_mem _ hu)
  exact this l2 _ (hset _ _) h

theorem keep_foldl {P S : Type} {apply : P → S → P} {Says : P → S → Prop} {Over : S → S → Prop}
    (hkeep : ∀ p s t, Says p s → ¬ Over t s → Says (apply p t) s) (s : S) :
    ∀ (l : List S) (p : P), Says p s → (∀ t ∈ l, ¬ Over t s) → Says (l.foldl apply p) s
  | [], _, hp, _ => hp
  | t :: l, p, hp, hl =>
    keep_foldl hkeep s l _ (hkeep _ _ _ hp (hl t (by simp))) fun u hu => hl u (List.mem_cons_of_mem _ hu)

theorem perm_foldl {P S : Type} {apply : P → S → P} {Over : S → S → Prop}
    (hcomm : ∀ p s t, ¬ Over s t → ¬ Over t s → apply (apply p s) t = apply (apply p t) s) (p : P) {l l' : List S}
    (h : l.Perm l') (hl : l.Pairwise fun s t => ¬ Over s t ∧ ¬ Over t s) : l.foldl apply p = l'.foldl apply p := by
  refine h.foldl_eq' (fun x hx y hy z => ?_) p
  by_cases hxy : x = y
  · rw [hxy]
  · have hsym : Std.Symm fun s t : S => ¬ Over s t ∧ ¬ Over t s := ⟨fun _ _ h => h.symm⟩
    obtain ⟨h1, h2⟩ := hl.forall hx hy hxy
    exact hcomm z x y h1 h2

/-! ### Gaussian processes -/

theorem gp_set (p : GpParams M C) (s : GpSet M C) : GpSays (p.apply s) s := by
  cases s <;> try rfl
  · rename_i v
    cases p with | mk q a b c => obtain ⟨t, k, n, m⟩ := q; cases t <;> rfl
  · rename_i v
    cases p with | mk q a b c =>
      obtain ⟨t, k, n, m⟩ := q
      cases t
      · exact .inl rfl
      · exact .inr rfl
      · exact .inr rfl

theorem gp_keep (p : GpParams M C) (s t : GpSet M C) (h : GpSays p s) (hn : ¬ GpConcerns t s) : GpSays (p.apply t) s := by
  cases p with | mk q a b c =>
  obtain ⟨u, k, n, m⟩ := q
  cases t <;> cases s <;> first | exact absurd trivial hn | exact h | (cases u <;> exact h)

theorem gp_comm (p : GpParams M C) (s t : GpSet M C) (h1 : ¬ GpConcerns s t) (h2 : ¬ GpConcerns t s) :
    (p.apply s).apply t = (p.apply t).apply s := by
  cases p with | mk q a b c =>
  obtain ⟨u, k, n, m⟩ := q
  cases t <;> cases s <;> first | exact absurd trivial h1 | rfl | (cases u <;> rfl)

/-- C143. A setting of a Gaussian process which no later setting concerns is in force, whatever the others. -/
theorem C143_gp (p : GpParams M C) (l1 l2 : List (GpSet M C)) (s : GpSet M C) (h : ∀ t ∈ l2, ¬ GpConcerns t s) :
    GpSays (p.build (l1 ++ s :: l2)) s :=
  says_foldl gp_set gp_keep p l1 s l2 h

/-- C143. What no setting concerns keeps its default. -/
theorem C143_gp_default (p : GpParams M C) (l : List (GpSet M C)) (s : GpSet M C) (hp : GpSays p s)
    (h : ∀ t ∈ l, ¬ GpConcerns t s) : GpSays (p.build l) s :=
  keep_foldl gp_keep s l p hp h

/-- C143. Settings which do not concern each other can be given in any order. -/
theorem C143_gp_order (p : GpParams M C) {l l' : List (GpSet M C)} (h : l.Perm l')
    (hl : l.Pairwise fun s t => ¬ GpConcerns s t ∧ ¬ GpConcerns t s) : p.build l = p.build l' :=
  perm_foldl gp_comm p h hl

/-- C143, part. A partial tuning remains so exactly as long as neither the initial value nor the bounds are given
afterwards. -/
theorem C143_active_iff_partial (p : GpParams M C) (l1 l2 : List (GpSet M C)) (init : List ℝ) (bounds : List (ℝ × ℝ))
    (active : List ℕ) (h : ∀ t, GpSet.thetaTuning t ∉ l2) :
    (∃ i b a, (p.build (l1 ++ .thetaTuning (.part init bounds active) :: l2)).tuning = .part i b a) ↔
      (∀ v, GpSet.thetaInit v ∉ l2) ∧ ∀ v, GpSet.thetaBounds v ∉ l2 := by
  have hfull : ∀ (l : List (GpSet M C)) (q : GpParams M C), (∀ t, GpSet.thetaTuning t ∉ l) →
      (∃ i b, q.tuning = .full i b) → ∃ i b, (l.foldl GpParams.apply q).tuning = .full i b := by
    intro l
    induction l with
    | nil => intro q _ hq; exact hq
    | cons t l ih =>
      intro q hl hq
      refine ih _ (fun t ht => hl t (List.mem_cons_of_mem _ ht)) ?_
      obtain ⟨i, b, hq⟩ := hq
      cases t <;> first | exact ⟨i, b, hq⟩ | (simp only [GpParams.apply, Params.thetaInit, Params.thetaBounds, hq]; exact ⟨_, _, rfl⟩) | skip
      exact absurd List.mem_cons_self (hl _)
  have key : ∀ (l : List (GpSet M C)) (q : GpParams M C), (∀ t, GpSet.thetaTuning t ∉ l) →
      (∃ i b a, q.tuning = .part i b a) →
      ((∃ i b a, (l.foldl GpParams.apply q).tuning = .part i b a) ↔
        (∀ v, GpSet.thetaInit v ∉ l) ∧ ∀ v, GpSet.thetaBounds v ∉ l) := by
    intro l
    induction l with
    | nil => intro q _ hq; simpa using hq
    | cons t l ih =>
      intro q hl hq
      have hl' : ∀ t, GpSet.thetaTuning t ∉ l := fun t ht => hl t (List.mem_cons_of_mem _ ht)
      obtain ⟨i, b, a, hq⟩ := hq
      cases t with
      | thetaInit v =>
        obtain ⟨i', b', h'⟩ := hfull l (q.apply (.thetaInit v)) hl'
          (by simp only [GpParams.apply, Params.thetaInit, hq]; exact ⟨_, _, rfl⟩)
        simp only [List.foldl_cons, h']
        exact iff_of_false (by simp) fun c => c.1 v List.mem_cons_self
      | thetaBounds v =>
        obtain ⟨i', b', h'⟩ := hfull l (q.apply (.thetaBounds v)) hl'
          (by simp only [GpParams.apply, Params.thetaBounds, hq]; exact ⟨_, _, rfl⟩)
        simp only [List.foldl_cons, h']
        exact iff_of_false (by simp) fun c => c.2 v List.mem_cons_self
      | thetaTuning v => exact absurd List.mem_cons_self (hl v)
      | mean v => simpa using ih (q.apply (.mean v)) hl' ⟨i, b, a, hq⟩
      | corr v => simpa using ih (q.apply (.corr v)) hl' ⟨i, b, a, hq⟩
      | kplsDim v => simpa using ih (q.apply (.kplsDim v)) hl' ⟨i, b, a, hq⟩
      | nStart v => simpa using ih (q.apply (.nStart v)) hl' ⟨i, b, a, hq⟩
      | maxEval v => simpa using ih (q.apply (.maxEval v)) hl' ⟨i, b, a, hq⟩
      | nugget v => simpa using ih (q.apply (.nugget v)) hl' ⟨i, b, a, hq⟩
  rw [GpParams.build, List.foldl_append, List.foldl_cons]
  exact key l2 _ h ⟨_, _, _, rfl⟩

/-- C143, refuted. Bounds given to a partial tuning make all components tuned: with the second setting, components which
were to be kept are tuned, for every list of active components but the full one. -/
theorem C143_refuted_active (p : GpParams M C) (dim : ℕ) (init : List ℝ) (bounds : List (ℝ × ℝ)) (active : List ℕ)
    (v : List (ℝ × ℝ)) (w : List ℝ) :
    tuned dim (p.build [.thetaTuning (.part init bounds active)]).tuning = active ∧
      tuned dim (p.build [.thetaTuning (.part init bounds active), .thetaBounds v]).tuning = List.range dim ∧
      tuned dim (p.build [.thetaTuning (.part init bounds active), .thetaInit w]).tuning = List.range dim :=
  ⟨rfl, rfl, rfl⟩

/-- C143, refuted. Numbers of evaluations below 25 are documented to give the default 1000. -/
theorem C143_refuted_max_eval (p : GpParams M C) (v : ℕ) (hv : v < 25) : (p.build [.maxEval v]).maxEval = 25 := by
  show max minEval v = 25
  unfold minEval
  omega

/-! ### Sparse Gaussian processes -/

theorem sgp_set (p : SgpParams C X) (s : SgpSet C X) : SgpSays (p.apply s) s := by
  cases s with
  | thetaInit v => exact gp_set p.gp (.thetaInit v)
  | thetaBounds v => exact gp_set p.gp (.thetaBounds v)
  | _ => rfl

theorem sgp_keep (p : SgpParams C X) (s t : SgpSet C X) (h : SgpSays p s) (hn : ¬ SgpConcerns t s) :
    SgpSays (p.apply t) s := by
  obtain ⟨⟨⟨u, k, n, m⟩, a, b, c⟩, e, f, g, i⟩ := p
  cases t <;> cases s <;> first | exact absurd trivial hn | exact h | (cases u <;> exact h)

theorem sgp_comm (p : SgpParams C X) (s t : SgpSet C X) (h1 : ¬ SgpConcerns s t) (h2 : ¬ SgpConcerns t s) :
    (p.apply s).apply t = (p.apply t).apply s := by
  obtain ⟨⟨⟨u, k, n, m⟩, a, b, c⟩, e, f, g, i⟩ := p
  cases t <;> cases s <;> first | exact absurd trivial h1 | rfl | (cases u <;> rfl)

/-- C143. As `C143_gp`, `C143_gp_default` and `C143_gp_order`, for sparse models. -/
theorem C143_sgp (p : SgpParams C X) :
    (∀ l1 s l2, (∀ t ∈ l2, ¬ SgpConcerns t s) → SgpSays (p.build (l1 ++ s :: l2)) s) ∧
    (∀ l s, SgpSays p s → (∀ t ∈ l, ¬ SgpConcerns t s) → SgpSays (p.build l) s) ∧
    ∀ l l', l.Perm l' → (l.Pairwise fun s t => ¬ SgpConcerns s t ∧ ¬ SgpConcerns t s) → p.build l = p.build l' :=
  ⟨fun l1 s l2 h => says_foldl sgp_set sgp_keep p l1 s l2 h, fun l s hp h => keep_foldl sgp_keep s l p hp h,
    fun _ _ h hl => perm_foldl sgp_comm p h hl⟩

/-- Defaults of a sparse model: hyperparameters started from 0.1 and tuned between 0.01 and 100 (10 for other models), noise
variance started from 0.01 and tuned, FITC approximation, no dimension reduction, no seed, 10 starts. -/
noncomputable def sgpDefaults : List (SgpSet C X) :=
  [.thetaTuning (.full [0.1] [(0.01, 100)]), .thetaInit [0.1], .thetaBounds [(0.01, 100)],
    .noiseVariance (.optimized 0.01 (100 * 2 ^ (-52 : ℤ)) (10 ^ 10)), .sparseMethod .fitc, .kplsDim none, .seed none, .nStart 10,
    .nugget (100 * 2 ^ (-52 : ℤ))]

/-- Defaults of a Gaussian process. -/
noncomputable def gpDefaults : List (GpSet M C) :=
  [.thetaTuning (.full [0.1] [(0.01, 10)]), .thetaInit [0.1], .thetaBounds [(0.01, 10)], .kplsDim none, .nStart 10,
    .nugget (100 * 2 ^ (-52 : ℤ))]

/-- C143. What no setting concerns has its default. -/
theorem C143_defaults (mean : M) (corr : C) (z : Sparse.Inducings X) :
    (∀ l, ∀ s ∈ gpDefaults, (∀ t ∈ l, ¬ GpConcerns t s) → GpSays ((GpParams.new mean corr).build l) s) ∧
    ∀ l, ∀ s ∈ sgpDefaults, (∀ t ∈ l, ¬ SgpConcerns t s) → SgpSays ((SgpParams.new corr z).build l) s := by
  constructor
  · intro l s hs h
    refine keep_foldl gp_keep s l _ ?_ h
    simp only [gpDefaults, List.mem_cons, List.not_mem_nil, or_false] at hs
    rcases hs with rfl | rfl | rfl | rfl | rfl | rfl <;>
      norm_num [GpSays, GpParams.new, Params.dflt, ThetaTuning.dflt, ThetaTuning.init, ThetaTuning.bounds, defaultInit,
        defaultBounds]
  · intro l s hs h
    refine (C143_sgp _).2.1 l s ?_ h
    simp only [sgpDefaults, List.mem_cons, List.not_mem_nil, or_false] at hs
    rcases hs with rfl | rfl | rfl | rfl | rfl | rfl | rfl | rfl | rfl <;>
      norm_num [SgpSays, SgpParams.new, GpParams.new, Params.dflt, ThetaTuning.init, ThetaTuning.bounds, defaultInit,
        defaultBounds]

/-! ### Mixtures -/

theorem pairwise_topic {S : Type} {topic : S → String} {l : List S} (h : (l.map topic).Nodup) :
    l.Pairwise fun s t => ¬ topic s = topic t ∧ ¬ topic t = topic s := by
  rw [List.Nodup, List.pairwise_map] at h
  exact h.imp fun h => ⟨h, Ne.symm h⟩

theorem moe_set (p : MoeParams G R) (s : MoeSet G R) : MoeSays (p.apply s) s := by cases s <;> rfl

theorem moe_keep (p : MoeParams G R) (s t : MoeSet G R) (h : MoeSays p s) (hn : ¬ moeTopic t = moeTopic s) :
    MoeSays (p.apply t) s := by
  cases t <;> cases s <;> first | exact absurd rfl hn | exact h

theorem moe_comm (p : MoeParams G R) (s t : MoeSet G R) (h1 : ¬ moeTopic s = moeTopic t) (_ : ¬ moeTopic t = moeTopic s) :
    (p.apply s).apply t = (p.apply t).apply s := by
  cases t <;> cases s <;> first | exact absurd rfl h1 | rfl

/-- C143. As `C143_gp`, `C143_gp_default` and `C143_gp_order`, for mixtures. -/
theorem C143_moe (p : MoeParams G R) :
    (∀ l1 s l2, (∀ t ∈ l2, moeTopic t ≠ moeTopic s) → MoeSays (p.build (l1 ++ s :: l2)) s) ∧
    (∀ l s, MoeSays p s → (∀ t ∈ l, moeTopic t ≠ moeTopic s) → MoeSays (p.build l) s) ∧
    ∀ l l', l.Perm l' → (l.map moeTopic).Nodup → p.build l = p.build l' :=
  ⟨fun l1 s l2 h => says_foldl moe_set moe_keep p l1 s l2 h, fun l s hp h => keep_foldl moe_keep s l p hp h,
    fun _ _ h hl => perm_foldl moe_comm p h (pairwise_topic hl)⟩

/-! ### Optimizer -/

theorem gpCfg_set (p : PyGp.Options) (s : GpCfgSet) : GpCfgSays (gpApply p s) s := by cases s <;> rfl

theorem gpCfg_keep (p : PyGp.Options) (s t : GpCfgSet) (h : GpCfgSays p s) (hn : ¬ gpCfgTopic t = gpCfgTopic s) :
    GpCfgSays (gpApply p t) s := by
  cases t <;> cases s <;> first | exact absurd rfl hn | exact h

theorem gpCfg_comm (p : PyGp.Options) (s t : GpCfgSet) (h1 : ¬ gpCfgTopic s = gpCfgTopic t)
    (_ : ¬ gpCfgTopic t = gpCfgTopic s) : gpApply (gpApply p s) t = gpApply (gpApply p t) s := by
  cases t <;> cases s <;> first | exact absurd rfl h1 | rfl

theorem egor_set (c : PyEgor.EgorConfig) (s : EgorSet) : EgorSays (egorApply c s) s := by
  cases s with
  | configureGp l =>
    intro l1 s l2 hl h
    rw [hl]
    exact says_foldl (apply := gpApply) (Over := fun s t => gpCfgTopic s = gpCfgTopic t) gpCfg_set gpCfg_keep c.gp l1 s l2 h
  | infillStrategy v => cases v <;> rfl
  | coego v => cases v <;> rfl
  | _ => rfl

theorem egor_keep (c : PyEgor.EgorConfig) (s t : EgorSet) (h : EgorSays c s) (hn : ¬ egorTopic t = egorTopic s) :
    EgorSays (egorApply c t) s := by
  cases t with
  | coego v =>
    cases v <;> (cases s <;> first | exact absurd rfl hn | exact h)
  | _ => cases s with
    | coego v => cases v <;> first | exact absurd rfl hn | exact h
    | _ => first | exact absurd rfl hn | exact h

theorem egor_comm (c : PyEgor.EgorConfig) (s t : EgorSet) (h1 : ¬ egorTopic s = egorTopic t)
    (_ : ¬ egorTopic t = egorTopic s) : egorApply (egorApply c s) t = egorApply (egorApply c t) s := by
  cases t with
  | coego v =>
    cases v <;> (cases s <;> first | exact absurd rfl h1 | rfl)
  | _ => cases s with
    | coego v => cases v <;> first | exact absurd rfl h1 | rfl
    | _ => first | exact absurd rfl h1 | rfl

/-- C143. As `C143_gp`, `C143_gp_default` and `C143_gp_order`, for the optimizer. -/
theorem C143_egor (c : PyEgor.EgorConfig) :
    (∀ l1 s l2, (∀ t ∈ l2, egorTopic t ≠ egorTopic s) → EgorSays (egorBuild c (l1 ++ s :: l2)) s) ∧
    (∀ l s, EgorSays c s → (∀ t ∈ l, egorTopic t ≠ egorTopic s) → EgorSays (egorBuild c l) s) ∧
    ∀ l l', l.Perm l' → (l.map egorTopic).Nodup → egorBuild c l = egorBuild c l' :=
  ⟨fun l1 s l2 h => says_foldl egor_set egor_keep c l1 s l2 h, fun l s hp h => keep_foldl egor_keep s l c hp h,
    fun _ _ h hl => perm_foldl egor_comm c h (pairwise_topic hl)⟩

/-- C143. Settings of the surrogates can be given in any order, and in several calls of `configure_gp`. -/
theorem C143_surrogates (c : PyEgor.EgorConfig) (l l' : List GpCfgSet) :
    (l.Perm l' → (l.map gpCfgTopic).Nodup → egorApply c (.configureGp l) = egorApply c (.configureGp l')) ∧
      egorBuild c [.configureGp l, .configureGp l'] = egorBuild c [.configureGp (l ++ l')] := by
  constructor
  · intro h hl
    simp only [egorApply]
    rw [perm_foldl gpCfg_comm c.gp h (pairwise_topic hl)]
  · simp [egorBuild, egorApply, PyEgor.EgorConfig.setGp, List.foldl_append]

/-- Meets the hypotheses of `C143_egor`. -/
example : ((([.maxIters 5, .seed 3, .configureGp [.kpls 2], .trego true] : List EgorSet).map egorTopic).Nodup) ∧
    egorBuild .dflt [.maxIters 5, .seed 3, .trego true] = egorBuild .dflt [.trego true, .maxIters 5, .seed 3] := by
  refine ⟨by decide, ?_⟩
  refine (C143_egor _).2.2 _ _ ?_ (by decide)
  exact (List.perm_append_comm (l₁ := [_, _]) (l₂ := [_]))

/-- Meets the hypotheses of `C143_gp_order`. -/
example (p : GpParams M C) (v : List ℝ) (b : List (ℝ × ℝ)) :
    p.build [.thetaInit v, .thetaBounds b] = p.build [.thetaBounds b, .thetaInit v] :=
  C143_gp_order p (List.Perm.swap _ _ _) (by simp [GpConcerns])

end Verif.Props
