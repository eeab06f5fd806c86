import Verif.Model.PyEgor
import Verif.Props.PyGp
import Verif.Props.Config
import Verif.Spec.F64

/-!
# Properties of the options of the Python optimizer (C135)
-/

set_option autoImplicit false

namespace Verif.Props

open Verif PyEgor Spec

/-- The criterion named by an infill strategy. -/
def NamesCriterion : Infill → Criteria.Crit → Prop
  | .ei, c => c = .ei
  | .logEi, c => c = .logEi
  | .wb2, c => c = .wb2 (some 1)
  | .wb2s, c => c = .wb2 none

/-- Options `p` and arguments of `minimize` as documented, in the configuration of a run. `doe` is the initial design. -/
structure OptionsReach (p : Py) (doe : Option (Mat Flt)) (xtypes : List (MixInt.XType ℝ)) (nFcstr maxIters : ℕ) (c : EgorConfig) :
    Prop where
  maxIters : c.maxIters = maxIters
  space : c.xtypes = xtypes
  gp : PyGp.egorOptions p.gp = .ok c.gp
  nCstr : c.nCstr = p.nCstr
  tol : ∀ t, p.cstrTol = some t → c.cstrTol = some t
  tolDefault : p.cstrTol = none → c.cstrTol = some (List.replicate (p.nCstr + nFcstr) (.fin (1 / 10000)))
  nStart : c.nStart = p.nStart
  nDoe : c.nDoe = p.nDoe
  doe : c.doe = doe
  criterion : NamesCriterion p.infill c.criterion
  cstrInfill : c.cstrInfill = p.cstrInfill
  cstrStrategy : c.cstrStrategy = p.cstrStrategy
  qPoints : c.qPoints = p.qPoints
  qInfill : c.qEi = p.qInfill
  optimizer : c.optimizer = p.optimizer
  trego : c.trego.activated = p.trego
  coegoOff : p.coegoNCoop = 0 → c.coego.activated = false
  coego : 0 < p.coegoNCoop → c.coego = ⟨true, p.coegoNCoop⟩
  qOptmod : c.qOptmod = p.qOptmod
  target : c.target = p.target
  outdir : c.outdir = p.outdir
  warmStart : c.warmStart = p.warmStart
  noHotStart : p.hotStart = none → c.hotStart = .disabled
  hotStart : p.hotStart = some 0 → c.hotStart = .enabled
  extended : ∀ n, p.hotStart = some (n + 1) → c.hotStart = .extended (n + 1)
  seed : c.seed = p.seed

/-- All the fields of the configuration, explicitly. -/
noncomputable def explicit (p : Py) (gp : PyGp.Options) (xtypes : List (MixInt.XType ℝ)) (nFcstr maxIters : ℕ)
    (doe : Option (Mat Flt)) : EgorConfig where
  maxIters := maxIters
  nStart := p.nStart
  nDoe := p.nDoe
  nCstr := p.nCstr
  cstrTol := some (p.tol nFcstr)
  doe := doe
  qEi := p.qInfill
  qOptmod := p.qOptmod
  qPoints := p.qPoints
  gp := gp
  criterion := match p.infill with
    | .ei => .ei
    | .logEi => .logEi
    | .wb2 => .wb2 (some 1)
    | .wb2s => .wb2 none
  optimizer := p.optimizer
  target := p.target
  outdir := p.outdir
  warmStart := p.warmStart
  hotStart := .ofOption p.hotStart
  xtypes := xtypes
  seed := p.seed
  trego := ⟨p.trego, 4, (1 / 1000000, 1), 9 / 10, 10 / 9, 1 / 10⟩
  coego := if p.coegoNCoop = 0 then ⟨false, 5⟩ else ⟨true, p.coegoNCoop⟩
  cstrInfill := p.cstrInfill
  cstrStrategy := p.cstrStrategy

theorem applyConfig_eq (p : Py) (xtypes : List (MixInt.XType ℝ)) (nFcstr maxIters : ℕ) (doe : Option (Mat Flt)) :
    (p.applyConfig .dflt (some maxIters) nFcstr doe >>= fun c => .ok (c.setXtypes xtypes)) =
      PyGp.egorOptions p.gp >>= fun gp => .ok (explicit p gp xtypes nFcstr maxIters doe) := by
  unfold Py.applyConfig
  cases PyGp.egorOptions p.gp with
  | error e => rfl
  | ok gp =>
    obtain ⟨pg, nc, tol, ns, nd, pd, inf, ci, cs, q, qi, op, tr, co, qm, ta, od, ws, hs, sd⟩ := p
    by_cases hc : co = 0 <;> cases doe <;> cases od <;> cases sd <;>
      simp [bind, Except.bind, EgorConfig.dflt, EgorConfig.setNCstr, EgorConfig.setMaxIters, EgorConfig.setNStart,
        EgorConfig.setNDoe, EgorConfig.setCstrTol, EgorConfig.setGp, EgorConfig.setInfill, EgorConfig.setCstrInfill,
        EgorConfig.setCstrStrategy, EgorConfig.setQPoints, EgorConfig.setQei, EgorConfig.setOptimizer, EgorConfig.setTrego,
        EgorConfig.setCoego, EgorConfig.setQOptmod, EgorConfig.setTarget, EgorConfig.setWarmStart, EgorConfig.setHotStart,
        EgorConfig.setDoe, EgorConfig.setOutdir, EgorConfig.setSeed, EgorConfig.setXtypes, explicit, hc] <;>
      cases inf <;> rfl

theorem expectValid_ok {c c' : EgorConfig} (h : expectValid c = .ok c') : c' = c := by
  unfold expectValid EgorConfig.check at h
  cases hk : Config.check ⟨c.nCstr, c.cstrTol, c.coego.activated, c.gp.kplsDim⟩ with
  | error e => simp [hk, Except.map] at h
  | ok v => simp [hk, Except.map] at h; exact h.symm

theorem minimize_eq (p : Py) (xtypes : List (MixInt.XType ℝ)) (nFcstr maxIters : ℕ) :
    p.minimize xtypes nFcstr maxIters =
      PyGp.egorOptions p.gp >>= fun gp => expectValid (explicit p gp xtypes nFcstr maxIters p.doe) := by
  have h := applyConfig_eq p xtypes nFcstr maxIters p.doe
  unfold Py.minimize
  cases ha : p.applyConfig .dflt (some maxIters) nFcstr p.doe <;> cases hg : PyGp.egorOptions p.gp <;>
    simp_all [bind, Except.bind]

theorem reach_explicit {p : Py} {gp : PyGp.Options} (h : PyGp.egorOptions p.gp = .ok gp) (xtypes : List (MixInt.XType ℝ))
    (nFcstr maxIters : ℕ) (doe : Option (Mat Flt)) :
    OptionsReach p doe xtypes nFcstr maxIters (explicit p gp xtypes nFcstr maxIters doe) where
  maxIters := rfl
  space := rfl
  gp := h
  nCstr := rfl
  tol t ht := by simp [explicit, Py.tol, ht]
  tolDefault ht := by simp [explicit, Py.tol, ht, Config.defaultTol]
  nStart := rfl
  nDoe := rfl
  doe := rfl
  criterion := by cases hi : p.infill <;> simp [explicit, hi, NamesCriterion]
  cstrInfill := rfl
  cstrStrategy := rfl
  qPoints := rfl
  qInfill := rfl
  optimizer := rfl
  trego := rfl
  coegoOff h := by simp [explicit, h]
  coego h := by simp [explicit, show p.coegoNCoop ≠ 0 by omega]
  qOptmod := rfl
  target := rfl
  outdir := rfl
  warmStart := rfl
  noHotStart h := by simp [explicit, h, Persist.Mode.ofOption]
  hotStart h := by simp [explicit, h, Persist.Mode.ofOption]
  extended n h := by simp [explicit, h, Persist.Mode.ofOption]
  seed := rfl

/-- **C135**, part. Each option of the Python optimizer, and each argument of `minimize`, has in the run the documented value. -/
theorem C135_options_reach (p : Py) (xtypes : List (MixInt.XType ℝ)) (nFcstr maxIters : ℕ) (c : EgorConfig)
    (h : p.minimize xtypes nFcstr maxIters = .ok c) : OptionsReach p p.doe xtypes nFcstr maxIters c := by
  rw [minimize_eq] at h
  cases hg : PyGp.egorOptions p.gp with
  | error e => simp [hg, bind, Except.bind] at h
  | ok gp =>
    have := expectValid_ok (by simpa [hg, bind, Except.bind] using h)
    subst this
    exact reach_explicit hg _ _ _ _

/-- **C135**, part. The options are accepted if and only if those of Gaussian processes are, tolerances are as many as the
constraints computed with the objective, if any, and CoEGO is not used with a reduction of the dimension. -/
theorem C135_accepted_iff (p : Py) (xtypes : List (MixInt.XType ℝ)) (nFcstr maxIters : ℕ) :
    (∃ c, p.minimize xtypes nFcstr maxIters = .ok c) ↔
      (∃ gp, PyGp.egorOptions p.gp = .ok gp) ∧
      (p.nCstr = 0 ∨ (∃ t, p.cstrTol = some t ∧ t.length = p.nCstr) ∨ (p.cstrTol = none ∧ nFcstr = 0)) ∧
      (p.coegoNCoop = 0 ∨ p.gp.kplsDim = none) := by
  rw [minimize_eq]
  cases hg : PyGp.egorOptions p.gp with
  | error e => simp [bind, Except.bind]
  | ok gp =>
    have hk : gp.kplsDim = p.gp.kplsDim := by
      simp only [PyGp.egorOptions, bind_ok, Except.ok.injEq] at hg
      obtain ⟨_, _, _, _, _, _, rfl⟩ := hg
      rfl
    have hco : (explicit p gp xtypes nFcstr maxIters p.doe).coego.activated = true ↔ p.coegoNCoop ≠ 0 := by
      by_cases h0 : p.coegoNCoop = 0 <;> simp [explicit, h0]
    have htol : (explicit p gp xtypes nFcstr maxIters p.doe).cstrTol = some (p.tol nFcstr) := rfl
    have hn : (explicit p gp xtypes nFcstr maxIters p.doe).nCstr = p.nCstr := rfl
    have hkk : (explicit p gp xtypes nFcstr maxIters p.doe).gp.kplsDim = p.gp.kplsDim := hk
    have hlen : (p.tol nFcstr).length = p.nCstr ↔
        (∃ t, p.cstrTol = some t ∧ t.length = p.nCstr) ∨ (p.cstrTol = none ∧ nFcstr = 0) := by
      cases ht : p.cstrTol <;> simp [Py.tol, ht]
    simp only [bind, Except.bind, expectValid, EgorConfig.check, Config.check, Config.badLength, htol, hn, hkk]
    rw [← hlen]
    generalize (explicit p gp xtypes nFcstr maxIters p.doe).coego.activated = b at hco ⊢
    have hb : b = decide (p.coegoNCoop ≠ 0) := by
      cases b <;> simp_all
    subst hb
    by_cases h1 : p.nCstr = 0 <;> by_cases h2 : (p.tol nFcstr).length = p.nCstr <;> by_cases h3 : p.coegoNCoop = 0 <;>
      cases h4 : p.gp.kplsDim <;> simp [h1, h2, h3, Except.map, Nat.pos_iff_ne_zero]

/-! ### No option is ignored -/

/-- Options of Gaussian processes with the same meaning: they are equal, except that negative numbers of starts are the same as
zero, that giving the default initial value or bounds is the same as giving none, and that bounds are read in the first two
elements of each list. -/
structure SameGp (c c' : PyGp.GpConfig) : Prop where
  regr : c.regrSpec = c'.regrSpec
  corr : c.corrSpec = c'.corrSpec
  kpls : c.kplsDim = c'.kplsDim
  clusters : c.nClusters = c'.nClusters
  smooth : c.smooth = c'.smooth
  init : c.thetaInit.getD [1 / 10] = c'.thetaInit.getD [1 / 10]
  bounds : (c.thetaBounds.getD [[1 / 100, 10]]).map (List.take 2) = (c'.thetaBounds.getD [[1 / 100, 10]]).map (List.take 2)
  starts : c.nStart = c'.nStart ∨ (c.nStart ≤ 0 ∧ c'.nStart ≤ 0)
  maxEval : c.maxEval = c'.maxEval

/-- Options of the optimizer with the same meaning: they are equal, except those of Gaussian processes as above, and that giving
the default tolerances is the same as giving none. -/
structure SameOptions (nFcstr : ℕ) (p p' : Py) : Prop where
  gp : SameGp p.gp p'.gp
  tol : p.cstrTol.getD (List.replicate (p.nCstr + nFcstr) (.fin (1 / 10000))) =
    p'.cstrTol.getD (List.replicate (p'.nCstr + nFcstr) (.fin (1 / 10000)))
  others : { p with gp := p'.gp, cstrTol := p'.cstrTol } = p'

theorem regrFromBits_inj {a b : ℕ} {s : Moe.RegressionSpec} (ha : Config.regrFromBits a = some s)
    (hb : Config.regrFromBits b = some s) : a = b := by
  unfold Config.regrFromBits at ha hb
  split at ha <;> simp at ha
  split at hb <;> simp at hb
  have h1 : a < 8 := by omega
  have h2 : b < 8 := by omega
  subst ha
  revert hb
  interval_cases a <;> interval_cases b <;> decide

theorem corrFromBits_inj {a b : ℕ} {s : Moe.CorrelationSpec} (ha : Config.corrFromBits a = some s)
    (hb : Config.corrFromBits b = some s) : a = b := by
  unfold Config.corrFromBits at ha hb
  split at ha <;> simp at ha
  split at hb <;> simp at hb
  have h1 : a < 16 := by omega
  have h2 : b < 16 := by omega
  subst ha
  revert hb
  interval_cases a <;> interval_cases b <;> decide

theorem boundPair_take {l : List (List ℝ)} {ps : List (ℝ × ℝ)} (h : l.mapM PyGp.boundPair = .ok ps) :
    l.map (List.take 2) = ps.map fun q => [q.1, q.2] := by
  induction l generalizing ps with
  | nil => simp [pure, Except.pure] at h; subst h; rfl
  | cons a l ih =>
    rw [List.mapM_cons] at h
    cases ha : PyGp.boundPair a with
    | error e => simp [ha, bind, Except.bind] at h
    | ok q =>
      cases hl : l.mapM PyGp.boundPair with
      | error e => simp [ha, hl, bind, Except.bind] at h
      | ok qs =>
        simp [ha, hl, bind, Except.bind, pure, Except.pure] at h
        subst h
        rw [List.map_cons, List.map_cons, ih hl]
        match a, ha with
        | u :: v :: r, ha => simp [PyGp.boundPair] at ha; subst ha; rfl

theorem pairs_inj {ps qs : List (ℝ × ℝ)} (h : (ps.map fun q => [q.1, q.2]) = qs.map fun q => [q.1, q.2]) : ps = qs :=
  List.map_injective_iff.2 (fun a b hab => by simp at hab; exact Prod.ext hab.1 hab.2) h

theorem tuning_explicit {c : PyGp.GpConfig} {t : Tuning.ThetaTuning} (h : PyGp.tuning c = .ok t) :
    ∃ ps, t = .full (c.thetaInit.getD [1 / 10]) ps ∧
      (c.thetaBounds.getD [[1 / 100, 10]]).map (List.take 2) = ps.map fun q => [q.1, q.2] := by
  have hi : (PyGp.tuningInit c).init = c.thetaInit.getD [1 / 10] := by
    unfold PyGp.tuningInit
    cases c.thetaInit <;> rfl
  unfold PyGp.tuning at h
  cases hb : c.thetaBounds with
  | none =>
    simp only [hb, Except.ok.injEq] at h
    refine ⟨[Tuning.defaultBounds], ?_, by simp [Tuning.defaultBounds]⟩
    rw [← h]
    unfold PyGp.tuningInit
    cases c.thetaInit <;> rfl
  | some bs =>
    simp only [hb] at h
    cases hm : bs.mapM PyGp.boundPair with
    | error e => simp [hm, bind, Except.bind] at h
    | ok ps =>
      simp only [hm, bind, Except.bind, Except.ok.injEq] at h
      exact ⟨ps, by rw [← h, hi], by simpa using boundPair_take hm⟩

theorem clusters_inj {m n : ℤ} (h : PyGp.clusters m = PyGp.clusters n) : m = n := by
  unfold PyGp.clusters at h
  split_ifs at h <;> simp at h <;> omega

theorem egorOptions_same {c c' : PyGp.GpConfig} {o o' : PyGp.Options} (h : PyGp.egorOptions c = .ok o)
    (h' : PyGp.egorOptions c' = .ok o') : o = o' ↔ SameGp c c' := by
  simp only [PyGp.egorOptions, bind_ok, Except.ok.injEq] at h h'
  obtain ⟨r, hr, k, hk, t, ht, rfl⟩ := h
  obtain ⟨r', hr', k', hk', t', ht', rfl⟩ := h'
  obtain ⟨ps, rfl, hps⟩ := tuning_explicit ht
  obtain ⟨ps', rfl, hps'⟩ := tuning_explicit ht'
  have hun : ∀ {α : Type} {o : Option α} {v : α}, PyGp.unwrap o = .ok v → o = some v := by
    intro α o v h
    cases o <;> simp [PyGp.unwrap] at h
    rw [h]
  have hr := hun hr
  have hr' := hun hr'
  have hk := hun hk
  have hk' := hun hk'
  constructor
  · intro h
    simp only [PyGp.Options.mk.injEq, Tuning.ThetaTuning.full.injEq] at h
    obtain ⟨h1, h2, h3, h4, h5, ⟨h6, h7⟩, h8, h9⟩ := h
    subst h1 h2 h7
    refine ⟨regrFromBits_inj hr hr', corrFromBits_inj hk hk', h3, clusters_inj h4, ?_, h6, by rw [hps, hps'], by omega, h9⟩
    cases hs : c.smooth <;> cases hs' : c'.smooth <;> simp_all
  · intro h
    have h1 : r = r' := by rw [h.regr, hr'] at hr; exact (Option.some.inj hr).symm
    have h2 : k = k' := by rw [h.corr, hk'] at hk; exact (Option.some.inj hk).symm
    have h3 : ps = ps' := pairs_inj (by rw [← hps, ← hps', h.bounds])
    have h4 : (max c.nStart 0).toNat = (max c'.nStart 0).toNat := by rcases h.starts with h | h <;> omega
    rw [h1, h2, h3, h4, h.kpls, h.clusters, h.smooth, h.init, h.maxEval]

/-- **C135**, part. No option is ignored: two optimizers have the same configuration in the same conditions if and only if they
have the same options. -/
theorem C135_no_option_ignored (p p' : Py) (xtypes xtypes' : List (MixInt.XType ℝ)) (nFcstr m m' : ℕ) (c c' : EgorConfig)
    (h : p.minimize xtypes nFcstr m = .ok c) (h' : p'.minimize xtypes' nFcstr m' = .ok c') :
    c = c' ↔ SameOptions nFcstr p p' ∧ xtypes = xtypes' ∧ m = m' := by
  rw [minimize_eq] at h h'
  cases hg : PyGp.egorOptions p.gp with
  | error e => simp [hg, bind, Except.bind] at h
  | ok gp =>
    cases hg' : PyGp.egorOptions p'.gp with
    | error e => simp [hg', bind, Except.bind] at h'
    | ok gp' =>
      have hc := expectValid_ok (by simpa [hg, bind, Except.bind] using h)
      have hc' := expectValid_ok (by simpa [hg', bind, Except.bind] using h')
      have hs := egorOptions_same hg hg'
      subst hc hc'
      constructor
      · intro he
        simp only [explicit, EgorConfig.mk.injEq, Option.some.injEq, Trego.mk.injEq] at he
        obtain ⟨e1, e2, e3, e4, e5, e6, e7, e8, e9, e10, e11, e12, e13, e14, e15, e16, e17, e18, ⟨e19, -⟩, e20, e21, e22⟩ := he
        refine ⟨⟨hs.1 e10, ?_, ?_⟩, e17, e1⟩
        · simpa [Py.tol, Config.defaultTol] using e5
        · have f1 : p.infill = p'.infill := by
            cases hi : p.infill <;> cases hi' : p'.infill <;> simp_all
          have f2 : p.hotStart = p'.hotStart := by
            unfold Persist.Mode.ofOption at e16
            cases hi : p.hotStart <;> cases hi' : p'.hotStart <;> simp only [hi, hi'] at e16 <;> (try split_ifs at e16) <;>
              simp_all
          have f3 : p.coegoNCoop = p'.coegoNCoop := by
            split_ifs at e20 <;> simp_all
          obtain ⟨pg, nc, tol, ns, nd, pd, inf, ci, cs, q, qi, op, tr, co, qm, ta, od, ws, hs, sd⟩ := p
          obtain ⟨pg', nc', tol', ns', nd', pd', inf', ci', cs', q', qi', op', tr', co', qm', ta', od', ws', hs', sd'⟩ := p'
          simp only at *
          simp [*]
      · rintro ⟨⟨h1, h2, h3⟩, rfl, rfl⟩
        have hgp := hs.2 h1
        subst hgp
        have ht : p.tol nFcstr = p'.tol nFcstr := by simpa [Py.tol, Config.defaultTol] using h2
        rw [← h3] at ht ⊢
        simp only [explicit]
        rw [ht]

/-- **C135**, part. `suggest` has the configuration of `minimize` without function constraints, except the number of iterations
and the design. -/
theorem C135_suggest_same (p : Py) (xtypes : List (MixInt.XType ℝ)) (x y : Mat Flt) (hl : x.rows.length = y.rows.length)
    (m : ℕ) (c : EgorConfig) :
    p.minimize xtypes 0 m = .ok c ↔ p.suggest xtypes x y = .ok { c with
      maxIters := 1, doe := some ⟨x.ncols + y.ncols, List.zipWith (· ++ ·) x.rows y.rows⟩ } ∧ c.maxIters = m ∧ c.doe = p.doe := by
  have h := applyConfig_eq p xtypes 0 1 (some ⟨x.ncols + y.ncols, List.zipWith (· ++ ·) x.rows y.rows⟩)
  have hs : p.suggest xtypes x y = PyGp.egorOptions p.gp >>= fun gp => expectValid
      (explicit p gp xtypes 0 1 (some ⟨x.ncols + y.ncols, List.zipWith (· ++ ·) x.rows y.rows⟩)) := by
    unfold Py.suggest hcat
    rw [if_pos hl]
    cases ha : p.applyConfig .dflt (some 1) 0 (some ⟨x.ncols + y.ncols, List.zipWith (· ++ ·) x.rows y.rows⟩) <;>
      cases hg : PyGp.egorOptions p.gp <;> simp_all [bind, Except.bind]
  rw [hs, minimize_eq]
  cases hg : PyGp.egorOptions p.gp with
  | error e => simp [bind, Except.bind]
  | ok gp =>
    have hv : ∀ e c, expectValid e = .ok c ↔ c = e ∧ ∃ v, Config.check ⟨e.nCstr, e.cstrTol, e.coego.activated, e.gp.kplsDim⟩ = .ok v := by
      intro e c
      unfold expectValid EgorConfig.check
      cases Config.check ⟨e.nCstr, e.cstrTol, e.coego.activated, e.gp.kplsDim⟩ with
      | error _ => simp [Except.map]
      | ok v => simp [Except.map, eq_comm]
    simp only [bind, Except.bind]
    rw [hv, hv]
    constructor
    · rintro ⟨rfl, hk⟩
      exact ⟨⟨rfl, hk⟩, rfl, rfl⟩
    · rintro ⟨⟨he, hk⟩, hm, hd⟩
      refine ⟨?_, hk⟩
      obtain ⟨a1, a2, a3, a4, a5, a6, a7, a8, a9, a10, a11, a12, a13, a14, a15, a16, a17, a18, a19, a20, a21, a22⟩ := c
      simp only [explicit, EgorConfig.mk.injEq] at he hm hd ⊢
      simp_all

/-- **C135**, part. The defaults of Python are those of Rust, except the optimizer of the infill criterion, the recombination of
experts (without effect for the default single cluster) and explicit tolerances. -/
theorem C135_defaults (xtypes : List (MixInt.XType ℝ)) :
    Py.dflt.minimize xtypes 0 20 = .ok { EgorConfig.dflt with
      xtypes := xtypes, optimizer := .cobyla, cstrTol := some [], gp := { EgorConfig.dflt.gp with recombination := .hard } } := by
  have hg : PyGp.egorOptions Py.dflt.gp = .ok { EgorConfig.dflt.gp with recombination := .hard } := by
    have h1 : Config.regrFromBits 1 = some ⟨true, false, false⟩ := by decide
    have h2 : Config.corrFromBits 1 = some ⟨true, false, false, false⟩ := by decide
    simp [PyGp.egorOptions, Py.dflt, PyGp.GpConfig.dflt, h1, h2, PyGp.unwrap, PyGp.tuning, PyGp.tuningInit, bind, Except.bind,
      PyGp.clusters, EgorConfig.dflt, gpDefault]
  rw [minimize_eq, hg]
  simp [bind, Except.bind, expectValid, EgorConfig.check, Config.check, explicit, Py.dflt, Py.tol, Except.map, EgorConfig.dflt,
    Persist.Mode.ofOption]

/-- Case of `C135_accepted_iff` and `C135_options_reach`: options far from the defaults are accepted. -/
noncomputable def somePy : Py :=
  ⟨⟨3, 12, none, -4, true, some [1, 2], some [[1, 2], [3, 4]], 7, 80⟩, 2, some [.fin 1, .fin 2], 5, 6, none, .wb2s, true,
    .upperTrustBound, 3, .clmin, .slsqp, true, 4, 2, .fin (-1), some "out", true, some 9, some 42⟩

example : ∃ c, somePy.minimize [.float 0 1, .enum 3] 0 50 = .ok c :=
  (C135_accepted_iff _ _ _ _).2 ⟨by
    obtain ⟨o, ho, -⟩ := C86_egor_options_partial somePy.gp
      ⟨by decide, by decide, by intro bs h b hb; simp [somePy] at h; subst h; simp at hb; rcases hb with rfl | rfl <;> rfl⟩
    exact ⟨o, ho⟩, Or.inr (Or.inl ⟨_, rfl, rfl⟩), Or.inr rfl⟩

/-- Case of `C135_no_option_ignored`: two optimizers with the same meaning. -/
example : SameOptions 0 { Py.dflt with cstrTol := some [] } Py.dflt :=
  ⟨⟨rfl, rfl, rfl, rfl, rfl, rfl, rfl, Or.inl rfl, rfl⟩, rfl, rfl⟩

/-! ## Default target -/

/-- The finite numbers of type `f64`. -/
def FiniteF64 : Set ℝ := {x | IsF64 x ∧ ¬ Overflows x}

theorem isLeast_minF64 : IsLeast FiniteF64 (-(2 ^ 1024 - 2 ^ 971)) := by
  have h2 : (2 : ℝ) ^ (1024 : ℕ) = 2 ^ (53 : ℕ) * 2 ^ (971 : ℕ) := by rw [← pow_add]
  have hp : (0 : ℝ) < 2 ^ (971 : ℕ) := by positivity
  refine ⟨⟨⟨-(2 ^ 53 - 1), 971, by norm_num, by norm_num, ?_⟩, ?_⟩, ?_⟩
  · push_cast
    rw [h2, show ((2 : ℝ) ^ (971 : ℤ)) = 2 ^ (971 : ℕ) from zpow_natCast 2 971]
    generalize (2 : ℝ) ^ (971 : ℕ) = t
    ring
  · rw [Overflows, not_le, abs_neg, abs_of_nonneg, h2]
    · exact sub_lt_self _ hp
    · rw [h2, sub_nonneg]
      exact le_mul_of_one_le_left hp.le (by norm_num)
  · rintro x ⟨⟨m, e, hm, he, rfl⟩, hx⟩
    rw [Overflows, not_le, abs_mul, abs_of_nonneg (zpow_nonneg (zero_le_two (α := ℝ)) e)] at hx
    suffices h : |(m : ℝ)| * 2 ^ e ≤ 2 ^ (1024 : ℕ) - 2 ^ (971 : ℕ) by
      have h3 := neg_abs_le ((m : ℝ) * 2 ^ e)
      rw [abs_mul, abs_of_nonneg (zpow_nonneg (zero_le_two (α := ℝ)) e)] at h3
      exact (neg_le_neg h).trans h3
    have h4 : (2 : ℝ) ^ (1024 : ℕ) - 2 ^ (971 : ℕ) = (2 ^ (53 : ℕ) - 1) * 2 ^ (971 : ℕ) := by
      rw [h2]
      generalize (2 : ℝ) ^ (971 : ℕ) = t
      ring
    rw [h4]
    by_cases h : e ≤ 971
    · have h5 : |(m : ℝ)| ≤ 2 ^ (53 : ℕ) - 1 := by
        have : |m| ≤ 2 ^ 53 - 1 := by omega
        exact_mod_cast this
      have h6 : (2 : ℝ) ^ e ≤ 2 ^ (971 : ℕ) := by
        rw [← zpow_natCast]
        exact zpow_le_zpow_right₀ one_le_two h
      calc |(m : ℝ)| * 2 ^ e ≤ (2 ^ (53 : ℕ) - 1) * 2 ^ e :=
            mul_le_mul_of_nonneg_right h5 (zpow_nonneg zero_le_two e)
        _ ≤ _ := mul_le_mul_of_nonneg_left h6 (by norm_num)
    · obtain ⟨k, rfl⟩ : ∃ k : ℕ, e = 971 + k := ⟨(e - 971).toNat, by omega⟩
      have h7 : (2 : ℝ) ^ ((971 : ℤ) + k) = 2 ^ k * 2 ^ (971 : ℕ) := by
        rw [zpow_add₀ two_ne_zero, mul_comm, zpow_natCast]
        rfl
      rw [h7, ← mul_assoc] at hx ⊢
      rw [h2] at hx
      have h8 := lt_of_mul_lt_mul_right hx hp.le
      have h9 : |m| * 2 ^ k < 2 ^ 53 := by exact_mod_cast h8
      have h10 : |m| * 2 ^ k ≤ 2 ^ 53 - 1 := by omega
      exact mul_le_mul_of_nonneg_right (by exact_mod_cast h10) hp.le

/-- The default target of the optimizer, also from Python, is the smallest finite number: a run without target stops on
its objective only at this number or at minus infinity. -/
theorem C135_default_target :
    Py.dflt.target = EgorConfig.dflt.target ∧
    (∃ t : ℚ, EgorConfig.dflt.target = .fin t ∧ IsLeast FiniteF64 t) ∧
    ∀ a : Flt, (∀ q : ℚ, a = .fin q → (q : ℝ) ∈ FiniteF64) →
      ((Flt.lt a EgorConfig.dflt.target || Flt.feq a EgorConfig.dflt.target) = true ↔
        a = .ninf ∨ a = EgorConfig.dflt.target) := by
  refine ⟨rfl, ⟨-(2 ^ 1024 - 2 ^ 971), rfl, ?_⟩, ?_⟩
  · have := isLeast_minF64
    push_cast
    exact this
  · intro a ha
    have ht : EgorConfig.dflt.target = .fin (-(2 ^ 1024 - 2 ^ 971)) := rfl
    rw [ht]
    cases a with
    | nan => simp [Flt.lt, Flt.feq, Flt.cmp]
    | ninf => simp [Flt.lt, Flt.feq, Flt.cmp]
    | pinf => simp [Flt.lt, Flt.feq, Flt.cmp]
    | fin q =>
      have h1 := isLeast_minF64.2 (ha q rfl)
      have h2 : -(2 ^ 1024 - 2 ^ 971) ≤ q := by exact_mod_cast h1
      generalize (-(2 ^ 1024 - 2 ^ 971) : ℚ) = t at h2
      simp only [Flt.lt, Flt.feq, Flt.cmp, reduceCtorEq, false_or, Flt.fin.injEq]
      rcases h2.lt_or_eq with h | h
      · simp [if_neg h.not_gt, if_pos h, h.ne']
      · simp [h]

end Verif.Props
