import Verif.Model.PySparse
import Verif.Props.PyGp
import Verif.Props.SparseFit

/-!
# Properties of the Python class `SparseGpMix` (C128)
-/

set_option autoImplicit false

namespace Verif.Props

open Verif Tuning Sparse PySparse

variable {α : Type}

/-- The inducing points asked for: those given; otherwise as many rows of the training points as asked, each of them
once, or all of them if there are not enough. -/
def PointsAsked (c : SparseConfig α) (xt points : List α) : Prop :=
  (∀ z, c.z = some z → points = z) ∧
  (c.z = none → ∃ (k : ℕ) (rows : List ℕ), c.nz = some k ∧ points.length = min k xt.length ∧ rows.Nodup ∧
    (∀ i ∈ rows, i < xt.length) ∧ points.map some = rows.map fun i => xt[i]?)

/-- Number of components of `theta`. -/
def thetaDim (c : SparseConfig α) (nx : ℕ) : ℕ := c.kplsDim.getD nx

/-- Interval of `theta` asked for, when it is the same for all the components: the default one, or the one given. -/
def SparseInterval (c : SparseConfig α) (lo up : ℝ) : Prop :=
  (c.thetaBounds = none ∧ lo = 1 / 100 ∧ up = 10) ∨ c.thetaBounds = some [[lo, up]]

/-- Options within their documented ranges, with one interval for all the components of `theta`. -/
structure SparseValid (c : SparseConfig α) (nx : ℕ) (lo up : ℝ) : Prop where
  corr : 1 ≤ c.corrSpec ∧ c.corrSpec ≤ 15
  points : c.z ≠ none ∨ c.nz ≠ none
  kpls : ∀ d, c.kplsDim = some d → 0 < d ∧ d ≤ nx
  interval : SparseInterval c lo up
  order : 0 < lo ∧ lo ≤ up
  oneStart : c.nStart = 1 → lo < up
  init : ∀ init, c.thetaInit = some init → init.length = 1 ∨ init.length = thetaDim c nx

theorem sparseInducings_asked (c : SparseConfig α) {i : Inducings α} (hi : PySparse.inducings c = .ok i) (xt : List α)
    (shuffled : List ℕ) (hsh : shuffled.Perm (List.range xt.length)) :
    ∃ points, inducingPoints i xt shuffled = .ok points ∧ PointsAsked c xt points := by
  unfold PySparse.inducings at hi
  split at hi
  · rename_i z hz
    cases hi
    exact ⟨z, C94_located z xt shuffled, fun z' h => by simp_all, fun h => by simp_all⟩
  · rename_i k hz hk
    cases hi
    obtain ⟨p, rows, h1, h2, h3, h4, h5⟩ := C94_randomized k xt shuffled hsh
    exact ⟨p, h1, fun z' h => by simp_all, fun _ => ⟨k, rows, hk, h2, h3, h4, h5⟩⟩
  · cases hi

theorem sparseTuning_single (c : SparseConfig α) {lo up : ℝ} (h : SparseInterval c lo up) :
    ∃ i, PySparse.tuning c = .ok (.full i [(lo, up)]) ∧ (c.thetaInit = none → i = [defaultInit]) ∧
      ∀ init, c.thetaInit = some init → i = init := by
  have hi : ∃ i, tuningInit c = .full i [defaultBounds] ∧ (c.thetaInit = none → i = [defaultInit]) ∧
      ∀ init, c.thetaInit = some init → i = init := by
    unfold tuningInit
    cases h : c.thetaInit with
    | none => exact ⟨[defaultInit], rfl, fun _ => rfl, by simp⟩
    | some init => exact ⟨init, rfl, by simp, by simp⟩
  obtain ⟨i, h1, h2⟩ := hi
  rcases h with ⟨hn, rfl, rfl⟩ | hb
  · exact ⟨i, by simp [PySparse.tuning, hn, h1, defaultBounds], h2⟩
  · refine ⟨i, ?_, h2⟩
    simp [PySparse.tuning, hb, h1, PyGp.boundPair, ThetaTuning.init, bind, Except.bind, pure, Except.pure]

theorem checkKpls_ok {k : Option ℕ} {n nx : ℕ} (h : ∀ d, k = some d → 0 < d ∧ d ≤ nx)
    (hn : n = 1 ∨ n = k.getD nx) : checkKpls k n nx = .ok (k.getD nx) := by
  cases k with
  | none => rfl
  | some d =>
    obtain ⟨h1, h2⟩ := h d rfl
    simp only [Option.getD_some] at hn ⊢
    simp only [checkKpls]
    rw [if_neg (by omega), if_neg (by omega), if_neg (by omega)]

/-- C128, part. With options within their documented ranges and one interval for all components, `SparseGpMix.fit` does
not panic. The model has the sparse method, the kernels and the inducing points asked for. Missing: one interval per
component (`C128_refuted_bounds`). -/
theorem C128_options_partial (env : Sparse.Env) (hu : UniformRng env.rng) (eps : ℝ) (c : SparseConfig α) (nx : ℕ)
    (lo up : ℝ) (hc : SparseValid c nx lo up) (xt : List α) (shuffled : List ℕ)
    (hsh : shuffled.Perm (List.range xt.length)) (sigma20 : ℝ) :
    ∃ m, PySparse.fit env eps c nx xt shuffled sigma20 = .ok m ∧ m.method = c.method ∧
      Config.corrFromBits c.corrSpec = some m.corr ∧ PointsAsked c xt m.points := by
  obtain ⟨ind, hind⟩ : ∃ i, PySparse.inducings c = .ok i := by
    unfold PySparse.inducings
    have := hc.points
    split
    · exact ⟨_, rfl⟩
    · exact ⟨_, rfl⟩
    · simp_all
  obtain ⟨points, hp, hask⟩ := sparseInducings_asked c hind xt shuffled hsh
  obtain ⟨i, ht, hi1, hi2⟩ := sparseTuning_single c hc.interval
  obtain ⟨k, hk⟩ := corr_ok hc.corr.2
  have hil : i.length = 1 ∨ i.length = thetaDim c nx := by
    cases hci : c.thetaInit with
    | none => left; rw [hi1 hci]; rfl
    | some init => rw [hi2 init hci]; exact hc.init init hci
  have hck : checkKpls c.kplsDim i.length nx = .ok (thetaDim c nx) := checkKpls_ok hc.kpls hil
  obtain ⟨r, hr⟩ := fitParams_returns env hu (thetaDim c nx) c.nStart maxEvalDefault (.full i [(lo, up)]) (lo, up) rfl hil
    (dfltNoise eps) sigma20 hc.order hc.oneStart (by norm_num [maxEvalDefault])
  refine ⟨⟨c.method, k, points, r.1, r.2.1, r.2.2⟩, ?_, rfl, hk, hask⟩
  simp only [PySparse.fit, PySparse.options, hind, ht, hk, PyGp.unwrap, ThetaTuning.init, hck, hp, hr, bind, Except.bind]

theorem sparseFit_ok {env : Sparse.Env} {eps : ℝ} {c : SparseConfig α} {nx : ℕ} {xt : List α} {shuffled : List ℕ}
    {sigma20 : ℝ} {m : Trained α} (h : PySparse.fit env eps c nx xt shuffled sigma20 = .ok m) :
    ∃ (i : Inducings α) (t : ThetaTuning), PySparse.inducings c = .ok i ∧ PySparse.tuning c = .ok t ∧
      Config.corrFromBits c.corrSpec = some m.corr ∧ checkKpls c.kplsDim t.init.length nx = .ok (thetaDim c nx) ∧
      inducingPoints i xt shuffled = .ok m.points ∧
      fitParams env (thetaDim c nx) c.nStart maxEvalDefault t (dfltNoise eps) sigma20 =
        .ok (m.theta, m.sigma2, m.noise) := by
  simp only [PySparse.fit, PySparse.options, bind_ok, Except.ok.injEq] at h
  obtain ⟨o, ⟨i, hi, t, ht, k, hk, rfl⟩, dim, hd, z, hz, r, hr, rfl⟩ := h
  have hk' : Config.corrFromBits c.corrSpec = some k := by
    cases hc : Config.corrFromBits c.corrSpec with
    | none => simp [hc, PyGp.unwrap] at hk
    | some v => simpa [hc, PyGp.unwrap] using hk
  have hdim : dim = thetaDim c nx := by
    unfold thetaDim
    simp only [checkKpls] at hd
    cases hkp : c.kplsDim with
    | none => simp only [hkp, Except.ok.injEq] at hd; simpa using hd.symm
    | some d =>
      simp only [hkp] at hd
      split_ifs at hd
      simpa using (Except.ok.inj hd).symm
  subst hdim
  exact ⟨i, t, hi, ht, hk', hd, hz, hr⟩

theorem thetaDim_pos {c : SparseConfig α} {n nx : ℕ} (hx : 1 ≤ nx)
    (h : checkKpls c.kplsDim n nx = .ok (thetaDim c nx)) : 1 ≤ thetaDim c nx := by
  unfold thetaDim at *
  cases hk : c.kplsDim with
  | none => simpa using hx
  | some d =>
    simp only [checkKpls, hk] at h
    split_ifs at h
    simp only [Option.getD_some]
    omega

/-- C128. The hyperparameters are those found by the fit of sparse processes with the number of starts asked, one
interval and an initial value (0.1 by default) as asked, and 1000 evaluations for each start. -/
theorem C128_same_fit (env : Sparse.Env) (eps : ℝ) (c : SparseConfig α) (nx : ℕ) (lo up : ℝ)
    (hc : SparseInterval c lo up) (xt : List α) (shuffled : List ℕ) (sigma20 : ℝ) (m : Trained α)
    (h : PySparse.fit env eps c nx xt shuffled sigma20 = .ok m) :
    fitParams env (thetaDim c nx) c.nStart 1000 (.full (c.thetaInit.getD [1 / 10]) [(lo, up)])
      (.optimized (1 / 100) (100 * eps) (10 ^ 10)) sigma20 = .ok (m.theta, m.sigma2, m.noise) := by
  obtain ⟨_, t, _, ht, _, hd, _, hr⟩ := sparseFit_ok h
  obtain ⟨i, hi, h1, h2⟩ := sparseTuning_single c hc
  rw [hi, Except.ok.injEq] at ht
  subst ht
  have : i = c.thetaInit.getD [1 / 10] := by
    cases hci : c.thetaInit with
    | none => rw [h1 hci]; norm_num [defaultInit]
    | some v => rw [h2 v hci]; rfl
  rw [← this]
  exact hr

/-- C128, part. When the minimizer does not fail and the likelihood is a number, there is one `theta` per input, or per
component of the reduction; all are within the interval asked for (the default one is `[0.01, 10]`), and the noise within its default bounds. -/
theorem C128_within_bounds_partial (env : Sparse.Env) (hopt : Spec.IsMinimizer env.opt)
    (hsplit : ∀ l, (env.split l).items = l) (hnf : Spec.NeverFails env.opt)
    (hnll : ∀ t s v, Spec.cost (env.nll t s v) < ⊤) (eps : ℝ) (he : 0 < eps ∧ eps ≤ 1) (c : SparseConfig α) (nx : ℕ)
    (hx : 1 ≤ nx) (lo up : ℝ) (hc : SparseInterval c lo up) (ho : 0 < lo ∧ lo ≤ up) (xt : List α) (shuffled : List ℕ)
    (sigma20 : ℝ) (hs : 1e-12 ≤ 9 * sigma20) (m : Trained α)
    (h : PySparse.fit env eps c nx xt shuffled sigma20 = .ok m) :
    m.theta.length = thetaDim c nx ∧ (∀ t ∈ m.theta, lo ≤ t ∧ t ≤ up) ∧ 100 * eps ≤ m.noise ∧ m.noise ≤ 10 ^ 10 := by
  obtain ⟨_, t, _, ht, _, hd, _, hr⟩ := sparseFit_ok h
  obtain ⟨i, hi, _⟩ := sparseTuning_single c hc
  rw [hi, Except.ok.injEq] at ht
  subst ht
  have hn : validNoise (dfltNoise eps) := by
    simp only [validNoise, dfltNoise]
    constructor
    · linarith
    · norm_num; linarith
  obtain ⟨h1, h2, _, h3⟩ := C95_within_bounds_partial env hopt hsplit hnf hnll (thetaDim c nx) c.nStart maxEvalDefault
    (thetaDim_pos hx hd) i (lo, up) ho (.full i [(lo, up)]) (.inl rfl) (dfltNoise eps) hn sigma20 hs _ _ _ hr
  exact ⟨h1, h2, h3⟩

/-- C128, part. With one initial value within the interval, the retained parameters are at least as likely as this value
with the variance of the outputs and the default noise, when the minimizer does not fail. -/
theorem C128_not_worse_partial (env : Sparse.Env) (hopt : Spec.IsMinimizer env.opt)
    (hsplit : ∀ l, (env.split l).items = l) (hnf : Spec.NeverFails env.opt)
    (hnll : ∀ t s v, Spec.cost (env.nll t s v) < ⊤) (eps : ℝ) (he : 0 < eps ∧ eps ≤ 1e-4) (c : SparseConfig α) (nx : ℕ)
    (hx : 1 ≤ nx) (lo up v : ℝ) (hc : SparseInterval c lo up) (ho : 0 < lo ∧ lo ≤ v ∧ v ≤ up)
    (hv : c.thetaInit = some [v]) (xt : List α) (shuffled : List ℕ)
    (sigma20 : ℝ) (hs : 1e-12 ≤ sigma20) (m : Trained α)
    (h : PySparse.fit env eps c nx xt shuffled sigma20 = .ok m) :
    Spec.cost (env.nll m.theta m.sigma2 m.noise) ≤
      Spec.cost (env.nll (List.replicate (thetaDim c nx) v) sigma20 (1 / 100)) := by
  obtain ⟨_, t, _, ht, _, hd, _, hr⟩ := sparseFit_ok h
  obtain ⟨i, hi, _, hi2⟩ := sparseTuning_single c hc
  rw [hi, Except.ok.injEq] at ht
  subst ht
  rw [hi2 [v] hv] at hr
  have hn : validNoise (dfltNoise eps) := by
    simp only [validNoise, dfltNoise]
    constructor
    · linarith
    · norm_num at he ⊢; linarith
  have hn0 : noiseOk (dfltNoise eps) (dfltNoise eps).init := by
    simp only [noiseOk, dfltNoise, ParamTuning.init]
    constructor
    · norm_num at he ⊢; linarith
    · norm_num
  exact C95_not_worse_partial env hopt hsplit hnf hnll (thetaDim c nx) c.nStart maxEvalDefault (thetaDim_pos hx hd) v
    (lo, up) ho (dfltNoise eps) hn hn0 sigma20 hs _ _ _ hr

/-- C128 fails for any other number of intervals than one, that is for one interval per component when there are
several: `fit` panics. -/
theorem C128_refuted_bounds (env : Sparse.Env) (eps : ℝ) (c : SparseConfig α) (nx : ℕ) (hx : 1 ≤ nx)
    (bs : List (List ℝ)) (hb : c.thetaBounds = some bs) (hl : bs.length ≠ 1) (xt : List α) (shuffled : List ℕ)
    (sigma20 : ℝ) : ∃ e, PySparse.fit env eps c nx xt shuffled sigma20 = .error e := by
  cases h : PySparse.fit env eps c nx xt shuffled sigma20 with
  | error e => exact ⟨e, rfl⟩
  | ok m =>
    obtain ⟨_, t, _, ht, _, hd, _, hr⟩ := sparseFit_ok h
    simp only [PySparse.tuning, hb, bind_ok, Except.ok.injEq] at ht
    obtain ⟨ps, hps, rfl⟩ := ht
    obtain ⟨e, he⟩ := C52_refuted_per_component env (thetaDim c nx) c.nStart maxEvalDefault (tuningInit c).init ps []
      (dfltNoise eps) sigma20 (thetaDim_pos hx hd) (by rwa [← (mapM_ok.1 hps).length_eq]) _ (.inl rfl)
    rw [hr] at he
    cases he

/-- C128 fails without `z` nor `nz`, which are optional: in particular the default options panic, whatever the data. -/
theorem C128_refuted_no_points (env : Sparse.Env) (eps : ℝ) (c : SparseConfig α) (hz : c.z = none) (hn : c.nz = none)
    (nx : ℕ) (xt : List α) (shuffled : List ℕ) (sigma20 : ℝ) :
    PySparse.fit env eps c nx xt shuffled sigma20 = .error .other ∧
      PySparse.fit env eps (.dflt α) nx xt shuffled sigma20 = .error .other := by
  refine ⟨?_, rfl⟩
  simp [PySparse.fit, PySparse.options, PySparse.inducings, hz, hn, bind, Except.bind]

/-- C128 fails for an initial `theta` with one value per input when the dimension is reduced: it passes the checks of
the parameters, and `fit` panics. -/
theorem C128_refuted_reduced_init (env : Sparse.Env) (eps : ℝ) (c : SparseConfig α) (d nx : ℕ) (hd : 0 < d ∧ d < nx)
    (hk : c.kplsDim = some d) (init : List ℝ) (hi : c.thetaInit = some init) (hl : init.length = nx) (xt : List α)
    (shuffled : List ℕ) (sigma20 : ℝ) :
    checkKpls c.kplsDim init.length nx = .ok d ∧
      ∃ e, PySparse.fit env eps c nx xt shuffled sigma20 = .error e := by
  constructor
  · rw [hk, checkKpls, if_neg (by omega), if_neg (by omega), if_neg (by omega)]
  cases h : PySparse.fit env eps c nx xt shuffled sigma20 with
  | error e => exact ⟨e, rfl⟩
  | ok m =>
    obtain ⟨_, t, _, ht, _, hd', _, hr⟩ := sparseFit_ok h
    obtain ⟨theta0, _, _, _, h0, _⟩ := fitParams_ok (thetaDim_pos (by omega) hd') hr
    have hti : (initBounds t).1 = init := by
      unfold PySparse.tuning at ht
      split at ht
      · cases ht; simp [tuningInit, hi, initBounds]
      · simp only [bind_ok, Except.ok.injEq] at ht
        obtain ⟨_, _, rfl⟩ := ht
        simp [tuningInit, hi, initBounds, ThetaTuning.init]
    have := (expand_ok.1 h0).1
    rw [hti, hl] at this
    simp only [thetaDim, hk, Option.getD_some] at this
    omega

/-- C128 fails for the default bounds: a mixture does not use those of sparse processes, whose upper bound is larger. -/
theorem C128_refuted_default_bounds (c : SparseConfig α) (hi : c.thetaInit = none) (hb : c.thetaBounds = none) :
    ∃ i b b', PySparse.tuning c = .ok (.full i [b]) ∧ sgpTuning = .full i [b'] ∧ b.1 = b'.1 ∧ b.2 < b'.2 := by
  refine ⟨[defaultInit], defaultBounds, (defaultBounds.1, 100), ?_, rfl, ?_, ?_⟩
  · simp only [PySparse.tuning, hb, tuningInit, hi]; rfl
  · rfl
  · norm_num [defaultBounds]

/-- C128: the default options are the documented ones. -/
theorem C128_defaults : (SparseConfig.dflt α).method = .fitc ∧ (SparseConfig.dflt α).nStart = 10 ∧
    (SparseConfig.dflt α).kplsDim = none ∧
    Config.corrFromBits (SparseConfig.dflt α).corrSpec = some ⟨true, false, false, false⟩ :=
  ⟨rfl, rfl, rfl, by simp [Config.corrFromBits, SparseConfig.dflt]; decide⟩

/-- Case of C128: five random inducing points, an initial value and an interval for all components. -/
example : SparseValid (⟨3, some [1], some [[1 / 10, 5]], some 2, 4, some 5, none, .vfe⟩ : SparseConfig (List ℝ)) 6
    (1 / 10) 5 := by
  refine ⟨by norm_num, by simp, ?_, .inr rfl, by norm_num, by norm_num, ?_⟩
  · intro d h; cases h; omega
  · intro i h; cases h; exact .inl rfl

/-- Case of C128: default bounds, points given. -/
example : SparseValid (⟨1, none, none, none, 10, none, some [0, 1], .fitc⟩ : SparseConfig ℝ) 1 (1 / 100) 10 := by
  refine ⟨by norm_num, by simp, by simp, .inl ⟨rfl, rfl, rfl⟩, by norm_num, by norm_num, by simp⟩

end Verif.Props
