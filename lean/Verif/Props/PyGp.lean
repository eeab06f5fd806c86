import Verif.Model.PyGp
import Verif.Props.Tuning

/-!
# Properties of the Python options of Gaussian processes (C86)
-/

set_option autoImplicit false

namespace Verif.Props

open Verif Tuning PyGp

/-- Options within their documented ranges. -/
structure PyValid (c : GpConfig) : Prop where
  regr : 1 ≤ c.regrSpec ∧ c.regrSpec ≤ 7
  corr : 1 ≤ c.corrSpec ∧ c.corrSpec ≤ 15
  bounds : ∀ bs, c.thetaBounds = some bs → ∀ b ∈ bs, b.length = 2

theorem boundPair_pairs (bs : List (List ℝ)) (h : ∀ b ∈ bs, b.length = 2) :
    ∃ ps, bs.mapM boundPair = .ok ps ∧ List.Forall₂ (fun b p => b = [p.1, p.2]) bs ps := by
  apply mapM_forall₂
  intro b hb
  have := h b hb
  match b, this with
  | [u, v], _ => exact ⟨(u, v), rfl, rfl⟩

/-- The initial value and the bounds asked for, when they are given. -/
def TuningAsked (c : GpConfig) (t : ThetaTuning) : Prop :=
  (∀ init, c.thetaInit = some init → t.init = init) ∧
  ∀ bs, c.thetaBounds = some bs → ∃ ps, t.bounds = some ps ∧ List.Forall₂ (fun b p => b = [p.1, p.2]) bs ps

theorem tuning_ok (c : GpConfig) (h : PyValid c) :
    ∃ i b, tuning c = .ok (.full i b) ∧ TuningAsked c (.full i b) ∧
      (c.thetaInit = none → i = [defaultInit]) ∧ (c.thetaBounds = none → b = [defaultBounds]) := by
  unfold tuning TuningAsked
  have hi : ∀ init, c.thetaInit = some init → (tuningInit c).init = init := by
    intro init he; simp [tuningInit, he, ThetaTuning.init]
  have hi' : c.thetaInit = none → (tuningInit c).init = [defaultInit] := by
    intro he; simp [tuningInit, he, ThetaTuning.init, ThetaTuning.dflt]
  cases hb : c.thetaBounds with
  | none =>
    have : ∃ i, tuningInit c = .full i [defaultBounds] := by
      unfold tuningInit
      split
      · exact ⟨_, rfl⟩
      · exact ⟨_, rfl⟩
    obtain ⟨i, he⟩ := this
    rw [he] at hi hi'
    exact ⟨i, [defaultBounds], by simp [he], ⟨hi, by simp⟩, hi', fun _ => rfl⟩
  | some bs =>
    obtain ⟨ps, hps, hR⟩ := boundPair_pairs bs (h.bounds bs hb)
    refine ⟨(tuningInit c).init, ps, by simp [hps, bind, Except.bind], ⟨hi, ?_⟩, hi', by simp⟩
    intro bs' he
    simp only [Option.some.injEq] at he
    subst he
    exact ⟨ps, rfl, hR⟩

theorem regr_ok {b : ℕ} (h : b ≤ 7) : ∃ r, Config.regrFromBits b = some r :=
  ⟨_, if_pos (Nat.div_eq_of_lt (by omega))⟩

theorem corr_ok {b : ℕ} (h : b ≤ 15) : ∃ r, Config.corrFromBits b = some r :=
  ⟨_, if_pos (Nat.div_eq_of_lt (by omega))⟩

/-- C86, part. With options within their documented ranges, the configuration of `Egor` does not panic; models,
reduction, initial value, bounds, number of starts and of evaluations are those asked for. Missing: a negative
number of starts (`C86_refuted_egor_negative_n_start`), smooth recombination (`C86_refuted_egor_smooth`), default
values (`C86_refuted_defaults`). -/
theorem C86_egor_options_partial (c : GpConfig) (h : PyValid c) :
    ∃ o, egorOptions c = .ok o ∧ Config.regrFromBits c.regrSpec = some o.regr ∧
      Config.corrFromBits c.corrSpec = some o.corr ∧ o.kplsDim = c.kplsDim ∧ TuningAsked c o.tuning ∧
      (0 ≤ c.nStart → (o.nStart : ℤ) = c.nStart) ∧ o.maxEval = c.maxEval ∧ o.nClusters = clusters c.nClusters ∧
      (c.smooth = false → o.recombination = .hard) := by
  obtain ⟨i, b, ht, ha, _⟩ := tuning_ok c h
  obtain ⟨r, hr⟩ := regr_ok h.regr.2
  obtain ⟨k, hk⟩ := corr_ok h.corr.2
  refine ⟨_, by simp only [egorOptions, ht, hr, hk, unwrap, bind, Except.bind]; rfl, hr, hk, rfl, ha, ?_, rfl, rfl, ?_⟩
  · intro hn; simp only; omega
  · intro hs; simp [hs]

/-- C86, part. The same for `GpMix`, except the number of evaluations (`C86_refuted_gpmix_max_eval`); a negative number
of starts disables the optimization and a smooth recombination has its factor optimized, as documented. -/
theorem C86_gpmix_options_partial (c : GpConfig) (h : PyValid c) :
    ∃ o, gpmixOptions c = .ok o ∧ Config.regrFromBits c.regrSpec = some o.regr ∧
      Config.corrFromBits c.corrSpec = some o.corr ∧ o.kplsDim = c.kplsDim ∧
      (0 ≤ c.nStart → TuningAsked c o.tuning ∧ (o.nStart : ℤ) = c.nStart) ∧
      (c.nStart < 0 → ∃ i, o.tuning = .fixed i ∧ ∀ init, c.thetaInit = some init → i = init) ∧
      o.nClusters = clusters c.nClusters ∧
      o.recombination = if c.smooth then .smooth none else .hard := by
  obtain ⟨i, b, ht, ha, _⟩ := tuning_ok c h
  obtain ⟨r, hr⟩ := regr_ok h.regr.2
  obtain ⟨k, hk⟩ := corr_ok h.corr.2
  refine ⟨_, by simp only [gpmixOptions, ht, hr, hk, unwrap, bind, Except.bind]; rfl, hr, hk, rfl, ?_, ?_, rfl, rfl⟩
  · intro hn
    have : ¬ c.nStart < 0 := by omega
    simp only [this, if_false]
    exact ⟨ha, by omega⟩
  · intro hn
    simp only [hn, if_true]
    exact ⟨i, rfl, ha.1⟩

/-- C86. A positive number of clusters is a fixed number, zero is automatic, `-n` is automatic up to `n`; for both
classes (see the previous theorems). -/
theorem C86_clusters (n : ℕ) :
    clusters 0 = .auto none ∧ (0 < n → clusters n = .fixed n) ∧ (0 < n → clusters (-n) = .auto (some n)) := by
  refine ⟨rfl, fun h => ?_, fun h => ?_⟩
  · have : (0 : ℤ) < n := by exact_mod_cast h
    rw [clusters, if_pos this]; simp
  · have h1 : ¬ (0 : ℤ) < -n := by omega
    have h2 : ¬ (-(n : ℤ)) = 0 := by omega
    rw [clusters, if_neg h1, if_neg h2]
    simp

/-- C86 fails for `GpMix`: the number of evaluations has no effect. -/
theorem C86_refuted_gpmix_max_eval (c : GpConfig) (v : ℕ) (o : Options) :
    (gpmixOptions c = .ok o → o.maxEval = 1000) ∧ gpmixOptions { c with maxEval := v } = gpmixOptions c := by
  refine ⟨fun h => ?_, rfl⟩
  simp only [gpmixOptions, bind_ok, Except.ok.injEq] at h
  obtain ⟨_, _, _, _, _, _, rfl⟩ := h
  rfl

/-- C86 fails for `Egor`: a negative number of starts does not disable the optimization. -/
theorem C86_refuted_egor_negative_n_start (c : GpConfig) (h : PyValid c) (hn : c.nStart < 0) :
    ∃ o i b, egorOptions c = .ok o ∧ o.tuning = .full i b ∧ o.nStart = 0 := by
  obtain ⟨i, b, ht, ha, _⟩ := tuning_ok c h
  obtain ⟨r, hr⟩ := regr_ok h.regr.2
  obtain ⟨k, hk⟩ := corr_ok h.corr.2
  refine ⟨_, i, b, by simp only [egorOptions, ht, hr, hk, unwrap, bind, Except.bind]; rfl, rfl, ?_⟩
  simp only; omega

/-- C86 fails for `Egor`: the factor of a smooth recombination is one instead of being optimized. -/
theorem C86_refuted_egor_smooth (c : GpConfig) (hs : c.smooth = true) (o : Options) (h : egorOptions c = .ok o) :
    o.recombination = .smooth (some 1) := by
  simp only [egorOptions, bind_ok, Except.ok.injEq] at h
  obtain ⟨_, _, _, _, _, _, rfl⟩ := h
  simp [hs]

/-- The documented default model. -/
structure DefaultModel (o : Options) : Prop where
  mean : o.regr = ⟨true, false, false⟩
  kernel : o.corr = ⟨true, false, false, false⟩
  reduction : o.kplsDim = none
  single : o.nClusters = .fixed 1
  recombination : o.recombination = .hard
  starts : o.nStart = 10

/-- C86 fails for the default initial value and bounds: they are `0.1` and `(0.01, 10)` where the documentation says
`0.01` and `(1e-6, 100)`. -/
theorem C86_refuted_defaults (o : Options)
    (h : egorOptions GpConfig.dflt = .ok o ∨ gpmixOptions GpConfig.dflt = .ok o) :
    o.tuning = .full [1 / 10] [(1 / 100, 10)] ∧ o.tuning.init ≠ [1 / 100] ∧
      o.tuning.bounds ≠ some [(1 / 1000000, 100)] := by
  have ht : o.tuning = .full [1 / 10] [(1 / 100, 10)] := by
    rcases h with h | h
    · simp only [egorOptions, bind_ok, Except.ok.injEq] at h
      obtain ⟨_, _, _, _, t, ht, rfl⟩ := h
      simp only [tuning, GpConfig.dflt, tuningInit, Except.ok.injEq] at ht
      subst ht; rfl
    · simp only [gpmixOptions, bind_ok, Except.ok.injEq] at h
      obtain ⟨t, ht, _, _, _, _, rfl⟩ := h
      simp only [tuning, GpConfig.dflt, tuningInit, Except.ok.injEq] at ht
      subst ht; rfl
  refine ⟨ht, ?_, ?_⟩ <;> rw [ht] <;> norm_num [ThetaTuning.init, ThetaTuning.bounds]

/-- C86. Without options, both classes build one squared exponential model of constant mean, without reduction of the
dimension, with ten starts; `Egor` has fifty evaluations per start. -/
theorem C86_default_options :
    (∃ o, egorOptions GpConfig.dflt = .ok o ∧ o.maxEval = 50 ∧ DefaultModel o) ∧
      ∃ o, gpmixOptions GpConfig.dflt = .ok o ∧ DefaultModel o :=
  ⟨⟨_, rfl, rfl, ⟨rfl, rfl, rfl, rfl, rfl, rfl⟩⟩, ⟨_, rfl, ⟨rfl, rfl, rfl, rfl, rfl, rfl⟩⟩⟩

/-- C86 fails out of the documented ranges: unknown flags, or bounds with less than two values, panic in both
classes. -/
theorem C86_refuted_panics (c : GpConfig)
    (h : Config.regrFromBits c.regrSpec = none ∨ Config.corrFromBits c.corrSpec = none ∨
      ∃ bs, c.thetaBounds = some bs ∧ ∃ b ∈ bs, b.length < 2) :
    (∃ e, egorOptions c = .error e) ∧ ∃ e, gpmixOptions c = .error e := by
  have key : (∀ o, egorOptions c ≠ .ok o) ∧ ∀ o, gpmixOptions c ≠ .ok o := by
    have hun : ∀ {β : Type} {o : Option β} {v : β}, unwrap o = .ok v → o ≠ none := by
      intro β o v hu hn; simp [hn, unwrap] at hu
    have htun : ∀ t, tuning c = .ok t → ¬ ∃ bs, c.thetaBounds = some bs ∧ ∃ b ∈ bs, b.length < 2 := by
      rintro t ht ⟨bs, hbs, b, hb, hl⟩
      simp only [tuning, hbs, bind_ok] at ht
      obtain ⟨ps, hps, _⟩ := ht
      rw [mapM_ok] at hps
      obtain ⟨k, hk, rfl⟩ := List.mem_iff_getElem.1 hb
      rw [List.forall₂_iff_get] at hps
      have := hps.2 k hk (by have := hps.1; omega)
      simp only [List.get_eq_getElem] at this
      match hb' : bs[k], hl with
      | [], _ => rw [hb'] at this; simp [boundPair] at this
      | [_], _ => rw [hb'] at this; simp [boundPair] at this
    constructor
    · intro o ho
      simp only [egorOptions, bind_ok] at ho
      obtain ⟨_, h1, _, h2, _, h3, _⟩ := ho
      rcases h with h | h | h
      · exact hun h1 h
      · exact hun h2 h
      · exact htun _ h3 h
    · intro o ho
      simp only [gpmixOptions, bind_ok] at ho
      obtain ⟨_, h3, _, h1, _, h2, _⟩ := ho
      rcases h with h | h | h
      · exact hun h1 h
      · exact hun h2 h
      · exact htun _ h3 h
  constructor
  · cases he : egorOptions c with
    | error e => exact ⟨e, rfl⟩
    | ok o => exact absurd he (key.1 o)
  · cases he : gpmixOptions c with
    | error e => exact ⟨e, rfl⟩
    | ok o => exact absurd he (key.2 o)

/-- Case of the previous theorems: bounds for two components, no optimization. -/
example : PyValid ⟨7, 12, none, 1, true, none, some [[1, 2], [3, 4]], -1, 50⟩ := by
  refine ⟨by norm_num, by norm_num, ?_⟩
  rintro bs h
  simp only [Option.some.injEq] at h
  subst h
  simp

end Verif.Props
