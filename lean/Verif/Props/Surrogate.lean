import Verif.Model.Surrogate
import Verif.Props.Tuning
import Mathlib.Tactic.IntervalCases

/-!
# Properties of the hyperparameters kept along the iterations (C96, C97)
-/

set_option autoImplicit false

namespace Verif.Props

open Verif Tuning Surrogate

/-! ## C96 -/

theorem groupLoop_ok_model {cfg : Cfg} {c : Call} {as : List (List ℕ)} : ∀ {i : ℕ} {best : Thetas}
    {model : Option Thetas} {r : Option Thetas × Thetas}, groupLoop cfg c i best model as = .ok r →
    (c.cluster || (cfg.coego && cfg.mono)) = true → (as = [] → model = some best) → r.1 = some r.2 := by
  induction as with
  | nil =>
    intro i best model r h _ hm
    simp only [groupLoop, Except.ok.injEq] at h
    subst h
    exact hm rfl
  | cons a as ih =>
    intro i best model r h hc _
    simp only [groupLoop, bind_ok] at h
    obtain ⟨gp, _, h⟩ := h
    rw [if_pos hc] at h
    exact ih h hc fun _ => rfl

theorem groupLoop_ok_best {cfg : Cfg} {c : Call} {as : List (List ℕ)} : ∀ {i : ℕ} {best : Thetas}
    {model : Option Thetas} {r : Option Thetas × Thetas}, groupLoop cfg c i best model as = .ok r →
    (c.cluster || (cfg.coego && cfg.mono)) = false → r.2 = best := by
  induction as with
  | nil =>
    intro i best model r h _
    simp only [groupLoop, Except.ok.injEq] at h
    rw [← h]
  | cons a as ih =>
    intro i best model r h hc
    simp only [groupLoop, bind_ok] at h
    obtain ⟨gp, _, h⟩ := h
    rw [hc] at h
    exact ih h hc

theorem makeSurrogate_ok {cfg : Cfg} {c : Call} {inits : Option Thetas} {r : Thetas × Thetas}
    (h : makeSurrogate cfg c inits = .ok r) : ∃ best, firstInits cfg inits = .ok best ∧
      groupLoop cfg c 0 best none c.actives = .ok (some r.1, r.2) ∧ c.actives ≠ [] := by
  simp only [makeSurrogate, bind_ok] at h
  obtain ⟨best, h1, ⟨m, b⟩, h2, h3⟩ := h
  cases m with
  | none => simp at h3
  | some m =>
    simp only [Except.ok.injEq] at h3
    subst h3
    refine ⟨best, h1, h2, fun hc => ?_⟩
    rw [hc] at h2
    simp [groupLoop] at h2

theorem session_append {cfg : Cfg} {cs : List Call} : ∀ {c : Call} {inits : Option Thetas}
    {r : List Thetas × Option Thetas}, session cfg (cs ++ [c]) inits = .ok r →
    ∃ ms kept m kept', session cfg cs inits = .ok (ms, kept) ∧ makeSurrogate cfg c kept = .ok (m, kept') ∧
      r = (ms ++ [m], some kept') := by
  induction cs with
  | nil =>
    intro c inits r h
    simp only [List.nil_append, session, bind_ok, Except.ok.injEq] at h
    obtain ⟨⟨m, k⟩, h1, r', h2, h3⟩ := h
    subst h2
    exact ⟨[], inits, m, k, rfl, h1, h3.symm⟩
  | cons d cs ih =>
    intro c inits r h
    simp only [List.cons_append, session, bind_ok, Except.ok.injEq] at h
    obtain ⟨⟨m, k⟩, h1, r', h2, h3⟩ := h
    obtain ⟨ms, kept, m', kept', e1, e2, e3⟩ := ih h2
    subst e3
    refine ⟨m :: ms, kept, m', kept', ?_, e2, h3.symm⟩
    simp only [session, bind_ok, Except.ok.injEq]
    exact ⟨_, h1, _, e1, rfl⟩

/-- The training uses fixed hyperparameters as they are. -/
def KeepsFixed (train : Trainer) : Prop :=
  ∀ i thetas r, train i (thetas.map .fixed) = .ok r → r = thetas

theorem tunings_fixed {cfg : Cfg} {c : Call} {a : List ℕ} {best : Thetas} (h1 : c.cluster = false)
    (h2 : c.optimize = false) : tunings cfg c a best = best.map .fixed := by
  simp [tunings, h1, h2, egorTuning]

theorem groupLoop_fixed {cfg : Cfg} {c : Call} {as : List (List ℕ)} (h1 : c.cluster = false)
    (h2 : c.optimize = false) (hf : KeepsFixed c.train) : ∀ {i : ℕ} {best : Thetas}
    {model : Option Thetas} {r : Option Thetas × Thetas}, groupLoop cfg c i best model as = .ok r →
    r.2 = best ∧ r.1 = if as = [] then model else some best := by
  induction as with
  | nil =>
    intro i best model r h
    simp only [groupLoop, Except.ok.injEq] at h
    rw [← h]; simp
  | cons a as ih =>
    intro i best model r h
    simp only [groupLoop, bind_ok] at h
    obtain ⟨gp, hg, h⟩ := h
    rw [tunings_fixed h1 h2] at hg
    have hg := hf _ _ _ hg
    subst hg
    rw [ite_self] at h
    obtain ⟨e1, e2⟩ := ih h
    refine ⟨e1, ?_⟩
    rw [e2]; simp

/-- A call without clustering nor optimization gives a surrogate with the hyperparameters kept, and keeps them. -/
theorem makeSurrogate_reuse {cfg : Cfg} {c : Call} {kept : Thetas} {r : Thetas × Thetas} (h1 : c.cluster = false)
    (h2 : c.optimize = false) (hf : KeepsFixed c.train) (h : makeSurrogate cfg c (some kept) = .ok r) :
    r = (kept, kept) := by
  obtain ⟨best, hb, hg, hne⟩ := makeSurrogate_ok h
  simp only [firstInits, Except.ok.injEq] at hb
  subst hb
  obtain ⟨e1, e2⟩ := groupLoop_fixed h1 h2 hf hg
  rw [if_neg hne, Option.some.injEq] at e2
  exact Prod.ext e2 e1

/-- The hyperparameters of the experts trained one by one. -/
theorem expertTrainer_keepsFixed (env : ℕ → ℕ → Env) (dim nStart maxEval : ℕ) :
    KeepsFixed (expertTrainer env dim nStart maxEval) := by
  intro i thetas r h
  simp only [expertTrainer] at h
  rw [mapM_ok] at h
  rw [List.forall₂_iff_get] at h
  obtain ⟨hl, h⟩ := h
  simp only [List.length_zip, List.length_map, List.length_range, min_self] at hl
  apply List.ext_getElem hl.symm
  intro k k1 k2
  have := h k (by simp; omega) k1
  simp only [List.get_eq_getElem, List.getElem_zip, List.getElem_map] at this
  exact ((C48_fixed _ _ _ _ _ _).1 this).1

/-- C96, part. With cooperative components and one cluster, or just after a clustering, a surrogate built without
optimization has the hyperparameters of the surrogate built before. Missing: the other cases, see
`C96_refuted_values_lost`. -/
theorem C96_reuses_previous_partial (cfg : Cfg) (cs : List Call) (c next : Call) (inits : Option Thetas)
    (ms : List Thetas) (m m' : Thetas) (kept : Option Thetas)
    (hc : c.cluster = true ∨ (cfg.coego = true ∧ cfg.nb = some 1))
    (h1 : next.cluster = false) (h2 : next.optimize = false) (hf : KeepsFixed next.train)
    (h : session cfg (cs ++ [c] ++ [next]) inits = .ok (ms ++ [m, m'], kept)) : m' = m := by
  obtain ⟨ms1, kept1, m1, kept1', e1, e2, e3⟩ := session_append h
  obtain ⟨ms2, kept2, m2, kept2', f1, f2, f3⟩ := session_append e1
  simp only [Prod.mk.injEq] at e3 f3
  obtain ⟨rfl, rfl⟩ := f3
  have hr := makeSurrogate_reuse h1 h2 hf e2
  obtain ⟨best, _, hg, hne⟩ := makeSurrogate_ok f2
  have hm := groupLoop_ok_model hg (by
    rcases hc with hc | ⟨hc, hn⟩
    · simp [hc]
    · simp [hc, Cfg.mono, hn]) fun e => absurd e hne
  simp only [Option.some.injEq] at hm
  have e3 := e3.1
  rw [show ms ++ [m, m'] = (ms ++ [m]) ++ [m'] by simp] at e3
  obtain ⟨e4, e5⟩ := List.append_inj' e3 rfl
  obtain ⟨_, e6⟩ := List.append_inj' e4 rfl
  simp only [List.cons.injEq, and_true, Prod.mk.injEq] at e5 e6 hr
  rw [e5, e6, hr.1, ← hm]

/-- C96 fails without cooperative components (the default), and with cooperative components and several clusters:
as long as there is no clustering, the hyperparameters found by the optimizations are not kept. The hyperparameters
used when there is no optimization, and those the next optimization starts from, are the ones of the last
clustering. -/
theorem C96_refuted_values_lost (cfg : Cfg) (hc : ¬ (cfg.coego = true ∧ cfg.nb = some 1)) (cs : List Call)
    (hcs : ∀ c ∈ cs, c.cluster = false) (inits : Thetas) (ms : List Thetas) (kept : Option Thetas)
    (h : session cfg cs (some inits) = .ok (ms, kept)) :
    kept = some inits ∧
      ∀ next : Call, next.cluster = false → next.optimize = false → KeepsFixed next.train →
        ∀ r, makeSurrogate cfg next kept = .ok r → r.1 = inits := by
  have hk : kept = some inits := by
    induction cs generalizing ms kept with
    | nil => simp only [session, Except.ok.injEq, Prod.mk.injEq] at h; exact h.2.symm
    | cons c cs ih =>
      simp only [session, bind_ok, Except.ok.injEq, Prod.mk.injEq] at h
      obtain ⟨⟨m, k⟩, h1, ⟨ms', k'⟩, h2, _, h4⟩ := h
      obtain ⟨best, hb, hg, _⟩ := makeSurrogate_ok h1
      simp only [firstInits, Except.ok.injEq] at hb
      subst hb
      have hf : (c.cluster || (cfg.coego && cfg.mono)) = false := by
        rw [hcs c (by simp), Bool.false_or]
        by_contra hn
        simp only [Bool.not_eq_false, Bool.and_eq_true, Cfg.mono, beq_iff_eq] at hn
        exact hc hn
      have := groupLoop_ok_best hg hf
      simp only at this h2 h4
      subst this
      subst h4
      exact ih (fun c hc' => hcs c (by simp [hc'])) _ _ h2
  refine ⟨hk, fun next h1 h2 h3 r hr => ?_⟩
  subst hk
  rw [makeSurrogate_reuse h1 h2 h3 hr]

/-- A training for the example: fixed hyperparameters are kept, an optimization finds `v`. -/
def exTrain (v : ℝ) : Trainer := fun _ ts => .ok (ts.map fun t => match t with
  | .fixed i => i
  | _ => [v])

theorem exTrain_keepsFixed (v : ℝ) : KeepsFixed (exTrain v) := by
  intro i thetas r h
  simp only [exTrain, List.map_map, Except.ok.injEq] at h
  rw [← h]
  exact List.map_id _

/-- C96 fails, a case: default options, hyperparameters optimized every second iteration (`q_optmod = 2`). The
fourth surrogate has the hyperparameters of the first one, the ones found at the third iteration are lost. -/
theorem C96_refuted_four_iterations :
    session ⟨ThetaTuning.dflt, 1, ⟨true, false, false, false⟩, false, some 1⟩
      [⟨true, true, [[0]], exTrain 1⟩, ⟨false, false, [[0]], exTrain 2⟩, ⟨false, true, [[0]], exTrain 3⟩,
        ⟨false, false, [[0]], exTrain 4⟩] none = .ok ([[[1]], [[1]], [[3]], [[1]]], some [[1]]) := by
  simp [session, makeSurrogate, firstInits, egorInit, ThetaTuning.dflt, ThetaTuning.init, assignRow, groupLoop,
    tunings, egorTuning, exTrain, bind, Except.bind, Cfg.mono]

/-- Case of `C96_reuses_previous_partial`: the same iterations with cooperative components. -/
example : session ⟨ThetaTuning.dflt, 1, ⟨true, false, false, false⟩, true, some 1⟩
      [⟨true, true, [[0]], exTrain 1⟩, ⟨false, false, [[0]], exTrain 2⟩, ⟨false, true, [[0]], exTrain 3⟩,
        ⟨false, false, [[0]], exTrain 4⟩] none = .ok ([[[1]], [[1]], [[3]], [[3]]], some [[3]]) := by
  simp [session, makeSurrogate, firstInits, egorInit, ThetaTuning.dflt, ThetaTuning.init, assignRow, groupLoop,
    tunings, egorTuning, partialTuning, exTrain, bind, Except.bind, Cfg.mono]

/-! ## One set of hyperparameters for each cluster -/

theorem groupLoop_sizes {cfg : Cfg} {c : Call} {k : ℕ} (hnb : cfg.nb = some k)
    (htr : ∀ i ts r, c.train i ts = .ok r → r.length = ts.length) {as : List (List ℕ)} :
    ∀ {i : ℕ} {best : Thetas} {model : Option Thetas} {r : Option Thetas × Thetas}, best.length = k →
    (∀ m ∈ model, m.length = k) → groupLoop cfg c i best model as = .ok r →
    r.2.length = k ∧ ∀ m ∈ r.1, m.length = k := by
  induction as with
  | nil =>
    intro i best model r hb hm h
    simp only [groupLoop, Except.ok.injEq] at h
    subst h
    exact ⟨hb, hm⟩
  | cons a as ih =>
    intro i best model r hb hm h
    simp only [groupLoop, bind_ok] at h
    obtain ⟨gp, hg, h⟩ := h
    have hgl := htr _ _ _ hg
    rw [tunings, hnb] at hgl
    simp only [Option.isNone_some, Bool.and_false, Bool.false_eq_true, if_false, List.length_map] at hgl
    refine ih ?_ ?_ h
    · split
      · rw [hgl, hb]
      · exact hb
    · intro m hm
      simp only [Option.mem_def, Option.some.injEq] at hm
      rw [← hm, hgl, hb]

/-- C96. With a given number of clusters, every surrogate has one set of hyperparameters for each cluster, from the
first call on, and so have the values kept, if the training gives one set of hyperparameters for each tuning. -/
theorem C96_one_theta_per_cluster (cfg : Cfg) (k : ℕ) (hnb : cfg.nb = some k) (cs : List Call)
    (htr : ∀ c ∈ cs, ∀ i ts r, c.train i ts = .ok r → r.length = ts.length) (ms : List Thetas)
    (kept : Option Thetas) (h : session cfg cs none = .ok (ms, kept)) :
    (∀ m ∈ ms, m.length = k) ∧ ∀ t ∈ kept, t.length = k := by
  have key : ∀ (cs : List Call) (inits : Option Thetas) (ms : List Thetas) (kept : Option Thetas),
      (∀ c ∈ cs, ∀ i ts r, c.train i ts = .ok r → r.length = ts.length) → (∀ t ∈ inits, t.length = k) →
      session cfg cs inits = .ok (ms, kept) → (∀ m ∈ ms, m.length = k) ∧ ∀ t ∈ kept, t.length = k := by
    intro cs
    induction cs with
    | nil =>
      intro inits ms kept _ hi h
      simp only [session, Except.ok.injEq, Prod.mk.injEq] at h
      obtain ⟨rfl, rfl⟩ := h
      exact ⟨by simp, hi⟩
    | cons c cs ih =>
      intro inits ms kept htr hi h
      simp only [session, bind_ok, Except.ok.injEq, Prod.mk.injEq] at h
      obtain ⟨⟨m, b⟩, h1, ⟨ms', k'⟩, h2, rfl, rfl⟩ := h
      obtain ⟨best, hb, hg, _⟩ := makeSurrogate_ok h1
      have hbl : best.length = k := by
        cases inits with
        | some t =>
          simp only [firstInits, Except.ok.injEq] at hb
          rw [← hb]; exact hi t rfl
        | none =>
          simp only [firstInits, bind_ok, Except.ok.injEq, hnb, Option.getD_some] at hb
          obtain ⟨row, _, rfl⟩ := hb
          simp
      obtain ⟨e1, e2⟩ := groupLoop_sizes hnb (htr c (by simp)) hbl (by simp) hg
      simp only at e1 e2 h2
      obtain ⟨e3, e4⟩ := ih (some b) ms' k' (fun c hc => htr c (by simp [hc]))
        (by intro t ht; simp only [Option.mem_def, Option.some.injEq] at ht; rw [← ht]; exact e1) h2
      refine ⟨fun x hx => ?_, e4⟩
      rcases List.mem_cons.1 hx with rfl | hx
      · exact e2 _ rfl
      · exact e3 x hx
  exact key cs none ms kept htr (by simp) h

/-- The training of the experts one by one gives one set of hyperparameters for each tuning. -/
theorem expertTrainer_length (env : ℕ → ℕ → Env) (dim nStart maxEval : ℕ) (i : ℕ) (ts : List ThetaTuning)
    (r : Thetas) (h : expertTrainer env dim nStart maxEval i ts = .ok r) : r.length = ts.length := by
  simp only [expertTrainer, mapM_ok] at h
  rw [← h.length_eq]; simp

/-- Case of `C96_one_theta_per_cluster`: three clusters, one iteration with clustering and one without. -/
example : session ⟨ThetaTuning.dflt, 1, ⟨true, false, false, false⟩, false, some 3⟩
      [⟨true, true, [[0]], exTrain 1⟩, ⟨false, true, [[0]], exTrain 2⟩] none =
      .ok ([[[1], [1], [1]], [[2], [2], [2]]], some [[1], [1], [1]]) ∧
    ∀ i ts r, exTrain 1 i ts = .ok r → r.length = ts.length := by
  refine ⟨?_, fun i ts r h => ?_⟩
  · simp [session, makeSurrogate, firstInits, egorInit, ThetaTuning.dflt, ThetaTuning.init, assignRow, groupLoop,
      tunings, egorTuning, exTrain, bind, Except.bind, Cfg.mono, List.replicate]
  · simp only [exTrain, Except.ok.injEq] at h
    rw [← h]; simp

/-- C89, part. With several clusters and without cooperative components, the hyperparameters found for each expert
are at least as likely, for the data of its cluster, as the ones it starts from. Missing: failures of the
optimizers. -/
theorem C89_experts_not_worse_partial (cfg : Cfg) (c : Call) (env : ℕ → ℕ → Env) (nll : ℕ → List ℝ → Flt)
    (nStart maxEval : ℕ) (hco : cfg.coego = false) (hcl : c.cluster = false) (ho : c.optimize = true)
    (htr : c.train = expertTrainer env cfg.dim nStart maxEval)
    (henv : ∀ i k, (env i k).nll = nll k ∧ Spec.IsMinimizer (env i k).opt ∧ Spec.NeverFails (env i k).opt ∧
      ∀ l, ((env i k).split l).items = l)
    (hpos : ∀ b ∈ egorBounds cfg.user cfg.dim cfg.spec, 0 < b.1 ∧ b.1 ≤ b.2)
    (inits : Thetas) (hl : ∀ init ∈ inits, init.length = cfg.dim)
    (hin : ∀ init ∈ inits, ∀ i < cfg.dim, ∃ v b, init[i]? = some v ∧
      Spec.perComponent (egorBounds cfg.user cfg.dim cfg.spec) i = some b ∧ b.1 ≤ v ∧ v ≤ b.2)
    (model kept : Thetas) (h : makeSurrogate cfg c (some inits) = .ok (model, kept)) :
    model.length = inits.length ∧ ∀ k init theta, inits[k]? = some init → model[k]? = some theta →
      Spec.cost (nll k theta) ≤ Spec.cost (nll k init) := by
  obtain ⟨best, hb, hg, hne⟩ := makeSurrogate_ok h
  simp only [firstInits, Except.ok.injEq] at hb
  subst hb
  have hm : (c.cluster || (cfg.coego && cfg.mono)) = false := by simp [hcl, hco]
  have key : ∀ (as : List (List ℕ)) (i : ℕ) (m : Option Thetas) (r : Option Thetas × Thetas), as ≠ [] →
      groupLoop cfg c i inits m as = .ok r →
      ∃ j gp, r.1 = some gp ∧ expertTrainer env cfg.dim nStart maxEval j
        (inits.map fun t => .full t (egorBounds cfg.user cfg.dim cfg.spec)) = .ok gp := by
    intro as
    induction as with
    | nil => intro _ _ _ hc; exact absurd rfl hc
    | cons a as ih =>
      intro i m r _ hg
      simp only [groupLoop, bind_ok, hm, Bool.false_eq_true, if_false] at hg
      obtain ⟨gp, hg1, hg2⟩ := hg
      rcases as with _ | ⟨a', as⟩
      · simp only [groupLoop, Except.ok.injEq] at hg2
        subst hg2
        refine ⟨i, gp, rfl, ?_⟩
        rw [htr] at hg1
        have ht : tunings cfg c a inits =
            inits.map fun t => .full t (egorBounds cfg.user cfg.dim cfg.spec) := by
          simp [tunings, hcl, egorTuning, ho, hco]
        rwa [ht] at hg1
      · exact ih _ _ _ (by simp) hg2
  obtain ⟨j, gp, hgp, ht⟩ := key _ _ _ _ hne hg
  simp only [Option.some.injEq] at hgp
  subst hgp
  have hlen := expertTrainer_length _ _ _ _ _ _ _ ht
  rw [List.length_map] at hlen
  refine ⟨hlen, fun k init theta hi hth => ?_⟩
  simp only [expertTrainer, mapM_ok, List.forall₂_iff_get] at ht
  obtain ⟨hki, hi⟩ := List.getElem?_eq_some_iff.1 hi
  obtain ⟨hkt, hth⟩ := List.getElem?_eq_some_iff.1 hth
  have hf := ht.2 k (by simpa using hki) hkt
  simp only [List.get_eq_getElem, List.getElem_zip, List.getElem_map, List.getElem_range, hi, hth] at hf
  have hmem : init ∈ inits := hi ▸ List.getElem_mem hki
  obtain ⟨he1, he2, he3, he4⟩ := henv j k
  have hpc : ∀ i < cfg.dim, init[i]? = Spec.perComponent init i := by
    intro i hid
    unfold Spec.perComponent
    split
    · rename_i hv
      have := hl _ hmem
      rw [show i = 0 by omega]
    · rfl
  obtain ⟨t0, h1, h2, h3⟩ := C89_full_tuning_not_worse_partial (env j k) he2 he4 he3 cfg.dim nStart maxEval init _
    hpos (fun i hid => by rw [← hpc i hid]; exact hin init hmem i hid) theta hf
  have : t0 = init := by
    apply List.ext_getElem?
    intro i
    rcases lt_or_ge i cfg.dim with hid | hid
    · rw [h2 i hid, hpc i hid]
    · rw [List.getElem?_eq_none (by omega), List.getElem?_eq_none (by rw [hl _ hmem]; omega)]
  rw [this, he1] at h3
  exact h3

/-! ## C97 -/

theorem mapM_singleton_ok {α β : Type} {f : α → Except Panic β} {a : α} {r : List β} :
    [a].mapM f = .ok r ↔ ∃ b, f a = .ok b ∧ r = [b] := by
  rw [mapM_ok]
  constructor
  · intro h
    cases h with
    | cons h1 h2 => cases h2; exact ⟨_, h1, rfl⟩
  · rintro ⟨b, h, rfl⟩
    exact .cons h .nil

theorem cooperative_step {cfg : Cfg} {c : Call} {env : ℕ → ℕ → Env} {nStart maxEval i : ℕ} {a : List ℕ}
    {cur : List ℝ} {gp : Thetas} (hco : cfg.coego = true) (hnb : cfg.nb = some 1)
    (ho : c.cluster = true ∨ c.optimize = true) (hl : cur.length = cfg.dim)
    (h : expertTrainer env cfg.dim nStart maxEval i (tunings cfg c a [cur]) = .ok gp) :
    ∃ th, gp = [th] ∧ fitTheta (env i 0) cfg.dim nStart maxEval
      (.part cur (egorBounds cfg.user cfg.dim cfg.spec) (Coego.strip a cfg.dim)) = .ok th := by
  have ht : tunings cfg c a [cur] =
      [.part cur (egorBounds cfg.user cfg.dim cfg.spec) (Coego.strip a cfg.dim)] := by
    simp only [tunings, hnb, Option.isNone_some, Bool.and_false, Bool.false_eq_true, if_false, List.map_cons,
      List.map_nil, egorTuning, hco, if_true, partialTuning, hl]
    rcases ho with ho | ho <;> simp [ho]
  rw [ht] at h
  simp only [expertTrainer, List.length_cons, List.length_nil, zero_add, List.range_one, List.zip_cons_cons,
    List.zip_nil_right] at h
  obtain ⟨th, h1, h2⟩ := mapM_singleton_ok.1 h
  exact ⟨th, h2, h1⟩

/-- What is assumed on the environments: the likelihood is `nll` and the optimizers are minimizers that do not
fail. -/
def GoodEnvs (nll : List ℝ → Flt) (env : ℕ → ℕ → Env) : Prop :=
  ∀ i k, (env i k).nll = nll ∧ Spec.IsMinimizer (env i k).opt ∧ Spec.NeverFails (env i k).opt ∧
    ∀ l, ((env i k).split l).items = l

theorem cooperative_loop {cfg : Cfg} {c : Call} {env : ℕ → ℕ → Env} {nll : List ℝ → Flt} {nStart maxEval : ℕ}
    (hco : cfg.coego = true) (hnb : cfg.nb = some 1) (ho : c.cluster = true ∨ c.optimize = true)
    (htr : c.train = expertTrainer env cfg.dim nStart maxEval) (henv : GoodEnvs nll env)
    (hpos : ∀ b ∈ egorBounds cfg.user cfg.dim cfg.spec, 0 < b.1 ∧ b.1 ≤ b.2) (as : List (List ℕ)) :
    ∀ (i : ℕ) (cur : List ℝ) (model : Option Thetas) (r : Option Thetas × Thetas), cur.length = cfg.dim →
    (as.map (Coego.strip · cfg.dim)).flatten.Nodup →
    (∀ a ∈ as, Spec.OrderOk (egorBounds cfg.user cfg.dim cfg.spec) (Coego.strip a cfg.dim)) →
    (∀ a ∈ as, ∀ i ∈ Coego.strip a cfg.dim, ∃ v b, cur[i]? = some v ∧
      Spec.perComponent (egorBounds cfg.user cfg.dim cfg.spec) i = some b ∧ b.1 ≤ v ∧ v ≤ b.2) →
    groupLoop cfg c i [cur] model as = .ok r → ∃ th, r.2 = [th] ∧ Spec.SameOutside as.flatten cur th ∧
      Spec.cost (nll th) ≤ Spec.cost (nll cur) := by
  induction as with
  | nil =>
    intro i cur model r _ _ _ _ h
    simp only [groupLoop, Except.ok.injEq] at h
    subst h
    exact ⟨cur, rfl, ⟨rfl, fun _ _ => rfl⟩, le_refl _⟩
  | cons a as ih =>
    intro i cur model r hl hnd hord hin h
    simp only [groupLoop, bind_ok] at h
    obtain ⟨gp, hg, h⟩ := h
    rw [htr] at hg
    obtain ⟨th, rfl, hfit⟩ := cooperative_step hco hnb ho hl hg
    rw [if_pos (by simp [hco, Cfg.mono, hnb])] at h
    obtain ⟨he1, he2, he3, he4⟩ := henv i 0
    have hnw := C89_partial_tuning_not_worse_partial (env i 0) he2 he4 he3 cfg.dim nStart maxEval cur hl _ hpos
      (Coego.strip a cfg.dim) (hord a (by simp)) (fun j hj => by
        simp only [Coego.strip, List.mem_filter, decide_eq_true_eq] at hj; exact hj.2)
      (hin a (by simp)) th hfit
    rw [he1] at hnw
    have hso := C48_inactive_unchanged _ _ _ _ _ _ _ _ hfit
    simp only [List.map_cons, List.flatten_cons, List.nodup_append] at hnd
    obtain ⟨th', h1, h2, h3⟩ := ih (i + 1) th (some [th]) r (by rw [hso.1, hl]) hnd.2.1
      (fun b hb => hord b (by simp [hb])) (fun b hb j hj => by
        rw [hso.2 j fun hc => hnd.2.2 j hc j
          (List.mem_flatten.2 ⟨_, List.mem_map_of_mem (f := (Coego.strip · cfg.dim)) hb, hj⟩) rfl]
        exact hin b (by simp [hb]) j hj) h
    refine ⟨th', h1, ⟨by rw [h2.1, hso.1], fun j hj => ?_⟩, h3.trans hnw⟩
    simp only [List.flatten_cons, List.mem_append, not_or] at hj
    rw [h2.2 j hj.2, hso.2 j fun hc => hj.1 (List.mem_of_mem_filter hc)]

/-- C97, part. With cooperative components and one cluster, tuning group after group from hyperparameters within
their bounds gives hyperparameters at least as likely, which are the ones of the surrogate returned and the ones
kept; components that are in no group are unchanged. The groups are disjoint; they are in increasing order, or
the bounds are the same for all components. Missing: several clusters (`C97_refuted_several_clusters`), failures of
the optimizers. -/
theorem C97_cooperative_not_worse_partial (cfg : Cfg) (c : Call) (env : ℕ → ℕ → Env) (nll : List ℝ → Flt)
    (nStart maxEval : ℕ) (hco : cfg.coego = true) (hnb : cfg.nb = some 1)
    (ho : c.cluster = true ∨ c.optimize = true) (htr : c.train = expertTrainer env cfg.dim nStart maxEval)
    (henv : GoodEnvs nll env)
    (hpos : ∀ b ∈ egorBounds cfg.user cfg.dim cfg.spec, 0 < b.1 ∧ b.1 ≤ b.2)
    (hdis : (c.actives.map fun a => a.filter (· < cfg.dim)).flatten.Nodup)
    (hord : ∀ a ∈ c.actives, Spec.OrderOk (egorBounds cfg.user cfg.dim cfg.spec) (a.filter (· < cfg.dim)))
    (init : List ℝ) (hl : init.length = cfg.dim)
    (hin : ∀ i < cfg.dim, ∃ v b, init[i]? = some v ∧
      Spec.perComponent (egorBounds cfg.user cfg.dim cfg.spec) i = some b ∧ b.1 ≤ v ∧ v ≤ b.2)
    (model kept : Thetas) (h : makeSurrogate cfg c (some [init]) = .ok (model, kept)) :
    ∃ theta, model = [theta] ∧ kept = [theta] ∧ Spec.SameOutside c.actives.flatten init theta ∧
      Spec.cost (nll theta) ≤ Spec.cost (nll init) := by
  obtain ⟨best, hb, hg, hne⟩ := makeSurrogate_ok h
  simp only [firstInits, Except.ok.injEq] at hb
  subst hb
  have hm := groupLoop_ok_model hg (by simp [hco, Cfg.mono, hnb]) fun e => absurd e hne
  obtain ⟨th, h1, h2, h3⟩ := cooperative_loop hco hnb ho htr henv hpos c.actives 0 init none _ hl hdis hord
    (fun a _ i hi => hin i (by
      simp only [Coego.strip, List.mem_filter, decide_eq_true_eq] at hi; exact hi.2)) hg
  simp only [Option.some.injEq] at hm h1
  exact ⟨th, by rw [hm, h1], h1, h2, h3⟩

/-- C97. The conditions on groups and bounds hold for the groups drawn by the optimizer, whatever the shuffle, with
the default tuning. -/
theorem C97_random_groups (xdim nCoop : ℕ) (hx : 1 ≤ xdim) (hn : 1 ≤ nCoop) (idx : List ℕ)
    (hp : idx.Perm (List.range xdim)) (spec : CorrSpec) :
    ∃ actives, Coego.randomActivity xdim nCoop idx = .ok actives ∧
      (∀ b ∈ egorBounds ThetaTuning.dflt xdim spec, 0 < b.1 ∧ b.1 ≤ b.2) ∧
      (actives.map fun a => a.filter (· < xdim)).flatten.Nodup ∧
      ∀ a ∈ actives, Spec.OrderOk (egorBounds ThetaTuning.dflt xdim spec) (a.filter (· < xdim)) := by
  obtain ⟨gs, h1, _, h3, _, _⟩ := C27_groups_partition xdim nCoop idx hp hx hn
  have hb : egorBounds ThetaTuning.dflt xdim spec = [specialBounds xdim spec] := by
    simp [egorBounds, ThetaTuning.dflt, ThetaTuning.bounds]
  have hnd : (gs.map fun a => a.filter (· < xdim)).flatten.Nodup := h3.nodup_iff.2 List.nodup_range
  refine ⟨gs, h1, ?_, hnd, ?_⟩
  · rw [hb]
    intro b hmem
    rw [List.mem_singleton] at hmem
    subst hmem
    exact ⟨(C88_special_bounds_valid xdim spec).1, (C88_special_bounds_valid xdim spec).2.le⟩
  · intro a ha
    refine .inr ⟨(List.nodup_flatten.1 hnd).1 _ (List.mem_map_of_mem (f := fun a => a.filter (· < xdim)) ha), ?_⟩
    rw [hb]
    intro b h b' h'
    rw [List.mem_singleton] at h h'
    rw [h, h']

theorem several_loop {cfg : Cfg} {c : Call} {env : ℕ → ℕ → Env} {nStart maxEval : ℕ}
    (hco : cfg.coego = true) (hnb : cfg.nb ≠ some 1) (hcl : c.cluster = false) (ho : c.optimize = true)
    (htr : c.train = expertTrainer env cfg.dim nStart maxEval) {best : Thetas} (as : List (List ℕ)) :
    ∀ (i : ℕ) (model : Option Thetas) (r : Option Thetas × Thetas) (last : List ℕ),
    groupLoop cfg c i best model (as ++ [last]) = .ok r → r.2 = best ∧
      ∃ m, r.1 = some m ∧ List.Forall₂ (Spec.SameOutside last) best m := by
  have hm : (c.cluster || (cfg.coego && cfg.mono)) = false := by
    simp [hcl, hco, Cfg.mono, hnb]
  induction as with
  | nil =>
    intro i model r last h
    simp only [List.nil_append, groupLoop, bind_ok, hm, Bool.false_eq_true, if_false, Except.ok.injEq] at h
    obtain ⟨gp, hg, rfl⟩ := h
    refine ⟨rfl, gp, rfl, ?_⟩
    rw [htr] at hg
    simp only [expertTrainer, tunings, hcl, Bool.false_and, Bool.false_eq_true, if_false] at hg
    rw [mapM_ok, List.forall₂_iff_get] at hg
    obtain ⟨hl, hg⟩ := hg
    simp only [List.length_zip, List.length_map, List.length_range, min_self] at hl
    rw [List.forall₂_iff_get]
    refine ⟨hl, fun k k1 k2 => ?_⟩
    have := hg k (by simpa using k1) k2
    simp only [List.get_eq_getElem, List.getElem_zip, List.getElem_map, egorTuning, ho, hco, if_true,
      partialTuning] at this
    have hso := C48_inactive_unchanged _ _ _ _ _ _ _ _ this
    exact ⟨hso.1, fun j hj => hso.2 j fun hc => hj (List.mem_of_mem_filter hc)⟩
  | cons a as ih =>
    intro i model r last h
    simp only [List.cons_append, groupLoop, bind_ok, hm, Bool.false_eq_true, if_false] at h
    obtain ⟨gp, _, h⟩ := h
    exact ih _ _ _ _ h

/-- C97 fails with several clusters. Out of the iterations with clustering, the result of the tuning of each group
is dropped: only the last group is tuned in the surrogate returned, and nothing is kept for the next iteration. -/
theorem C97_refuted_several_clusters (cfg : Cfg) (c : Call) (env : ℕ → ℕ → Env) (nStart maxEval : ℕ)
    (hco : cfg.coego = true) (hnb : cfg.nb ≠ some 1) (hcl : c.cluster = false) (ho : c.optimize = true)
    (htr : c.train = expertTrainer env cfg.dim nStart maxEval) (groups : List (List ℕ)) (last : List ℕ)
    (ha : c.actives = groups ++ [last]) (inits model kept : Thetas)
    (h : makeSurrogate cfg c (some inits) = .ok (model, kept)) :
    kept = inits ∧ List.Forall₂ (Spec.SameOutside last) inits model := by
  obtain ⟨best, hb, hg, _⟩ := makeSurrogate_ok h
  simp only [firstInits, Except.ok.injEq] at hb
  subst hb
  rw [ha] at hg
  obtain ⟨h1, m, h2, h3⟩ := several_loop hco hnb hcl ho htr groups 0 none _ last hg
  simp only [Option.some.injEq] at h2
  exact ⟨h1, by rw [h2]; exact h3⟩

theorem exFit (k : ℕ) (hk : k < 2) : fitTheta (exEnv fun _ => .fin 0) 2 0 1000 (.part [1, 1] [(1 / 100, 10)] [k]) =
    .ok [1, 1] := by
  have h1 : log10 (1 / 100) ≤ 0 := by
    rw [← log10_one]; exact (log10_lt (by norm_num) (by norm_num)).le
  have h2 : (0 : ℝ) ≤ log10 10 := by
    rw [← log10_one]; exact (log10_lt (by norm_num) (by norm_num)).le
  have hc : (clampTo [log10 1] [(log10 (1 / 100), log10 10)]).map pow10 = [1] := by
    rw [log10_one]; simp only [clampTo, List.zipWith_cons_cons, List.zipWith_nil_right, List.map_cons, List.map_nil]
    rw [min_eq_left (by assumption), max_eq_right (by assumption), pow10_zero]
  have hab : activeBounds [((1 : ℝ) / 100, (10 : ℝ)), (1 / 100, 10)] [k] = [(1 / 100, 10)] := by
    interval_cases k <;> simp [activeBounds, List.range_succ]
  have hsel : select [(1 : ℝ), 1] [k] = .ok [1] := by
    interval_cases k <;> simp [select, bind, Except.bind]
  have has : Coego.assign [(1 : ℝ), 1] [(k, 1)] = .ok [1, 1] := by
    interval_cases k <;> simp [Coego.assign]
  have key := exEnv_optimizeActive (fun _ => .fin 0) 2 [1, 1] [(1 / 100, 10)] [(1 / 100, 10), (1 / 100, 10)] [k]
    [1] [1, 1] (by simp [expand]) hsel
    (by rw [hab]; simp only [List.map_cons, List.map_nil] at hc ⊢; rw [hc]; simpa using has)
  rw [hab] at key
  simp only [List.map_cons, List.map_nil] at hc key
  rw [hc] at key
  have hx : expand 2 [(1 : ℝ), 1] = .ok [1, 1] := by simp [expand]
  simp only [fitTheta, hx, bind, Except.bind, key]
  simpa [Flt.lt, Flt.cmp] using has

/-- Case of `C97_cooperative_not_worse_partial`: two groups of one component each, with a marker, default tuning. -/
example : makeSurrogate ⟨.dflt, 2, ⟨true, false, false, false⟩, true, some 1⟩
    ⟨false, true, [[1, 2], [0, 2]], expertTrainer (fun _ _ => exEnv fun _ => .fin 0) 2 0 1000⟩ (some [[1, 1]]) =
      .ok ([[1, 1]], [[1, 1]]) ∧
    GoodEnvs (fun _ => .fin 0) (fun _ _ => exEnv fun _ => .fin 0) := by
  refine ⟨?_, fun _ _ => ⟨rfl, clampOpt_isMinimizer, clampOpt_neverFails, fun _ => rfl⟩⟩
  have hb : egorBounds ThetaTuning.dflt 2 ⟨true, false, false, false⟩ = [(1 / 100, 10)] := by
    simp [egorBounds, ThetaTuning.dflt, ThetaTuning.bounds, C88_low_dimension]
  have h0 := exFit 0 (by norm_num)
  have h1 := exFit 1 (by norm_num)
  rw [one_div] at h0 h1 hb
  simp [makeSurrogate, firstInits, groupLoop, tunings, egorTuning, partialTuning, hb, Coego.strip, expertTrainer,
    bind, Except.bind, Cfg.mono, h0, h1, pure, Except.pure]

end Verif.Props
