import Verif.Model.Resume
import Verif.Lemmas.Run
import Verif.Lemmas.F64
import Verif.Props.DoeF64
import Verif.Props.RunData

/-!
# C148: a run continued from a checkpoint is the uninterrupted run
-/

set_option autoImplicit false

namespace Verif.Props

open Verif Run Resume

/-! ## The loop -/

/-- The same state with another maximum number of iterations. -/
def setMax (k : ℕ) (s : St) : St := { s with maxIters := k }

theorem egoIteration_setMax (cfg : Cfg) (P : Prob) (o : Oracle) (k : ℕ) (s : St) :
    egoIteration cfg P o (setMax k s) = (egoIteration cfg P o s).map (setMax k) := by
  simp only [egoIteration, egoStep, setMax, bind, Except.bind, Except.map]
  cases egoLoop cfg P o.sel s.data 0 s.retries with
  | error e => rfl
  | ok l =>
    cases l with
    | noMore d => rfl
    | added d n =>
      dsimp only
      cases evalObj cfg P (d.x.drop (d.x.length - n)) with
      | error e => rfl
      | ok ev =>
        dsimp only
        cases ev.2.mapM (assignRow d.y.ncols) with
        | error e => rfl
        | ok vals =>
          dsimp only
          generalize FindResult.findBestFrom _ _ _ _ _ = B
          cases B with
          | error e => rfl
          | ok b =>
            dsimp only
            generalize updFeasible _ _ _ _ = F
            cases F <;> rfl

theorem tregoStep_setMax (cfg : Cfg) (P : Prob) (x : List ℚ) (k : ℕ) (s : St) :
    tregoStep cfg P x (setMax k s) = (tregoStep cfg P x s).map (setMax k) := by
  simp only [tregoStep, setMax, bind, Except.bind, Except.map]
  cases evalObj cfg P [x] with
  | error e => rfl
  | ok ev =>
    dsimp only
    cases evalFcstr cfg P x with
    | error e => rfl
    | ok c =>
      dsimp only
      cases updateData s.data 0 (ev.2.map fun y => ⟨x, y, c⟩) with
      | error e => rfl
      | ok u =>
        dsimp only
        split_ifs
        · rfl
        · cases FindResult.findBestFrom s.best (u.1.y.rows.length - 1) u.1.y u.1.c cfg.tol with
          | error e => rfl
          | ok b =>
            dsimp only
            cases updFeasible s.feasible u.1 b cfg.tol <;> rfl

theorem tregoIteration_setMax (cfg : Cfg) (P : Prob) (o : Oracle) (k : ℕ) (s : St) :
    tregoIteration cfg P o (setMax k s) = (tregoIteration cfg P o s).map (setMax k) := by
  have hl : lastIterSuccess (setMax k s) = lastIterSuccess s := rfl
  simp only [tregoIteration, hl]
  cases lastIterSuccess s with
  | error e => rfl
  | ok success =>
    have h1 : ∀ q : ℚ, ({ setMax k s with sigma := q } : St) = setMax k { s with sigma := q } := fun _ => rfl
    have h2 : nextSigma cfg success (setMax k s) = nextSigma cfg success s := rfl
    have h3 : isGlobalPhase cfg success (setMax k s) = isGlobalPhase cfg success s := rfl
    simp only [bind, Except.bind, h1, h2, h3, egoIteration_setMax, tregoStep_setMax]
    split_ifs
    · cases egoIteration cfg P o { s with sigma := nextSigma cfg success s } <;> rfl
    · cases tregoStep cfg P o.loc { s with sigma := nextSigma cfg success s } <;> rfl

theorem record_setMax (cfg : Cfg) (k : ℕ) (s : St) : record cfg (setMax k s) = (record cfg s).map (setMax k) := by
  unfold record
  by_cases h : cfg.recorder
  · rw [if_pos h, if_pos h]
    by_cases h' : s.added < s.prevAdded ∨ s.data.x.length < s.added - s.prevAdded
    · have h'' : (setMax k s).added < (setMax k s).prevAdded ∨
          (setMax k s).data.x.length < (setMax k s).added - (setMax k s).prevAdded := h'
      simp only [if_pos h', if_pos h'']
      rfl
    · have h'' : ¬ ((setMax k s).added < (setMax k s).prevAdded ∨
          (setMax k s).data.x.length < (setMax k s).added - (setMax k s).prevAdded) := h'
      simp only [if_neg h', if_neg h'']
      rfl
  · rw [if_neg h, if_neg h]
    rfl

theorem update_setMax (k : ℕ) (s : St) : update (setMax k s) = (update s).map (setMax k) := by
  simp only [update, setMax, bind, Except.bind]
  cases row s.data.y s.best with
  | error e => rfl
  | ok c =>
    dsimp only
    cases s.data.x[s.best]? <;> rfl

theorem turn_setMax (cfg : Cfg) (P : Prob) (o : Oracle) (k : ℕ) (s : St) :
    turn cfg P o (setMax k s) = (turn cfg P o s).map (setMax k) := by
  have hn : nextIter cfg P o (setMax k s) = (nextIter cfg P o s).map (setMax k) := by
    simp only [nextIter, tregoIteration_setMax, egoIteration_setMax]
    split_ifs
    · cases tregoIteration cfg P o s with
      | error e => rfl
      | ok a => exact record_setMax cfg k a
    · cases egoIteration cfg P o s with
      | error e => rfl
      | ok a => exact record_setMax cfg k a
  simp only [turn, hn]
  cases nextIter cfg P o s with
  | error e => rfl
  | ok a =>
    simp only [bind, Except.bind, Except.map, update_setMax]
    cases update a <;> rfl

theorem batchLoop_cfgMax (cfg : Cfg) (m : ℕ) (P : Prob) (o : ℕ → Option Cand) (n : ℕ) : ∀ i,
    batchLoop { cfg with maxIters := m } P o i n = batchLoop cfg P o i n := by
  induction n with
  | zero => exact fun i => rfl
  | succ n ih =>
    intro i
    simp only [batchLoop, ih]
    rfl

theorem egoLoop_cfgMax (cfg : Cfg) (m : ℕ) (P : Prob) (sel : ℕ → ℕ → Option Cand) (r : ℕ) : ∀ d k,
    egoLoop { cfg with maxIters := m } P sel d k r = egoLoop cfg P sel d k r := by
  induction r with
  | zero => exact fun d k => rfl
  | succ r ih =>
    intro d k
    simp only [egoLoop, ih, selectNextPoints, batchLoop_cfgMax]

theorem turn_cfgMax (cfg : Cfg) (m : ℕ) (P : Prob) (o : Oracle) (s : St) :
    turn { cfg with maxIters := m } P o s = turn cfg P o s := by
  have h1 : ∀ s, egoIteration { cfg with maxIters := m } P o s = egoIteration cfg P o s := by
    intro s
    simp only [egoIteration, egoStep, egoLoop_cfgMax]
    rfl
  have h2 : ∀ s, tregoIteration { cfg with maxIters := m } P o s = tregoIteration cfg P o s := by
    intro s
    simp only [tregoIteration, h1]
    rfl
  simp only [turn, nextIter, h1, h2]
  rfl

variable {cfg : Cfg} {P : Prob} {env : St → Oracle}

theorem exec_cfgMax (m n : ℕ) : ∀ s, exec { cfg with maxIters := m } P env n s = exec cfg P env n s := by
  induction n with
  | zero => exact fun s => rfl
  | succ n ih =>
    intro s
    have hst : stops { cfg with maxIters := m } s = stops cfg s := rfl
    simp only [exec, turn_cfgMax, hst]
    split_ifs
    · rfl
    · cases turn cfg P (env s) s with
      | error e => rfl
      | ok a => exact ih a

theorem exec_stopped {s : St} (h : stops cfg s = true) (n : ℕ) : exec cfg P env n s = .ok s := by
  cases n <;> simp [exec, h]

theorem exec_add (a b : ℕ) : ∀ s, exec cfg P env (a + b) s = exec cfg P env a s >>= exec cfg P env b := by
  induction a with
  | zero => intro s; simp [exec, bind, Except.bind]
  | succ a ih =>
    intro s
    rw [Nat.add_right_comm]
    simp only [exec]
    split_ifs with h
    · exact (exec_stopped h b).symm
    · cases turn cfg P (env s) s with
      | error e => rfl
      | ok s1 => exact ih s1

/-- Iterations done: the budget is kept, and either all the iterations are done or the run has stopped. -/
theorem exec_ok (n : ℕ) : ∀ {s s' : St}, exec cfg P env n s = .ok s' → s'.maxIters = s.maxIters ∧
    s.iter ≤ s'.iter ∧ (s'.iter = s.iter + n ∨ stops cfg s' = true) := by
  induction n with
  | zero =>
    intro s s' h
    simp only [exec, Except.ok.injEq] at h
    subst h; exact ⟨rfl, le_rfl, .inl rfl⟩
  | succ n ih =>
    intro s s' h
    simp only [exec] at h
    split_ifs at h with hst
    · simp only [Except.ok.injEq] at h
      subst h; exact ⟨rfl, le_rfl, .inr hst⟩
    · obtain ⟨s1, h1, h2⟩ := bind_ok.1 h
      obtain ⟨xs, us, ht⟩ := turn_spec h1
      obtain ⟨e1, e2, e3⟩ := ih h2
      rw [ht.maxIters] at e1
      rw [ht.iter] at e2 e3
      exact ⟨e1, by omega, e3.imp_left (by omega)⟩

theorem finish_stops {s s' : St} (h : finish cfg P env s = .ok s') : stops cfg s' = true := by
  obtain ⟨h1, h2, h3⟩ := exec_ok _ h
  rcases h3 with h3 | h3
  · simp only [stops, h1, Bool.or_eq_true, decide_eq_true_eq]
    left; right; omega
  · exact h3

/-- More iterations than needed change nothing. -/
theorem exec_finish {s : St} {n : ℕ} (hn : s.maxIters - s.iter ≤ n) : exec cfg P env n s = finish cfg P env s := by
  obtain ⟨k, rfl⟩ := Nat.exists_eq_add_of_le hn
  rw [exec_add]
  show finish cfg P env s >>= _ = _
  cases h : finish cfg P env s with
  | error e => rfl
  | ok s' => exact exec_stopped (finish_stops h) k

/-- The numbers in a value. -/
def fltNumbers : Flt → List ℚ
  | .fin q => [q]
  | _ => []

/-- The numbers in a sample of the recorder. -/
def sampleNumbers (s : Sample) : List ℚ := s.loc ++ fltNumbers s.val

/-- All the (finite) numbers of a state. -/
def numbers (s : St) : List ℚ :=
  s.data.x.flatten ++ s.data.y.rows.flatten.flatMap fltNumbers ++ s.data.c.rows.flatten.flatMap fltNumbers ++ [s.sigma] ++
    (s.bestParam.getD []) ++ (s.bestCost.getD []).flatMap fltNumbers ++ s.initial.flatMap sampleNumbers ++
    s.history.flatten.flatMap sampleNumbers

theorem rbFlt_eq {rb : ℚ → ℚ} {v : Flt} (h : ∀ q ∈ fltNumbers v, rb q = q) : rbFlt rb v = v := by
  cases v with
  | fin q => simp only [rbFlt, h q (by simp [fltNumbers])]
  | _ => rfl

theorem map_same {α : Type} {f : α → α} {l : List α} (h : ∀ a ∈ l, f a = a) : l.map f = l := by
  conv_rhs => rw [← List.map_id l]
  exact List.map_congr_left fun a ha => h a ha

theorem rbMat_eq {rb : ℚ → ℚ} {m : Mat Flt} (h : ∀ q ∈ m.rows.flatten.flatMap fltNumbers, rb q = q) : rbMat rb m = m := by
  unfold rbMat
  rw [map_same fun r hr => map_same fun v hv => rbFlt_eq fun q hq => h q ?_]
  exact List.mem_flatMap.2 ⟨v, List.mem_flatten.2 ⟨r, hr, hv⟩, hq⟩

theorem rbSample_eq {rb : ℚ → ℚ} {s : Sample} (h : ∀ q ∈ sampleNumbers s, rb q = q) : rbSample rb s = s := by
  unfold rbSample
  rw [map_same fun v hv => h v (by simp [sampleNumbers, hv]), rbFlt_eq fun q hq => h q (by simp [sampleNumbers, hq])]

theorem reload_eq {rb : ℚ → ℚ} {s : St} (h : ∀ q ∈ numbers s, rb q = q) : reload rb s = s := by
  have e1 : s.data.x.map (·.map rb) = s.data.x := map_same fun r hr => map_same fun v hv => h v (by
    simp only [numbers, List.mem_append]
    exact .inl (.inl (.inl (.inl (.inl (.inl (.inl (List.mem_flatten.2 ⟨r, hr, hv⟩))))))))
  have e2 : rbMat rb s.data.y = s.data.y := rbMat_eq fun q hq => h q (by simp only [numbers, List.mem_append]; tauto)
  have e3 : rbMat rb s.data.c = s.data.c := rbMat_eq fun q hq => h q (by simp only [numbers, List.mem_append]; tauto)
  have e4 : rb s.sigma = s.sigma := h _ (by simp [numbers])
  have e5 : s.bestParam.map (·.map rb) = s.bestParam := by
    cases hb : s.bestParam with
    | none => rfl
    | some p =>
      simp only [Option.map_some]
      rw [map_same fun v hv => h v (by simp [numbers, hb, hv])]
  have e6 : s.bestCost.map (·.map (rbFlt rb)) = s.bestCost := by
    cases hb : s.bestCost with
    | none => rfl
    | some p =>
      simp only [Option.map_some]
      rw [map_same fun v hv => rbFlt_eq fun q hq => h q ?_]
      have : q ∈ (s.bestCost.getD []).flatMap fltNumbers := List.mem_flatMap.2 ⟨v, by simp [hb, hv], hq⟩
      simp only [numbers, List.mem_append]; tauto
  have e7 : s.initial.map (rbSample rb) = s.initial := map_same fun v hv => rbSample_eq fun q hq => h q (by
    have : q ∈ s.initial.flatMap sampleNumbers := List.mem_flatMap.2 ⟨v, hv, hq⟩
    simp only [numbers, List.mem_append]; tauto)
  have e8 : s.history.map (·.map (rbSample rb)) = s.history := map_same fun r hr => map_same fun v hv =>
    rbSample_eq fun q hq => h q (by
      have : q ∈ s.history.flatten.flatMap sampleNumbers := List.mem_flatMap.2 ⟨v, List.mem_flatten.2 ⟨r, hr, hv⟩, hq⟩
      simp only [numbers, List.mem_append]; tauto)
  simp only [reload, e1, e2, e3, e4, e5, e6, e7, e8]

theorem finish_exec {s s' : St} {n : ℕ} (h : exec cfg P env n s = .ok s') : finish cfg P env s' = finish cfg P env s := by
  obtain ⟨h1, h2, h3⟩ := exec_ok n h
  rcases le_total (s.maxIters - s.iter) n with hn | hn
  · have hf := exec_finish (cfg := cfg) (P := P) (env := env) hn
    rw [h] at hf
    rw [← hf]
    exact exec_stopped (finish_stops hf.symm) _
  · obtain ⟨k, hk⟩ := Nat.exists_eq_add_of_le hn
    have e : finish cfg P env s = exec cfg P env k s' := by
      unfold finish
      rw [hk, exec_add, h]
      rfl
    rw [e]
    rcases h3 with h3 | h3
    · exact (exec_finish (by omega)).symm
    · unfold finish
      rw [exec_stopped h3, exec_stopped h3]

/-- C148. A run interrupted after any number of iterations, then started again, gives the run without interruption, if
the numbers of its state are read back exactly. -/
theorem C148_interrupted_partial (cfg : Cfg) (P : Prob) (env : St → Oracle) (rb : ℚ → ℚ) (s s' : St) (n : ℕ)
    (h : exec cfg P env n s = .ok s') (hrb : ∀ q ∈ numbers s', rb q = q) :
    resume cfg P env rb .enabled s' = finish cfg P env s := by
  unfold resume
  rw [reload_eq hrb]
  exact finish_exec h

theorem finish_setMax (henv : ∀ s k, env (setMax k s) = env s) (K n : ℕ) : ∀ {s : St}, s.maxIters ≤ K →
    (exec cfg P env n s >>= fun s' => finish cfg P env (setMax K s')) = finish cfg P env (setMax K s) := by
  induction n with
  | zero => exact fun _ => rfl
  | succ n ih =>
    intro s hK
    simp only [exec]
    split_ifs with hst
    · rfl
    · simp only [stops, Bool.or_eq_true, decide_eq_true_eq, not_or, not_le] at hst
      obtain ⟨⟨hc, hi⟩, ht⟩ := hst
      have hst' : ¬ stops cfg (setMax K s) = true := by
        simp only [stops, Bool.or_eq_true, decide_eq_true_eq, not_or, not_le]
        exact ⟨⟨hc, by simp only [setMax]; omega⟩, ht⟩
      have hK' : (setMax K s).maxIters - (setMax K s).iter = (K - s.iter - 1) + 1 := by simp only [setMax]; omega
      conv_rhs => rw [finish, hK', exec, if_neg hst', henv, turn_setMax]
      cases h1 : turn cfg P (env s) s with
      | error e => rfl
      | ok s1 =>
        obtain ⟨xs, us, htn⟩ := turn_spec h1
        have e : ((Except.ok s1 >>= exec cfg P env n) >>= fun s' => finish cfg P env (setMax K s')) =
            (exec cfg P env n s1 >>= fun s' => finish cfg P env (setMax K s')) := rfl
        rw [e, ih (by rw [htn.maxIters]; exact hK)]
        show finish cfg P env (setMax K s1) = exec cfg P env (K - s.iter - 1) (setMax K s1)
        have : K - s.iter - 1 = (setMax K s1).maxIters - (setMax K s1).iter := by
          simp only [setMax, htn.iter]; omega
        rw [this]
        rfl

theorem init_cfgMax (cfg : Cfg) (m : ℕ) (P : Prob) (doe : Doe) :
    init { cfg with maxIters := m } P doe = (init cfg P doe).map (setMax m) := by
  unfold init
  have hb : ∀ {α β : Type} (x : Except Panic α) (f : α → Except Panic β) (g : β → β),
      (x >>= f).map g = x >>= fun a => (f a).map g := fun x f g => by cases x <;> rfl
  rw [hb]
  congr 1
  funext ⟨x, y, calls⟩
  dsimp only
  rw [hb]
  congr 1
  funext c
  rw [hb]
  congr 1
  funext b
  rw [hb]
  congr 1
  funext fe
  rw [← update_setMax]
  rfl

/-- C148. A finished run continued with `k` more iterations is the run with `k` more iterations in its budget, if the
numbers of its state are read back exactly. -/
theorem C148_extended_partial (cfg : Cfg) (P : Prob) (env : St → Oracle) (henv : ∀ s k, env { s with maxIters := k } = env s)
    (rb : ℚ → ℚ) (doe : Doe) (k : ℕ) (s' : St) (h : start cfg P env doe = .ok s') (hrb : ∀ q ∈ numbers s', rb q = q) :
    resume cfg P env rb (.extended k) s' = start { cfg with maxIters := cfg.maxIters + k } P env doe := by
  unfold resume
  rw [reload_eq hrb]
  simp only [start] at h ⊢
  obtain ⟨s0, h0, h1⟩ := bind_ok.1 h
  have hm0 : s0.maxIters = cfg.maxIters := by
    have := init_cfgMax cfg cfg.maxIters P doe
    rw [show ({ cfg with maxIters := cfg.maxIters } : Cfg) = cfg from rfl, h0] at this
    simp only [Except.map, Except.ok.injEq] at this
    rw [this]; rfl
  have hm : s'.maxIters = cfg.maxIters := by rw [(exec_ok _ h1).1, hm0]
  rw [init_cfgMax, h0]
  have key := finish_setMax (cfg := cfg) (P := P) (env := env) henv (cfg.maxIters + k) (s0.maxIters - s0.iter) (s := s0)
    (by omega)
  rw [show exec cfg P env (s0.maxIters - s0.iter) s0 = .ok s' from h1] at key
  have e : extend (.extended k) s' = setMax (cfg.maxIters + k) s' := by simp only [extend, setMax, hm]
  rw [e]
  refine Eq.trans key ?_
  exact (exec_cfgMax (cfg := cfg) (P := P) (env := env) (cfg.maxIters + k) _ _).symm

/-- C148. A finished run started again without extension does nothing more, whatever the budget in the new
configuration: that of the file is used. -/
theorem C148_finished (cfg : Cfg) (P : Prob) (env : St → Oracle) (rb : ℚ → ℚ) (doe : Doe) (m : ℕ) (s' : St)
    (h : start cfg P env doe = .ok s') (hrb : ∀ q ∈ numbers s', rb q = q) :
    resume { cfg with maxIters := m } P env rb .enabled s' = .ok s' := by
  unfold resume
  rw [reload_eq hrb]
  obtain ⟨s0, h0, h1⟩ := bind_ok.1 h
  have := finish_stops h1
  exact exec_stopped (cfg := { cfg with maxIters := m }) this _

/-! ## Numbers which are not read back -/

theorem exec_data (n : ℕ) : ∀ {s s' : St}, exec cfg P env n s = .ok s' → s.data.x <+: s'.data.x ∧
    s.data.y.rows <+: s'.data.y.rows ∧ s.data.c.rows <+: s'.data.c.rows := by
  induction n with
  | zero =>
    intro s s' h
    simp only [exec, Except.ok.injEq] at h
    subst h; exact ⟨List.prefix_rfl, List.prefix_rfl, List.prefix_rfl⟩
  | succ n ih =>
    intro s s' h
    simp only [exec] at h
    split_ifs at h with hst
    · simp only [Except.ok.injEq] at h
      subst h; exact ⟨List.prefix_rfl, List.prefix_rfl, List.prefix_rfl⟩
    · obtain ⟨s1, h1, h2⟩ := bind_ok.1 h
      obtain ⟨xs, us, ht⟩ := turn_spec h1
      obtain ⟨e1, e2, e3⟩ := ih h2
      obtain ⟨ys, hy, _⟩ := ht.ext.y
      obtain ⟨cs, hc, _⟩ := ht.ext.c
      rw [ht.ext.x] at e1
      rw [hy] at e2
      rw [hc] at e3
      exact ⟨(List.prefix_append _ _).trans e1, (List.prefix_append _ _).trans e2, (List.prefix_append _ _).trans e3⟩

theorem prefix_same {α : Type} {a b l : List α} (ha : a <+: l) (hb : b <+: l) (h : a.length = b.length) : a = b := by
  obtain ⟨t, rfl⟩ := ha
  obtain ⟨t', e⟩ := hb
  exact (List.append_inj e h.symm).1.symm

/-- C148, refuted. If a number of the data is not read back exactly, the run started again does not end with the data of
the uninterrupted run, whatever follows. -/
theorem C148_refuted_changed_number (cfg : Cfg) (P : Prob) (env : St → Oracle) (rb : ℚ → ℚ) (s s' : St) (n : ℕ)
    (h : exec cfg P env n s = .ok s') (q : ℚ) (hq : rb q ≠ q)
    (hin : q ∈ s'.data.x.flatten ∨ Flt.fin q ∈ s'.data.y.rows.flatten ∨ Flt.fin q ∈ s'.data.c.rows.flatten) (mode : Persist.Mode)
    (f f' : St) (hf : finish cfg P env s = .ok f) (hf' : resume cfg P env rb mode s' = .ok f') : f'.data ≠ f.data := by
  intro he
  rw [← finish_exec h] at hf
  obtain ⟨a1, a2, a3⟩ := exec_data _ hf
  obtain ⟨b1, b2, b3⟩ := exec_data _ hf'
  have hx : ∀ mode, (extend mode (reload rb s')).data = (reload rb s').data := fun mode => by cases mode <;> rfl
  rw [he, hx] at b1 b2 b3
  have c1 := prefix_same b1 a1 (by simp [reload])
  have c2 := prefix_same b2 a2 (by simp [reload, rbMat])
  have c3 := prefix_same b3 a3 (by simp [reload, rbMat])
  simp only [reload, rbMat] at c1 c2 c3
  have hfix : ∀ {α : Type} {g : α → α} {m : List (List α)}, m.map (·.map g) = m → ∀ v ∈ m.flatten, g v = v := by
    intro α g m hm v hv
    obtain ⟨r, hr, hv⟩ := List.mem_flatten.1 hv
    obtain ⟨i, hi, rfl⟩ := List.getElem_of_mem hr
    obtain ⟨j, hj, rfl⟩ := List.getElem_of_mem hv
    have h1 : (m.map (·.map g))[i]? = m[i]? := by rw [hm]
    rw [List.getElem?_map, List.getElem?_eq_getElem hi, Option.map_some, Option.some.injEq] at h1
    have h2 : (m[i].map g)[j]? = m[i][j]? := by rw [h1]
    rw [List.getElem?_map, List.getElem?_eq_getElem hj, Option.map_some, Option.some.injEq] at h2
    exact h2
  rcases hin with hin | hin | hin
  · exact hq (hfix c1 q hin)
  · have := hfix c2 _ hin
    simp only [rbFlt, Flt.fin.injEq] at this
    exact hq this
  · have := hfix c3 _ hin
    simp only [rbFlt, Flt.fin.injEq] at this
    exact hq this

/-! Cases: a run of two iterations, interrupted after the first, then extended by one; the second point of an iteration
is a function of the number of iterations done. Numbers read back exactly, or with one decimal. -/

/-- Choices of the example. -/
def ckEnv (s : St) : Oracle := exOracle 5 (1 / (s.iter + 3))

example : ((init { exCfg with maxIters := 2 } exProb (.points [[5], [3]])) >>= exec exCfg exProb ckEnv 1 >>= fun s =>
      (resume exCfg exProb ckEnv id .enabled s).map fun s' => (s.data.x, s.iter, s'.data.x, s'.iter))
    = .ok ([[5], [3], [1/3]], 1, [[5], [3], [1/3], [1/4]], 2) := by decide +kernel

example : ((start { exCfg with maxIters := 2 } exProb ckEnv (.points [[5], [3]])) >>= fun s =>
      (resume exCfg exProb ckEnv id (.extended 1) s).map fun s' => (s'.data.x, s'.iter))
    = .ok ([[5], [3], [1/3], [1/4], [1/5]], 3) ∧
    ((start { exCfg with maxIters := 3 } exProb ckEnv (.points [[5], [3]])).map fun s' => (s'.data.x, s'.iter))
    = .ok ([[5], [3], [1/3], [1/4], [1/5]], 3) ∧ ∀ s k, ckEnv { s with maxIters := k } = ckEnv s :=
  ⟨by decide +kernel, by decide +kernel, fun _ _ => rfl⟩

example : ((start { exCfg with maxIters := 2 } exProb ckEnv (.points [[5], [3]])) >>= fun s =>
      (resume exCfg exProb ckEnv (fun q => ⌊q * 10⌋ / 10) .enabled s).map fun s' => s'.data.x)
    = .ok [[5], [3], [3/10], [1/5]] := by decide +kernel

section Decimals

open F64 Spec

/-- The significand multiplied or divided by the power of ten, before the test of the range. -/
noncomputable def scaled (sig : ℕ) (e : ℤ) : ℝ :=
  if 0 ≤ e then rnd (rnd sig * rnd (10 ^ e.natAbs)) else rnd (rnd sig / rnd (10 ^ e.natAbs))

theorem readNum_eq (sig : ℕ) {e : ℤ} (he : e.natAbs ≤ 308) (hr : 0 ≤ e → scaled sig e < 2 ^ 1024) :
    readNum sig e = some (scaled sig e) := by
  rw [readNum, scale, dif_pos he]
  unfold scaled at hr ⊢
  split_ifs with h0 h1
  · rfl
  · exact absurd (by rw [if_pos h0] at hr; exact hr h0) h1
  · rfl

theorem isF64_pow_ten {k : ℕ} (h : k ≤ 22) : IsF64 ((10 : ℝ) ^ k) := by
  refine ⟨5 ^ k, k, ?_, by omega, ?_⟩
  · rw [abs_of_pos (by positivity)]
    exact lt_of_le_of_lt (pow_le_pow_right₀ (by norm_num) h) (by norm_num)
  · rw [show (10 : ℝ) = 5 * 2 by norm_num, mul_pow]
    push_cast
    rw [zpow_natCast]

/-- C148. Numbers of the file with at most 15 digits, and not too large or small, are read back exactly: the number read
is the nearest to the decimal written. -/
theorem C148_short_numbers_partial (sig : ℕ) (e : ℤ) (h : sig ≤ 2 ^ 53) (he : e.natAbs ≤ 22) :
    ∃ r, readNum sig e = some r ∧ IsNearestF64 (sig * (10 : ℝ) ^ e) r ∧
      ∀ x : ℝ, IsF64 x → (∀ y, IsF64 y → y ≠ x → |x - sig * (10 : ℝ) ^ e| < |y - sig * (10 : ℝ) ^ e|) → r = x := by
  have hr : readNum sig e = some (rnd (sig * (10 : ℝ) ^ e)) := by
    have hs : scaled sig e = rnd (sig * (10 : ℝ) ^ e) := by
      rw [scaled, rnd_of_isF64 (isF64_nat h), rnd_of_isF64 (isF64_pow_ten he)]
      split_ifs with h0
      · congr 2
        rw [← zpow_natCast, Int.natAbs_of_nonneg h0]
      · congr 1
        rw [div_eq_mul_inv, ← zpow_natCast, ← zpow_neg]
        congr 2
        omega
    rw [readNum_eq sig (by omega), hs]
    intro _
    rw [hs]
    have hb : (sig : ℝ) * 10 ^ e ≤ 2 ^ (200 : ℤ) := by
      have h1 : (10 : ℝ) ^ e ≤ 10 ^ (22 : ℤ) := zpow_le_zpow_right₀ (by norm_num) (by omega)
      have h2 : (sig : ℝ) ≤ 2 ^ 53 := by exact_mod_cast h
      calc (sig : ℝ) * 10 ^ e ≤ 2 ^ 53 * 10 ^ (22 : ℤ) := mul_le_mul h2 h1 (by positivity) (by positivity)
        _ ≤ 2 ^ (200 : ℤ) := by norm_num
    refine lt_of_le_of_lt (rnd_le (isF64_zpow (by norm_num)) hb) ?_
    rw [← zpow_natCast]
    exact zpow_lt_zpow_right₀ (by norm_num) (by norm_num)
  refine ⟨_, hr, rnd_nearest _, fun x hx hu => ?_⟩
  by_contra hne
  have h1 := hu _ (rnd_isF64 _) hne
  have h2 := (rnd_nearest (sig * (10 : ℝ) ^ e)).2 x hx
  linarith

/-- C148, refuted. For numbers between 1000 and 1024 written with 17 digits, the last one odd, the number read back is
not the number written (as soon as the decimal is within 0.43 units of its last digit). -/
theorem C148_refuted_odd_digits (sig : ℕ) (ho : Odd sig) (h1 : 10 ^ 16 ≤ sig) (h2 : sig + 1 < 1024 * 10 ^ 13) (x : ℝ)
    (hx : |sig / 10 ^ 13 - x| ≤ 43 / 100 / 10 ^ 13) : ∃ r, readNum sig (-13) = some r ∧ r ≠ x := by
  have hr : readNum sig (-13) = some (rnd (rnd sig / 10 ^ 13)) := by
    rw [readNum_eq sig (by norm_num) (fun h => absurd h (by norm_num)), scaled, if_neg (by norm_num)]
    rw [show (-13 : ℤ).natAbs = 13 by rfl, rnd_of_isF64 (isF64_pow_ten (by norm_num : 13 ≤ 22))]
  refine ⟨_, hr, fun he => ?_⟩
  have s1 : (10 : ℝ) ^ 16 ≤ sig := by exact_mod_cast h1
  have s2 : (sig : ℝ) + 1 < 1024 * 10 ^ 13 := by exact_mod_cast h2
  -- the significand is rounded to an even number
  have hlo : (2 : ℝ) ^ (53 : ℤ) ≤ rnd sig := by
    refine le_rnd (isF64_zpow (by norm_num)) ?_
    refine le_trans ?_ s1
    norm_num
  obtain ⟨z, hz⟩ := isF64_multiple (rnd_isF64 (sig : ℝ)) (e := 1) (.inr (by
    rw [abs_of_pos (lt_of_lt_of_le (by positivity) hlo)]
    exact hlo))
  have herr : |rnd (sig : ℝ) - sig| ≤ 1 := by
    have := rnd_error_of_lt (x := (sig : ℝ)) (e := 1) (by norm_num) (by
      rw [abs_of_nonneg (by positivity)]
      norm_num
      linarith)
    norm_num at this
    exact this
  have hodd : 1 ≤ |rnd (sig : ℝ) - sig| := by
    rw [hz]
    have : (1 : ℤ) ≤ |z * 2 - sig| := by
      apply Int.one_le_abs
      intro h0
      have : (sig : ℤ) = 2 * z := by omega
      have : Even (sig : ℤ) := ⟨z, by omega⟩
      rw [Int.even_coe_nat] at this
      exact (Nat.not_even_iff_odd.2 ho) this
    have h' : (1 : ℝ) ≤ |(z : ℝ) * 2 - sig| := by exact_mod_cast this
    simpa using h'
  have hv : |rnd (rnd sig / 10 ^ 13) - rnd sig / 10 ^ 13| ≤ 2 ^ (-44 : ℤ) := by
    have := rnd_error_of_lt (x := rnd (sig : ℝ) / 10 ^ 13) (e := -43) (by norm_num) (by
      have h3 := (abs_le.1 herr).2
      rw [abs_of_nonneg (div_nonneg (le_trans (by positivity) hlo) (by positivity)), div_lt_iff₀ (by positivity)]
      norm_num
      linarith)
    refine this.trans (le_of_eq ?_)
    norm_num
  rw [he] at hv
  have hb : |rnd (sig : ℝ) - sig| / 10 ^ 13 ≤ |x - rnd sig / 10 ^ 13| + |sig / 10 ^ 13 - x| := by
    rw [← abs_of_pos (by positivity : (0 : ℝ) < 10 ^ 13), ← abs_div, abs_of_pos (by positivity : (0 : ℝ) < 10 ^ 13), sub_div]
    rw [show rnd (sig : ℝ) / 10 ^ 13 - sig / 10 ^ 13 = -((x - rnd sig / 10 ^ 13) + (sig / 10 ^ 13 - x)) by ring, abs_neg]
    exact abs_add_le _ _
  have hc : (1 : ℝ) / 10 ^ 13 ≤ |rnd (sig : ℝ) - sig| / 10 ^ 13 := div_le_div_of_nonneg_right hodd (by positivity)
  have hfin : (1 : ℝ) / 10 ^ 13 ≤ 2 ^ (-44 : ℤ) + 43 / 100 / 10 ^ 13 := by linarith
  norm_num at hfin

theorem rel_factor {x : ℝ} (hx : 2 ^ (-1021 : ℤ) ≤ x) : ∃ t, rnd x = x * (1 + t) ∧ |t| ≤ 2 ^ (-53 : ℤ) := by
  have hp : 0 < x := lt_of_lt_of_le (zpow2_pos _) hx
  have h := rnd_rel (expo_gt (by rw [abs_of_pos hp]; exact hx))
  refine ⟨(rnd x - x) / x, by field_simp; ring, ?_⟩
  rw [abs_div, div_le_iff₀ (abs_pos.2 hp.ne')]
  exact h

theorem factor_bounds {u c t3 t4 : ℝ} (hu0 : 0 < u) (hu1 : u ≤ 1 / 1000) (a1 : 1 - 2 * u ≤ c)
    (c2 : c * (1 - u) ≤ 1 + u) (l3 : -u ≤ t3) (r3 : t3 ≤ u) (l4 : -u ≤ t4) (r4 : t4 ≤ u) :
    1 / 2 ≤ c ∧ |c * (1 + t3) - (1 + t4)| ≤ 5 * u * (1 + t4) := by
  have hu2 : u ^ 2 ≤ u * (1 / 1000) := by
    rw [pow_two]; exact mul_le_mul_of_nonneg_left hu1 hu0.le
  have hu3 : 0 < u ^ 2 := by positivity
  have h2 : u ^ 3 ≤ u ^ 2 * (1 / 1000) := by
    rw [pow_succ]; exact mul_le_mul_of_nonneg_left hu1 (by positivity)
  have a2 : c ≤ 1 + 2 * u + 3 * u ^ 2 := by
    by_contra h
    push Not at h
    have : (1 + 2 * u + 3 * u ^ 2) * (1 - u) < c * (1 - u) := mul_lt_mul_of_pos_right h (by linarith)
    linarith
  have hc : 1 / 2 ≤ c := by linarith
  have p1 : c * (1 - u) ≤ c * (1 + t3) := mul_le_mul_of_nonneg_left (by linarith) (by linarith)
  have p2 : c * (1 + t3) ≤ c * (1 + u) := mul_le_mul_of_nonneg_left (by linarith) (by linarith)
  have p3 : (1 - 2 * u) * (1 - u) ≤ c * (1 - u) := mul_le_mul_of_nonneg_right a1 (by linarith)
  have p4 : c * (1 + u) ≤ (1 + 2 * u + 3 * u ^ 2) * (1 + u) := mul_le_mul_of_nonneg_right a2 (by linarith)
  have q1 : 5 * u * (1 - u) ≤ 5 * u * (1 + t4) := mul_le_mul_of_nonneg_left (by linarith) (by linarith)
  refine ⟨hc, abs_le.2 ⟨?_, ?_⟩⟩
  · linarith
  · linarith

theorem scaled_close (sig : ℕ) (e : ℤ) (hs : 2 ^ (-1020 : ℤ) ≤ sig * (10 : ℝ) ^ e) :
    |scaled sig e - rnd (sig * (10 : ℝ) ^ e)| ≤ 5 * 2 ^ (-53 : ℤ) * rnd (sig * (10 : ℝ) ^ e) := by
  unfold scaled
  set u : ℝ := 2 ^ (-53 : ℤ) with hu
  have hu0 : 0 < u := zpow2_pos _
  have hu1 : u ≤ 1 / 1000 := by rw [hu]; norm_num
  set q : ℝ := sig * (10 : ℝ) ^ e with hq
  have hq0 : 0 < q := lt_of_lt_of_le (zpow2_pos _) hs
  have h20 : (2 : ℝ) ^ (-1020 : ℤ) = 2 * 2 ^ (-1021 : ℤ) := by
    rw [show (-1020 : ℤ) = 1 + -1021 by norm_num, zpow_add₀ (by norm_num)]; norm_num
  have hsm : (2 : ℝ) ^ (-1021 : ℤ) ≤ 1 := zpow_le_one_of_nonpos₀ (by norm_num) (by norm_num)
  have hsig : (1 : ℝ) ≤ sig := by
    rcases Nat.eq_zero_or_pos sig with h0 | h0
    · rw [hq, h0] at hq0; simp at hq0
    · exact_mod_cast h0
  obtain ⟨t1, e1, b1⟩ := rel_factor (hsm.trans hsig)
  have hten : (1 : ℝ) ≤ 10 ^ e.natAbs := one_le_pow₀ (by norm_num)
  obtain ⟨t2, e2, b2⟩ := rel_factor (hsm.trans hten)
  obtain ⟨t4, e4, b4⟩ := rel_factor (x := q) (by linarith [zpow2_pos (-1021)])
  obtain ⟨l1, r1⟩ := abs_le.1 b1
  obtain ⟨l2, r2⟩ := abs_le.1 b2
  obtain ⟨l4, r4⟩ := abs_le.1 b4
  rw [e4, e1, e2]
  rw [← hu] at l1 r1 l2 r2 l4 r4
  -- the exact quotient or product of the rounded factors
  have main : ∀ c : ℝ, 1 - 2 * u ≤ c → c * (1 - u) ≤ 1 + u →
      |rnd (q * c) - q * (1 + t4)| ≤ 5 * u * (q * (1 + t4)) := by
    intro c c1 c2
    have hc : 1 / 2 ≤ c := (factor_bounds (t3 := 0) (t4 := 0) hu0 hu1 c1 c2 (by linarith) hu0.le (by linarith) hu0.le).1
    have hqc : (2 : ℝ) ^ (-1021 : ℤ) ≤ q * c := by
      have : q * (1 / 2) ≤ q * c := mul_le_mul_of_nonneg_left hc hq0.le
      linarith
    obtain ⟨t3, e3, b3⟩ := rel_factor hqc
    obtain ⟨l3, r3⟩ := abs_le.1 b3
    rw [← hu] at l3 r3
    rw [e3, show q * c * (1 + t3) - q * (1 + t4) = q * (c * (1 + t3) - (1 + t4)) by ring, abs_mul, abs_of_pos hq0,
      show 5 * u * (q * (1 + t4)) = q * (5 * u * (1 + t4)) by ring]
    exact mul_le_mul_of_nonneg_left (factor_bounds hu0 hu1 c1 c2 l3 r3 l4 r4).2 hq0.le
  clear_value u q
  have m1 : (1 - u) ≤ 1 + t1 := by linarith
  have m2 : (1 - u) ≤ 1 + t2 := by linarith
  have n1 : 1 + t1 ≤ 1 + u := by linarith
  have n2 : 1 + t2 ≤ 1 + u := by linarith
  have k0 : 0 < 1 - u := by linarith
  split_ifs with h0
  · have e5 : (sig : ℝ) * (1 + t1) * (10 ^ e.natAbs * (1 + t2)) = q * ((1 + t1) * (1 + t2)) := by
      rw [hq, ← zpow_natCast, Int.natAbs_of_nonneg h0]; ring
    rw [e5]
    have g1 : (1 - u) * (1 - u) ≤ (1 + t1) * (1 + t2) := mul_le_mul m1 m2 k0.le (by linarith)
    have g2 : (1 + t1) * (1 + t2) ≤ (1 + u) * (1 + u) := mul_le_mul n1 n2 (by linarith) (by linarith)
    refine main _ (by linarith [pow_two u, sq_nonneg u]) ?_
    have g3 : (1 + t1) * (1 + t2) * (1 - u) ≤ (1 + u) * (1 + u) * (1 - u) := mul_le_mul_of_nonneg_right g2 k0.le
    have g4 : (1 + u) * ((1 + u) * (1 - u)) ≤ (1 + u) * 1 :=
      mul_le_mul_of_nonneg_left (by linarith [sq_nonneg u]) (by linarith)
    linarith
  · have hp2 : 0 < 1 + t2 := by linarith
    have e5 : (sig : ℝ) * (1 + t1) / (10 ^ e.natAbs * (1 + t2)) = q * ((1 + t1) / (1 + t2)) := by
      rw [hq, ← zpow_natCast, show ((e.natAbs : ℕ) : ℤ) = -e by omega, zpow_neg]
      field_simp
    rw [e5]
    refine main _ ?_ ?_
    · rw [le_div_iff₀ hp2]
      have g1 : (1 - 2 * u) * (1 + t2) ≤ (1 - 2 * u) * (1 + u) := mul_le_mul_of_nonneg_left n2 (by linarith)
      linarith [sq_nonneg u]
    · rw [div_mul_eq_mul_div, div_le_iff₀ hp2]
      exact mul_le_mul n1 m2 k0.le (by linarith)

/-- C148. Numbers are always read back up to their last bits: the relative error is at most `5 / 2 ^ 53`. Left out: the
decimals below `10 ^ -290`, whose exponent can be beyond the table, and those above `2 ^ 1023`. -/
theorem C148_numbers_close_partial (sig : ℕ) (e : ℤ) (he : e.natAbs ≤ 308) (hs : 2 ^ (-1020 : ℤ) ≤ sig * (10 : ℝ) ^ e)
    (hb : sig * (10 : ℝ) ^ e ≤ 2 ^ (1023 : ℤ)) :
    ∃ r, readNum sig e = some r ∧
      |r - rnd (sig * (10 : ℝ) ^ e)| ≤ 5 * 2 ^ (-53 : ℤ) * rnd (sig * (10 : ℝ) ^ e) := by
  have hc := scaled_close sig e hs
  refine ⟨_, readNum_eq sig he fun _ => ?_, hc⟩
  have h1 : rnd (sig * (10 : ℝ) ^ e) ≤ 2 ^ (1023 : ℤ) := rnd_le (isF64_zpow (by norm_num)) hb
  have h0 : (0 : ℝ) < 2 ^ (1023 : ℤ) := zpow2_pos _
  have hu : (5 : ℝ) * 2 ^ (-53 : ℤ) ≤ 1 / 2 := by norm_num
  have h2 := (abs_le.1 hc).2
  have hp : 0 ≤ rnd (sig * (10 : ℝ) ^ e) := le_rnd isF64_zero (le_trans (zpow2_pos _).le hs)
  have h3 : (5 : ℝ) * 2 ^ (-53 : ℤ) * rnd (sig * (10 : ℝ) ^ e) ≤ 1 / 2 * 2 ^ (1023 : ℤ) :=
    mul_le_mul hu h1 hp (by norm_num)
  have h4 : (2 : ℝ) ^ 1024 = 2 * 2 ^ (1023 : ℤ) := by
    rw [← zpow_natCast, show ((1024 : ℕ) : ℤ) = 1 + 1023 by norm_num, zpow_add₀ (by norm_num)]
    norm_num
  rw [h4]
  have h5 := h2.trans h3
  clear h2 h3 h4 hb hs hu hc
  revert h0 h1 h5
  generalize (2 : ℝ) ^ (1023 : ℤ) = B
  intro h0 h1 h5
  linarith

theorem rnd_nat {N n k : ℕ} (hlo : 2 ^ (k + 52) ≤ N) (hhi : N < 2 ^ (k + 53)) (h1 : 2 * N < 2 * (n * 2 ^ k) + 2 ^ k)
    (h2 : 2 * (n * 2 ^ k) < 2 * N + 2 ^ k) : rnd (N : ℝ) = n * 2 ^ k := by
  have r1 : (2 : ℝ) ^ (k + 52) ≤ N := by exact_mod_cast hlo
  have r2 : (N : ℝ) < 2 ^ (k + 53) := by exact_mod_cast hhi
  have r3 : 2 * (N : ℝ) < 2 * (n * 2 ^ k) + 2 ^ k := by exact_mod_cast h1
  have r4 : 2 * ((n : ℝ) * 2 ^ k) < 2 * N + 2 ^ k := by exact_mod_cast h2
  have z1 : ((k : ℤ) + 52) = ((k + 52 : ℕ) : ℤ) := by push_cast; rfl
  have z2 : ((k : ℤ) + 53) = ((k + 53 : ℕ) : ℤ) := by push_cast; rfl
  have := rnd_eq (x := (N : ℝ)) (n := n) (e := k) (by omega)
    (by rw [abs_of_nonneg (Nat.cast_nonneg N), z1, zpow_natCast]; exact r1)
    (by rw [abs_of_nonneg (Nat.cast_nonneg N), z2, zpow_natCast]; exact r2) (by
      rw [Int.cast_natCast, zpow_natCast, abs_lt]
      constructor <;> linarith)
  rw [this, Int.cast_natCast, zpow_natCast]

set_option exponentiation.threshold 2000 in
/-- C148. The default target, the lowest number, written as -1.7976931348623157e308, is read back exactly and not out of
range: the checkpoints of runs without target can be read. -/
theorem C148_default_target : readNum 17976931348623157 292 = some ((2 ^ 53 - 1) * 2 ^ 971) := by
  have e1 : rnd ((17976931348623157 : ℕ) : ℝ) = 8988465674311578 * 2 := by
    have := rnd_tie (x := 17976931348623157) (n := 8988465674311578) (e := 1) (by norm_num) (by norm_num [abs_of_pos])
      (by norm_num [abs_of_pos]) (by decide) (by norm_num)
    simpa using this
  have e2 : rnd (10 ^ 292) = 4512985939662074 * 2 ^ 918 := by
    have := rnd_nat (N := 10 ^ 292) (n := 4512985939662074) (k := 918) (by decide +kernel) (by decide +kernel)
      (by decide +kernel) (by decide +kernel)
    rw [Nat.cast_pow] at this
    exact this
  have e3 : scaled 17976931348623157 292 = (2 ^ 53 - 1) * 2 ^ 971 := by
    rw [scaled, if_pos (by norm_num), show (292 : ℤ).natAbs = 292 from rfl, e1, e2]
    have := rnd_nat (N := 8988465674311578 * 2 * (4512985939662074 * 2 ^ 918)) (n := 9007199254740991) (k := 971)
      (by decide +kernel) (by decide +kernel) (by decide +kernel) (by decide +kernel)
    rw [Nat.cast_mul, Nat.cast_mul, Nat.cast_mul, Nat.cast_pow] at this
    refine this.trans ?_
    rw [show ((9007199254740991 : ℕ) : ℝ) = 2 ^ 53 - 1 by norm_num]
  rw [readNum_eq _ (by norm_num), e3]
  intro _
  rw [e3, show (2 : ℝ) ^ 1024 = 2 ^ 53 * 2 ^ 971 by rw [← pow_add]]
  exact mul_lt_mul_of_pos_right (by norm_num) (by positivity)

/-- Case of `C148_refuted_odd_digits`: the number written as 1007.3915632081895. -/
example : ∃ x : ℝ, IsF64 x ∧ rnd (10073915632081895 / 10 ^ 13) = x ∧
    ∃ r, readNum 10073915632081895 (-13) = some r ∧ r ≠ x := by
  refine ⟨(8861109899766765 : ℤ) * 2 ^ (-43 : ℤ), ⟨8861109899766765, -43, by norm_num, by norm_num, rfl⟩, ?_, ?_⟩
  · refine rnd_eq (by norm_num) ?_ ?_ ?_ <;> norm_num [abs_lt, abs_of_pos]
  · refine C148_refuted_odd_digits _ (by decide) (by norm_num) (by norm_num) _ ?_
    norm_num [abs_le]

/-- Case of `C148_short_numbers_partial`: 0.1. -/
example : ∃ r, readNum 1 (-1) = some r ∧ r = (7205759403792794 : ℤ) * 2 ^ (-56 : ℤ) := by
  obtain ⟨r, h1, _, _⟩ := C148_short_numbers_partial 1 (-1) (by norm_num) (by norm_num)
  refine ⟨r, h1, ?_⟩
  rw [readNum_eq 1 (by norm_num) (fun h => absurd h (by norm_num)), scaled, if_neg (by norm_num), Option.some.injEq] at h1
  rw [← h1, ← rnd_one_tenth, show (-1 : ℤ).natAbs = 1 by rfl, rnd_of_isF64 (isF64_pow_ten (by norm_num : 1 ≤ 22)),
    Nat.cast_one, rnd_of_isF64 isF64_one, pow_one]

end Decimals

end Verif.Props
