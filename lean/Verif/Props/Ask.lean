import Verif.Model.Ask
import Verif.Props.Best
import Verif.Props.RunData
import Verif.Props.Propose
import Verif.Props.Result

/-!
# Property of ask and tell (C134)
-/

set_option autoImplicit false

namespace Verif.Props

open Verif Spec FindResult MixInt Run Propose Ask

variable {M C T Z S : Type}

/-- The optimization of the infill criterion does not look at the feasibility flag. This is so unless the constrained infill
criterion is used (`cstr_infill`, `solver_infill_optim.rs:92-141`). -/
def IgnoresFlag (env : Env M C T Z S) : Prop :=
  ∀ ms i b xs sd best, env.optimize ms { i with feasibility := b } xs sd best = env.optimize ms i xs sd best

/-- What matters of a point: itself and the infill value. -/
def onePart : Propose.One Z → Option (Pt × Flt)
  | .point p v _ => some (p, v)
  | .failed _ => none

theorem onePoint_same {cfg : Cfg} {P P' : Prob} {env : Env M C T Z S} {a a' : Args} (hP : P.g = P'.g) (hx : a.x = a'.x)
    (hy : a.y = a'.y) (hc : a.c = a'.c) (hb : a.best = a'.best) (ht : a.iter = a'.iter)
    (hf : a.feasibility = a'.feasibility ∨ IgnoresFlag env) {j : ℕ} {w : ℚ} {i : ℕ}
    (hr : ((a.init && i == 0) || a.recluster) = ((a'.init && i == 0) || a'.recluster)) (pre : List Pt) (s : Kept C T S) :
    (onePoint cfg P env a j w i pre s).map (fun r => (onePart r.1, r.2)) =
      (onePoint cfg P' env a' j w i pre s).map (fun r => (onePart r.1, r.2)) := by
  obtain ⟨ax, ay, ac, ab, af, ai, at_, ar⟩ := a
  obtain ⟨bx, by_, bc, bb, bf, bi, bt, br⟩ := a'
  simp only at hx hy hc hb ht hf hr
  subst hx hy hc hb ht
  have hs : ∀ x sc, scaledFcstr cfg P x sc = scaledFcstr cfg P' x sc := by
    intro x sc; unfold scaledFcstr; rw [hP]
  unfold onePoint
  simp only [hr, hs]
  simp only [bind, Except.bind, Except.map]
  cases trainAll env (if i = 0 then ax else ax ++ pre.map Pt.x) (if i = 0 then ay else ay ++ pre.map Pt.y)
    (bi && i == 0 || br) (Steps.optimizeTheta cfg.qPoints env.qOptmod at_ i j) s with
  | error e => rfl
  | ok ms =>
    simp only
    cases at' ay ab with
    | error e => rfl
    | ok yb =>
    simp only
    cases at' yb 0 with
    | error e => rfl
    | ok fmin =>
    simp only
    cases at' ax ab with
    | error e => rfl
    | ok xb =>
    simp only
    cases at' ac ab with
    | error e => rfl
    | ok cb =>
    simp only
    cases env.scaling (env.gen (keep env ms s).rng).1 (ms.map Prod.fst) fmin w with
    | error e => rfl
    | ok z =>
    simp only
    have ho : env.optimize (ms.map Prod.fst) ⟨fmin, xb, z.1, z.2, af, w⟩ ax
        (env.gen (env.gen (keep env ms s).rng).2).1 (xb, yb, cb) =
      env.optimize (ms.map Prod.fst) ⟨fmin, xb, z.1, z.2, bf, w⟩ ax
        (env.gen (env.gen (keep env ms s).rng).2).1 (xb, yb, cb) := by
      rcases hf with rfl | h
      · rfl
      · exact h (ms.map Prod.fst) ⟨fmin, xb, z.1, z.2, bf, w⟩ af ax _ _
    rw [ho]
    cases env.optimize (ms.map Prod.fst) ⟨fmin, xb, z.1, z.2, bf, w⟩ ax
        (env.gen (env.gen (keep env ms s).rng).2).1 (xb, yb, cb) with
    | error e => rfl
    | ok o =>
    simp only
    cases env.virtual o.2 ay (ms.map Prod.fst) with
    | none => rfl
    | some yk =>
    simp only
    by_cases hl : yk.length ≠ env.nOut
    · simp [hl]
    · simp only [hl, if_false]
      cases scaledFcstr cfg P' o.2 z.2 <;> rfl

/-- What matters of a batch. -/
def resPart (r : Res Z) : List Pt × Flt := (r.pts, r.value)

theorem batch_same {cfg : Cfg} {P P' : Prob} {env : Env M C T Z S} {a a' : Args} (hP : P.g = P'.g) (hx : a.x = a'.x)
    (hy : a.y = a'.y) (hc : a.c = a'.c) (hb : a.best = a'.best) (ht : a.iter = a'.iter)
    (hf : a.feasibility = a'.feasibility ∨ IgnoresFlag env) (j : ℕ) (w : ℚ) (n : ℕ) :
    ∀ (i : ℕ), (∀ k, i ≤ k → k < i + n →
      ((a.init && k == 0) || a.recluster) = ((a'.init && k == 0) || a'.recluster)) →
    ∀ (acc acc' : Res Z) (s : Kept C T S), resPart acc = resPart acc' →
    (batch cfg P env a j w i acc s n).map (fun r => (resPart r.1, r.2)) =
      (batch cfg P' env a' j w i acc' s n).map (fun r => (resPart r.1, r.2)) := by
  induction n with
  | zero =>
    intro i _ acc acc' s h
    simp [batch, Except.map, h]
  | succ n ih =>
    intro i hr acc acc' s h
    have hp : acc.pts = acc'.pts := congrArg Prod.fst h
    have h1 := onePoint_same (cfg := cfg) (j := j) (w := w) hP hx hy hc hb ht hf (hr i (le_refl _) (by omega)) acc.pts s
    rw [batch, batch, ← hp]
    cases hA : onePoint cfg P env a j w i acc.pts s with
    | error e =>
      rw [hA] at h1
      cases hB : onePoint cfg P' env a' j w i acc.pts s with
      | error e' =>
        rw [hB] at h1
        simp only [Except.map, Except.error.injEq] at h1
        subst h1
        rfl
      | ok r' => rw [hB] at h1; simp [Except.map] at h1
    | ok r =>
      rw [hA] at h1
      cases hB : onePoint cfg P' env a' j w i acc.pts s with
      | error e' => rw [hB] at h1; simp [Except.map] at h1
      | ok r' =>
        rw [hB] at h1
        obtain ⟨o, k⟩ := r
        obtain ⟨o', k'⟩ := r'
        simp only [Except.map, Except.ok.injEq, Prod.mk.injEq] at h1
        obtain ⟨h2, rfl⟩ := h1
        cases o with
        | failed inf =>
          cases o' with
          | failed inf' => simpa [bind, Except.bind, Except.map, resPart, hp] using h
          | point p' v' inf' => simp [onePart] at h2
        | point p v inf =>
          cases o' with
          | failed inf' => simp [onePart] at h2
          | point p' v' inf' =>
            simp only [onePart, Option.some.injEq, Prod.mk.injEq] at h2
            obtain ⟨rfl, rfl⟩ := h2
            exact ih (i + 1) (fun k h1 h2 => hr k (by omega) (by omega)) _ _ _ rfl

theorem members_same {cfg : Cfg} {P P' : Prob} {env : Env M C T Z S} {a a' : Args} (hP : P.g = P'.g) (hx : a.x = a'.x)
    (hy : a.y = a'.y) (hc : a.c = a'.c) (hb : a.best = a'.best) (ht : a.iter = a'.iter)
    (hf : a.feasibility = a'.feasibility ∨ IgnoresFlag env)
    (hr : ∀ k < cfg.qPoints, ((a.init && k == 0) || a.recluster) = ((a'.init && k == 0) || a'.recluster)) (ws : List ℚ) :
    ∀ (j : ℕ) (s : Kept C T S),
    (members cfg P env a j s ws).map (fun r => (r.1.map resPart, r.2)) =
      (members cfg P' env a' j s ws).map (fun r => (r.1.map resPart, r.2)) := by
  induction ws with
  | nil => intro j s; rfl
  | cons w ws ih =>
    intro j s
    have h1 := batch_same (cfg := cfg) hP hx hy hc hb ht hf j w cfg.qPoints 0 (fun k _ h => hr k (by omega))
      ⟨[], .pinf, none⟩ ⟨[], .pinf, none⟩ s rfl
    rw [members, members]
    cases hA : batch cfg P env a j w 0 ⟨[], .pinf, none⟩ s cfg.qPoints with
    | error e =>
      rw [hA] at h1
      cases hB : batch cfg P' env a' j w 0 ⟨[], .pinf, none⟩ s cfg.qPoints with
      | error e' =>
        rw [hB] at h1
        simp only [Except.map, Except.error.injEq] at h1
        subst h1
        rfl
      | ok r' => rw [hB] at h1; simp [Except.map] at h1
    | ok r =>
      rw [hA] at h1
      cases hB : batch cfg P' env a' j w 0 ⟨[], .pinf, none⟩ s cfg.qPoints with
      | error e' => rw [hB] at h1; simp [Except.map] at h1
      | ok r' =>
        rw [hB] at h1
        obtain ⟨o, k⟩ := r
        obtain ⟨o', k'⟩ := r'
        simp only [Except.map, Except.ok.injEq, Prod.mk.injEq] at h1
        obtain ⟨h2, rfl⟩ := h1
        have h3 := ih (j + 1) k
        simp only [bind, Except.bind]
        cases hC : members cfg P env a (j + 1) k ws with
        | error e =>
          rw [hC] at h3
          cases hD : members cfg P' env a' (j + 1) k ws with
          | error e' =>
            rw [hD] at h3
            simp only [Except.map, Except.error.injEq] at h3
            subst h3
            rfl
          | ok r' => rw [hD] at h3; simp [Except.map] at h3
        | ok rs =>
          rw [hC] at h3
          cases hD : members cfg P' env a' (j + 1) k ws with
          | error e' => rw [hD] at h3; simp [Except.map] at h3
          | ok rs' =>
            rw [hD] at h3
            simp only [Except.map, Except.ok.injEq, Prod.mk.injEq] at h3
            simp [Except.map, h2, h3]

theorem firstPoints_same : ∀ {rs rs' : List (Res Z)}, rs.map resPart = rs'.map resPart →
    rs.mapM firstPoint = rs'.mapM firstPoint
  | [], [], _ => rfl
  | [], _ :: _, h => by simp at h
  | _ :: _, [], h => by simp at h
  | r :: rs, r' :: rs', h => by
    simp only [List.map_cons, List.cons.injEq] at h
    have hp : r.pts = r'.pts := congrArg Prod.fst h.1
    rw [List.mapM_cons, List.mapM_cons, firstPoints_same h.2]
    unfold firstPoint
    rw [hp]

theorem select_same {cfg : Cfg} {P P' : Prob} {env : Env M C T Z S} {a a' : Args} (hP : P.g = P'.g) (hx : a.x = a'.x)
    (hy : a.y = a'.y) (hc : a.c = a'.c) (hb : a.best = a'.best) (ht : a.iter = a'.iter)
    (hf : a.feasibility = a'.feasibility ∨ IgnoresFlag env)
    (hr : ∀ k < cfg.qPoints, ((a.init && k == 0) || a.recluster) = ((a'.init && k == 0) || a'.recluster))
    (pf : Bool) (labels : List Pt → List (Option ℕ)) (order : List (Option ℕ) → List ℕ) (s : Kept C T S) :
    (Propose.selectNextPoints cfg P env pf labels order a s).map (fun r => (resPart r.1, r.2)) =
      (Propose.selectNextPoints cfg P' env pf labels order a' s).map (fun r => (resPart r.1, r.2)) := by
  have h1 := members_same (cfg := cfg) hP hx hy hc hb ht hf hr (weights pf cfg.qPoints) 0 s
  unfold Propose.selectNextPoints
  cases hA : members cfg P env a 0 s (weights pf cfg.qPoints) with
  | error e =>
    rw [hA] at h1
    cases hB : members cfg P' env a' 0 s (weights pf cfg.qPoints) with
    | error e' =>
      rw [hB] at h1
      simp only [Except.map, Except.error.injEq] at h1
      subst h1
      rfl
    | ok r' => rw [hB] at h1; simp [Except.map] at h1
  | ok r =>
    rw [hA] at h1
    cases hB : members cfg P' env a' 0 s (weights pf cfg.qPoints) with
    | error e' => rw [hB] at h1; simp [Except.map] at h1
    | ok r' =>
      rw [hB] at h1
      obtain ⟨o, k⟩ := r
      obtain ⟨o', k'⟩ := r'
      simp only [Except.map, Except.ok.injEq, Prod.mk.injEq] at h1
      obtain ⟨h2, rfl⟩ := h1
      have hl : o.length = o'.length := by simpa using congrArg List.length h2
      have h0 : (at' o 0).map resPart = (at' o' 0).map resPart := by
        cases o with
        | nil => cases o' with
          | nil => rfl
          | cons _ _ => simp at hl
        | cons p ps => cases o' with
          | nil => simp at hl
          | cons p' ps' =>
            simp only [List.map_cons, List.cons.injEq] at h2
            simp [at', Except.map, h2.1]
      simp only [bind, Except.bind, ← hl, firstPoints_same h2]
      cases hC : at' o 0 with
      | error e =>
        rw [hC] at h0
        cases hD : at' o' 0 with
        | error e' =>
          rw [hD] at h0
          simp only [Except.map, Except.error.injEq] at h0
          subst h0
          split <;> rfl
        | ok p' => rw [hD] at h0; simp [Except.map] at h0
      | ok p =>
        rw [hC] at h0
        cases hD : at' o' 0 with
        | error e' => rw [hD] at h0; simp [Except.map] at h0
        | ok p' =>
          rw [hD] at h0
          simp only [Except.map, Except.ok.injEq] at h0
          simp only
          split
          · cases o'.mapM firstPoint with
            | error e => rfl
            | ok rows =>
              simp only
              cases Steps.selectFromPortfolio rows (labels rows) (order (labels rows)) with
              | error e => rfl
              | ok sel =>
                have : p.value = p'.value := congrArg Prod.snd h0
                simp [Except.map, resPart, this]
          · simp [Except.map, h0]

/-! ## C134 -/

/-- The outputs allow a comparison with the tolerances, and some of the evaluated points satisfy the constraints. -/
def SomeFeasible (cfg : Cfg) (y : Mat Flt) : Prop :=
  ∃ tol : List ℚ, cfg.tol = tol.map .fin ∧ EvalData tol y ⟨0, List.replicate y.rows.length []⟩ ∧
    ∃ r ∈ y.rows, Feasible tol r.tail

theorem zipWith_append_nils (y : List (List Flt)) :
    List.zipWith (· ++ ·) y (List.replicate y.length []) = y := by
  induction y with
  | nil => rfl
  | cons r y ih => simp [List.replicate_succ, ih]

/-- If some evaluated point satisfies the constraints, the best one does. -/
theorem best_feasible {cfg : Cfg} {y : Mat Flt} (h : SomeFeasible cfg y) :
    ∃ b yb, findBest y ⟨0, List.replicate y.rows.length []⟩ cfg.tol = .ok b ∧ y.rows[b]? = some yb ∧
      isFeasible yb [] cfg.tol = .ok true := by
  obtain ⟨tol, ht, hy, r, hr, hf⟩ := h
  have hne : y.rows ≠ [] := List.ne_nil_of_mem hr
  obtain ⟨b, hb, hm⟩ := C11_best_is_lexicographic_optimum tol y _ hy hne
  rw [← ht] at hb
  rw [zipWith_append_nils] at hm
  obtain ⟨hlt, hmin, -⟩ := hm
  rw [List.length_map] at hlt
  refine ⟨b, y.rows[b], hb, List.getElem?_eq_getElem hlt, ?_⟩
  have hbf : Feasible tol (y.rows[b]).tail := by
    by_contra hn
    have h1 := hmin (rank tol r) (List.mem_map_of_mem hr)
    rw [List.getElem_map] at h1
    unfold rank at h1
    rw [if_neg hn, if_pos hf, Prod.Lex.toLex_le_toLex] at h1
    simp at h1
  have hv : Valid tol.length (y.rows[b] ++ []) := by
    have h2 := hy.valid y.rows[b] (by
      rw [zipWith_append_nils]
      exact List.getElem_mem hlt)
    simpa using h2
  obtain ⟨v, hv1, hv2⟩ := C11_is_feasible_iff tol y.rows[b] [] hv
  rw [ht, hv1]
  simp only [List.append_nil] at hv2
  rw [hv2.2 hbf]

theorem cstrSumLoop_ok : ∀ (cs tol : List Flt) (acc : Flt), cs.length ≤ tol.length → ∃ v, cstrSumLoop acc cs tol = .ok v
  | [], _, acc, _ => ⟨acc, rfl⟩
  | _ :: _, [], _, h => by simp at h
  | c :: cs, t :: ts, acc, h => by
    simp only [List.length_cons, Nat.add_le_add_iff_right] at h
    unfold cstrSumLoop
    split
    · exact cstrSumLoop_ok cs ts _ h
    · exact cstrSumLoop_ok cs ts _ h

/-- With enough tolerances the test of feasibility does not panic. -/
theorem isFeasible_ok {yb tol : List Flt} (h : yb.length ≤ tol.length + 1) : ∃ b, isFeasible yb [] tol = .ok b := by
  unfold isFeasible
  rw [List.append_nil]
  by_cases hl : yb.length > 1
  · rw [if_pos hl]
    cases yb with
    | nil => simp at hl
    | cons a cs =>
      obtain ⟨v, hv⟩ := cstrSumLoop_ok cs tol .zero (by simpa using h)
      exact ⟨Flt.feq v .zero, by simp [cstrSum, hv, bind, Except.bind]⟩
  · rw [if_neg hl]
    exact ⟨true, rfl⟩

theorem evalFcstr_none {cfg : Cfg} {f : List ℚ → List Flt} : ∀ {xs : List (List ℚ)} {cs : List (List Flt)},
    List.Forall₂ (fun x c => evalFcstr cfg ⟨f, []⟩ x = .ok c) xs cs → cs = List.replicate xs.length []
  | [], _, h => by cases h; rfl
  | x :: xs, _, h => by
    cases h with
    | cons h1 h2 =>
      rw [List.length_cons, List.replicate_succ, ← evalFcstr_none h2]
      congr 1
      unfold evalFcstr at h1
      cases hu : userInput cfg x with
      | error e => rw [hu] at h1; simp [bind, Except.bind] at h1
      | ok u => rw [hu] at h1; simpa [bind, Except.bind, eq_comm] using h1

/-- **C134**, part. Ask and tell agrees with the optimizer on the first iteration: without function constraints, the points
suggested from evaluated data are those that a run starting from this data with the same seed tries first. This requires either
that the feasibility of the data is taken into account by the run (`EGOR_USE_MAX_PROBA_OF_FEASIBILITY`), or that some point
satisfies the constraints, or that the infill criterion is not the constrained one; and either a given number of clusters, or a
number of points that is not a multiple of ten, or a single point per iteration. -/
theorem C134_first_iteration_partial (cfg : Cfg) (f : List ℚ → List Flt) (env : Env M C T Z S) (nb : Steps.NbClusters)
    (pf : Bool) (labels : List Pt → List (Option ℕ)) (order : List (Option ℕ) → List ℕ) (g : S)
    (x : List (List ℚ)) (y : Mat Flt) (s : St) (hi : Run.init cfg ⟨f, []⟩ (.full x y) = .ok s)
    (hflag : cfg.usePof = true ∨ SomeFeasible cfg y ∨
      (IgnoresFlag env ∧ ∀ r ∈ y.rows, r.length ≤ cfg.tol.length + 1))
    (hq : nb.isAuto = false ∨ ¬ 10 ∣ x.length ∨ cfg.qPoints ≤ 1) :
    Ask.solverSuggest cfg env pf labels order g x y =
      (proposals cfg ⟨f, []⟩ env nb pf labels order s (fresh env.nOut g)).map fun r => r.1.pts.map Pt.x := by
  obtain ⟨⟨h1, h2, -, hlen⟩, h3, h4, h5, h6, -, -, h7, h8, -, h9, -⟩ := init_spec hi
  have hc : s.data.c = ⟨0, List.replicate x.length []⟩ := by
    have := evalFcstr_none h4
    rw [h1] at this
    rw [← this]
    cases hsc : s.data.c with
    | mk nc rows => rw [hsc] at h3; simp only [List.length_nil] at h3; rw [h3]
  rw [h2, hc] at h5
  -- the flag
  have hyb : ∃ yb, y.rows[s.best]? = some yb ∧ ∃ b, isFeasible yb [] cfg.tol = .ok b ∧ (b = s.feasible ∨ IgnoresFlag env) := by
    rcases hflag with hp | hs | ⟨hig, hall⟩
    · rw [hp] at h6
      simp only [updFeasible, Bool.not_true, h2, hc] at h6
      unfold row at h6
      cases hr : y.rows[s.best]? with
      | none => rw [hr] at h6; simp [bind, Except.bind] at h6
      | some yb =>
        rw [hr] at h6
        simp only [bind, Except.bind] at h6
        have hb : s.best < x.length := by
          rw [hlen]
          exact (List.getElem?_eq_some_iff.1 hr).1
        simp only [List.getElem?_replicate, hb, if_true] at h6
        exact ⟨yb, rfl, _, h6, Or.inl rfl⟩
    · obtain ⟨b, yb, hb1, hb2, hb3⟩ := best_feasible hs
      rw [← hlen, h5] at hb1
      simp only [Except.ok.injEq] at hb1
      subst hb1
      refine ⟨yb, hb2, true, hb3, Or.inl ?_⟩
      cases hp : cfg.usePof with
      | false =>
        rw [hp] at h6
        simpa [updFeasible] using h6
      | true =>
        rw [hp] at h6
        simp only [updFeasible, Bool.not_true, h2, hc] at h6
        unfold row at h6
        have hb : s.best < x.length := by
          rw [hlen]
          exact (List.getElem?_eq_some_iff.1 hb2).1
        simp only [bind, Except.bind, hb2, List.getElem?_replicate, hb, if_true, hb3] at h6
        simpa using h6
    · cases hr : y.rows[s.best]? with
      | none =>
        exfalso
        have hu : run cfg ⟨f, []⟩ (.full x y) [] = .ok s := by rw [run, hi]; rfl
        obtain ⟨p, -, hp⟩ := (run_best hu).1
        rw [h1] at hp
        have := (List.getElem?_eq_some_iff.1 hp).1
        rw [List.getElem?_eq_none_iff] at hr
        omega
      | some yb =>
        obtain ⟨b, hb⟩ := isFeasible_ok (hall yb (List.mem_of_getElem? hr))
        exact ⟨yb, rfl, b, hb, Or.inr hig⟩
  obtain ⟨yb, hyb, b, hb, hfl⟩ := hyb
  have hbl : s.best < x.length := by
    rw [hlen]
    exact (List.getElem?_eq_some_iff.1 hyb).1
  -- reclustering
  have hre : ∃ re, Steps.haveToRecluster nb s.added s.prevAdded = .ok re ∧ (re = false ∨ cfg.qPoints ≤ 1) := by
    rw [h7, h8, h1]
    unfold Steps.haveToRecluster
    by_cases hcond : nb.isAuto = true ∧ x.length ≠ 0 ∧ x.length % 10 = 0
    · rw [if_pos hcond]
      refine ⟨decide (x.length - 0 > 0), by simp, Or.inr ?_⟩
      rcases hq with h | h | h
      · simp [h] at hcond
      · exact absurd (Nat.dvd_of_mod_eq_zero hcond.2.2) h
      · exact h
    · rw [if_neg hcond]
      exact ⟨false, rfl, Or.inl rfl⟩
  obtain ⟨re, hre, hq'⟩ := hre
  have hmain := select_same (cfg := cfg) (P := ⟨fun _ => [], []⟩) (P' := ⟨f, []⟩) (env := env)
    (a := ⟨x, y.rows, List.replicate x.length [], s.best, b, true, 0, false⟩)
    (a' := ⟨x, y.rows, List.replicate x.length [], s.best, s.feasible, true, 0, re⟩)
    rfl rfl rfl rfl rfl rfl hfl (by
      intro k hk
      rcases hq' with rfl | hq'
      · rfl
      · have : k = 0 := by omega
        subst this
        rfl) pf labels order (fresh env.nOut g)
  unfold Ask.solverSuggest proposals
  have hrow1 : row y s.best = .ok yb := by simp [row, hyb]
  have hrow2 : row (⟨0, List.replicate x.length []⟩ : Mat Flt) s.best = .ok [] := by
    simp [row, hbl]
  simp only [h5, hrow1, hrow2, hb, hre, h1, h2, hc, h9, bind, Except.bind, beq_self_eq_true]
  generalize Propose.selectNextPoints cfg _ env pf labels order
    ⟨x, y.rows, List.replicate x.length [], s.best, b, true, 0, false⟩ (fresh env.nOut g) = A at hmain ⊢
  generalize Propose.selectNextPoints cfg _ env pf labels order
    ⟨x, y.rows, List.replicate x.length [], s.best, s.feasible, true, 0, re⟩ (fresh env.nOut g) = B at hmain ⊢
  cases A with
  | error e => cases B with
    | error e' => simpa [Except.map] using hmain
    | ok r' => simp [Except.map] at hmain
  | ok r => cases B with
    | error e' => simp [Except.map] at hmain
    | ok r' =>
      simp only [Except.map, Except.ok.injEq, Prod.mk.injEq] at hmain
      have : r.1.pts = r'.1.pts := congrArg Prod.fst hmain.1
      simp [Except.map, this]

/-- **C134**, part: the same with discrete variables. Points are given in the declared space, a run works with their
relaxations `xs`; the points suggested are those for which the user's function would be called. -/
theorem C134_mixed_integer_partial (cfg : Cfg) (f : List ℚ → List Flt) (env : Env M C T Z S) (nb : Steps.NbClusters)
    (pf : Bool) (labels : List Pt → List (Option ℕ)) (order : List (Option ℕ) → List ℕ) (g : S)
    (x xs : List (List ℚ)) (y : Mat Flt) (s : St) (hx : x.mapM (toContinuousSpace cfg.xtypes) = .ok xs)
    (hd : isDiscrete cfg.xtypes = true) (hi : Run.init cfg ⟨f, []⟩ (.full xs y) = .ok s)
    (hflag : cfg.usePof = true ∨ SomeFeasible cfg y ∨
      (IgnoresFlag env ∧ ∀ r ∈ y.rows, r.length ≤ cfg.tol.length + 1))
    (hq : nb.isAuto = false ∨ ¬ 10 ∣ xs.length ∨ cfg.qPoints ≤ 1) :
    Ask.suggest cfg env pf labels order g x y =
      (proposals cfg ⟨f, []⟩ env nb pf labels order s (fresh env.nOut g) >>= fun r =>
        (r.1.pts.map Pt.x).mapM (userInput cfg)) := by
  have h := C134_first_iteration_partial cfg f env nb pf labels order g xs y s hi hflag hq
  have hu : userInput cfg = toDiscreteSpace cfg.xtypes := by
    funext p
    simp [userInput, hd]
  unfold Ask.suggest
  rw [hx, hu]
  simp only [bind, Except.bind, h]
  cases proposals cfg ⟨f, []⟩ env nb pf labels order s (fresh env.nOut g) <;> rfl

/-- **C134**, part. A suggestion of one point keeps nothing of the previous ones: the surrogates are clustered and their
hyperparameters optimized from the configured values each time, whatever `q_optmod`. -/
theorem C134_trains_from_scratch (cfg : Cfg) (env : Env M C T Z S) (hq : cfg.qPoints ≤ 1)
    (train' : ℕ → List (List ℚ) → List Flt → Bool → Bool → Option C → Option T → Except Panic (M × T))
    (h : ∀ k x col, train' k x col true true none none = env.train k x col true true none none) (m : ℕ)
    (labels : List Pt → List (Option ℕ)) (order : List (Option ℕ) → List ℕ) (g : S) (x : List (List ℚ)) (y : Mat Flt) :
    Ask.suggest cfg { env with train := train', qOptmod := m } false labels order g x y =
      Ask.suggest cfg env false labels order g x y := by
  have hcl : ∀ (n k : ℕ) (g : S) (c : Option C), at' (fresh n g : Kept C T S).clusterings k = .ok c → c = none := by
    intro n k g c hc
    rw [at'_ok] at hc
    exact (List.eq_of_mem_replicate (List.mem_of_getElem? hc))
  have hth : ∀ (n k : ℕ) (g : S) (c : Option T), at' (fresh n g : Kept C T S).thetas k = .ok c → c = none := by
    intro n k g c hc
    rw [at'_ok] at hc
    exact (List.eq_of_mem_replicate (List.mem_of_getElem? hc))
  have htr : ∀ (xt : List (List ℚ)) (yt : List (List Flt)),
      trainAll { env with train := train', qOptmod := m } xt yt true true (fresh env.nOut g) =
        trainAll env xt yt true true (fresh env.nOut g) := by
    intro xt yt
    unfold trainAll
    congr 1
    funext k
    simp only [bind, Except.bind]
    cases column yt k with
    | error e => rfl
    | ok col =>
      simp only
      cases hc : at' (fresh env.nOut g : Kept C T S).clusterings k with
      | error e => rfl
      | ok c =>
        simp only
        cases ht : at' (fresh env.nOut g : Kept C T S).thetas k with
        | error e => rfl
        | ok t =>
          rw [hcl _ _ _ _ hc, hth _ _ _ _ ht]
          exact h k xt col
  have hopt : ∀ q m', Steps.optimizeTheta q m' 0 0 0 = true := by
    intro q m'
    unfold Steps.optimizeTheta Steps.isMultipleOf
    split <;> simp
  have hone : ∀ (a : Args) (w : ℚ), a.init = true → a.iter = 0 →
      onePoint cfg ⟨fun _ => [], []⟩ { env with train := train', qOptmod := m } a 0 w 0 [] (fresh env.nOut g) =
        onePoint cfg ⟨fun _ => [], []⟩ env a 0 w 0 [] (fresh env.nOut g) := by
    intro a w h1 h2
    unfold onePoint
    simp only [h1, h2, hopt, beq_self_eq_true, Bool.and_true, Bool.true_or, htr]
    rfl
  have hsel : ∀ a : Args, a.init = true → a.iter = 0 →
      Propose.selectNextPoints cfg ⟨fun _ => [], []⟩ { env with train := train', qOptmod := m } false labels order a
          (fresh env.nOut g) =
        Propose.selectNextPoints cfg ⟨fun _ => [], []⟩ env false labels order a (fresh env.nOut g) := by
    intro a h1 h2
    have hb : batch cfg ⟨fun _ => [], []⟩ { env with train := train', qOptmod := m } a 0 1 0 ⟨[], .pinf, none⟩
          (fresh env.nOut g) cfg.qPoints =
        batch cfg ⟨fun _ => [], []⟩ env a 0 1 0 ⟨[], .pinf, none⟩ (fresh env.nOut g) cfg.qPoints := by
      have : cfg.qPoints = 0 ∨ cfg.qPoints = 1 := by omega
      rcases this with hq0 | hq1
      · rw [hq0]; rfl
      · rw [hq1, batch, batch]
        rw [show (⟨[], .pinf, none⟩ : Res Z).pts = [] from rfl, hone a 1 h1 h2]
        rfl
    unfold Propose.selectNextPoints
    simp only [weights, Bool.false_eq_true, false_and, if_false, members, hb]
  unfold Ask.suggest Ask.solverSuggest
  simp only [hsel]

/-- What is called does not fail: training on any data, scaling, optimization, prediction of all the outputs. -/
structure NoFailure (env : Env M C T Z S) : Prop where
  train : ∀ k x col cl opt c t, ∃ m, env.train k x col cl opt c t = .ok m
  scaling : ∀ sd ms fmin w, ∃ z, env.scaling sd ms fmin w = .ok z
  optimize : ∀ ms i xs sd b, ∃ o, env.optimize ms i xs sd b = .ok o
  virtual : ∀ p y ms, ∃ v, env.virtual p y ms = some v ∧ v.length = env.nOut
  output : 0 < env.nOut

theorem mapM_all_ok {α β : Type} {f : α → Except Panic β} : ∀ {l : List α}, (∀ a ∈ l, ∃ b, f a = .ok b) →
    ∃ r, l.mapM f = .ok r ∧ r.length = l.length
  | [], _ => ⟨[], rfl, rfl⟩
  | a :: l, h => by
    obtain ⟨b, hb⟩ := h a (by simp)
    obtain ⟨r, hr, hl⟩ := mapM_all_ok (l := l) fun a' h' => h a' (by simp [h'])
    exact ⟨b :: r, by rw [List.mapM_cons, hb, hr]; rfl, by simp [hl]⟩

theorem at'_lt {α : Type} {l : List α} {i : ℕ} (h : i < l.length) : at' l i = .ok l[i] :=
  at'_ok.2 (List.getElem?_eq_getElem h)

theorem batch_full {cfg : Cfg} {f : List ℚ → List Flt} {env : Env M C T Z S} (he : NoFailure env)
    (hc : isDiscrete cfg.xtypes = false) {a : Args} (ha : a.best < a.x.length) (hxy : a.y.length = a.x.length)
    (hac : a.c.length = a.x.length) (hw : ∀ r ∈ a.y, r.length = env.nOut) (j : ℕ) (w : ℚ) (n : ℕ) :
    ∀ (i : ℕ) (acc : Res Z) (s : Kept C T S), (∀ p ∈ acc.pts, p.y.length = env.nOut) →
      s.clusterings.length = env.nOut → s.thetas.length = env.nOut →
      ∃ r s', batch cfg ⟨f, []⟩ env a j w i acc s n = .ok (r, s') ∧ r.pts.length = acc.pts.length + n ∧
        s'.clusterings.length = env.nOut ∧ s'.thetas.length = env.nOut := by
  induction n with
  | zero => intro i acc s _ h1 h2; exact ⟨acc, s, rfl, rfl, h1, h2⟩
  | succ n ih =>
    intro i acc s hp h1 h2
    have htr : ∀ xt yt cl opt, (∀ r ∈ yt, r.length = env.nOut) →
        ∃ ms, trainAll env xt yt cl opt s = .ok ms ∧ ms.length = env.nOut := by
      intro xt yt cl opt hyt
      have : ∀ k ∈ List.range env.nOut, ∃ b, (do
          let col ← column yt k
          let c ← at' s.clusterings k
          let t ← at' s.thetas k
          env.train k xt col cl opt c t) = .ok b := by
        intro k hk
        rw [List.mem_range] at hk
        obtain ⟨col, hcol, -⟩ : ∃ r, column yt k = .ok r ∧ r.length = yt.length :=
          mapM_all_ok fun r hr => ⟨_, at'_lt (by rw [hyt r hr]; exact hk)⟩
        obtain ⟨m, hm⟩ := he.train k xt col cl opt (s.clusterings[k]'(by omega)) (s.thetas[k]'(by omega))
        refine ⟨m, ?_⟩
        rw [hcol, at'_lt (by omega : k < s.clusterings.length), at'_lt (by omega : k < s.thetas.length)]
        exact hm
      obtain ⟨ms, hms, hl⟩ := mapM_all_ok this
      exact ⟨ms, hms, by simpa using hl⟩
    have hyt : ∀ r ∈ (if i = 0 then a.y else a.y ++ acc.pts.map Pt.y), r.length = env.nOut := by
      intro r hr
      split at hr
      · exact hw r hr
      · rcases List.mem_append.1 hr with h | h
        · exact hw r h
        · obtain ⟨p, hp', rfl⟩ := List.mem_map.1 h
          exact hp p hp'
    obtain ⟨ms, hms, hl⟩ := htr (if i = 0 then a.x else a.x ++ acc.pts.map Pt.x) _
      ((a.init && i == 0) || a.recluster) (Steps.optimizeTheta cfg.qPoints env.qOptmod a.iter i j) hyt
    have hb : a.best < a.y.length := by omega
    have hb0 : 0 < (a.y[a.best]).length := by
      rw [hw _ (List.getElem_mem hb)]
      exact he.output
    obtain ⟨z, hz⟩ := he.scaling (env.gen (keep env ms s).rng).1 (ms.map Prod.fst) (a.y[a.best])[0] w
    obtain ⟨o, ho⟩ := he.optimize (ms.map Prod.fst) ⟨(a.y[a.best])[0], a.x[a.best], z.1, z.2, a.feasibility, w⟩ a.x
      (env.gen (env.gen (keep env ms s).rng).2).1 (a.x[a.best], a.y[a.best], a.c[a.best]'(by omega))
    obtain ⟨v, hv, hvl⟩ := he.virtual o.2 a.y (ms.map Prod.fst)
    have hs : scaledFcstr cfg ⟨f, []⟩ o.2 z.2 = .ok [] := by
      simp [scaledFcstr, userInput, hc, bind, Except.bind]
    have hone : onePoint cfg ⟨f, []⟩ env a j w i acc.pts s =
        .ok (.point ⟨o.2, v, []⟩ (Flt.neg o.1) ⟨(a.y[a.best])[0], a.x[a.best], z.1, z.2, a.feasibility, w⟩,
          { keep env ms s with rng := (env.gen (env.gen (keep env ms s).rng).2).2 }) := by
      unfold onePoint
      simp only [hms, bind, Except.bind, at'_lt hb, at'_lt hb0, at'_lt ha, at'_lt (show a.best < a.c.length by omega), hz, ho, hv,
        hvl, ne_eq, not_true_eq_false, if_false, hs]
    have hk1 : (keep env ms s).clusterings.length = env.nOut := by simp [keep, h1, hl]
    have hk2 : (keep env ms s).thetas.length = env.nOut := by simp [keep, h2, hl]
    obtain ⟨r, s', hr, hrl, hr1, hr2⟩ := ih (i + 1)
      ⟨acc.pts ++ [⟨o.2, v, []⟩], Flt.neg o.1, some ⟨(a.y[a.best])[0], a.x[a.best], z.1, z.2, a.feasibility, w⟩⟩
      { keep env ms s with rng := (env.gen (env.gen (keep env ms s).rng).2).2 }
      (by
        intro p hp'
        rcases List.mem_append.1 hp' with h | h
        · exact hp p h
        · simp only [List.mem_singleton] at h
          subst h
          exact hvl) hk1 hk2
    refine ⟨r, s', ?_, ?_, hr1, hr2⟩
    · rw [batch, hone]
      exact hr
    · rw [hrl]
      simp only [List.length_append, List.length_singleton]
      omega

/-- **C134**, part. If nothing fails in what is called, for continuous variables and comparable outputs, one row of `1 + n_cstr`
values per point, a suggestion is made of `q_points` points. -/
theorem C134_answers (cfg : Cfg) (env : Env M C T Z S) (he : NoFailure env) (hc : isDiscrete cfg.xtypes = false)
    (tol : List ℚ) (htol : cfg.tol = tol.map .fin) (labels : List Pt → List (Option ℕ)) (order : List (Option ℕ) → List ℕ) (g : S)
    (x : List (List ℚ)) (y : Mat Flt) (hy : EvalData tol y ⟨0, List.replicate x.length []⟩) (hn : y.ncols = env.nOut)
    (hne : y.rows ≠ []) :
    ∃ r, Ask.solverSuggest cfg env false labels order g x y = .ok r ∧ r.length = cfg.qPoints := by
  obtain ⟨b, hb, hm⟩ := C11_best_is_lexicographic_optimum tol y _ hy hne
  have hl : y.rows.length = x.length := by simpa using hy.rows_eq
  obtain ⟨hlt, -, -⟩ := hm
  have hbl : b < x.length := by simp [hl] at hlt; exact hlt
  have hby : b < y.rows.length := by omega
  have hv : Valid tol.length (y.rows[b] ++ []) := by
    have h2 := hy.valid (y.rows[b] ++ []) (by
      rw [← hl, zipWith_append_nils]
      simp)
    exact h2
  obtain ⟨v, hv1, -⟩ := C11_is_feasible_iff tol y.rows[b] [] hv
  obtain ⟨r, s', hr, hrl, -, -⟩ := batch_full (cfg := cfg) (f := fun _ => []) he hc
    (a := ⟨x, y.rows, List.replicate x.length [], b, v, true, 0, false⟩) hbl hl (by simp)
    (fun r hr => by rw [← hn]; exact hy.y_wf r hr) 0 1 cfg.qPoints 0 ⟨[], .pinf, none⟩ (fresh env.nOut g) (by simp)
    (by simp [fresh]) (by simp [fresh])
  refine ⟨r.pts.map Pt.x, ?_, by simpa using hrl⟩
  unfold Ask.solverSuggest
  have hrow1 : row y b = .ok y.rows[b] := by simp [row, hby]
  have hrow2 : row (⟨0, List.replicate x.length []⟩ : Mat Flt) b = .ok [] := by simp [row, hbl]
  simp only [htol, hb, bind, Except.bind, hrow1, hrow2, hv1, Propose.selectNextPoints, weights, Bool.false_eq_true, false_and, if_false,
    members, hr, List.length_singleton, gt_iff_lt, lt_self_iff_false, at', List.getElem?_cons_zero]

/-! ### Where ask and tell is not the optimizer -/

/-- Surrogates without content, a generator that counts. -/
def toyAsk (optimize : List Bool → Infill Unit → ℕ → ℚ) : Env Bool Unit Unit Unit ℕ where
  nOut := 1
  qOptmod := 1
  train _ _ _ cl _ _ _ := .ok (cl, ())
  toClustering _ := ()
  gen s := (s, s + 1)
  scaling _ _ _ _ := .ok ((), [])
  optimize ms i _ sd _ := .ok (i.fmin, [optimize ms i sd])
  virtual _ _ _ := some [.fin 0]

def askCfg (q : ℕ) : Cfg := ⟨[.float 0 100], q, 1, [], 5, .ninf, false, false, 1, 2, 1 / 2, false⟩

/-- Case of `C134_first_iteration_partial`: three points without constraint, two points per iteration. -/
example : ∃ s, Run.init (askCfg 2) ⟨fun _ => [.fin 1], []⟩ (.full [[1], [2], [3]] ⟨1, [[.fin 4], [.fin 2], [.fin 7]]⟩) = .ok s ∧
    SomeFeasible (askCfg 2) ⟨1, [[.fin 4], [.fin 2], [.fin 7]]⟩ ∧ ¬ 10 ∣ [[1], [2], [(3 : ℚ)]].length ∧
    Ask.solverSuggest (askCfg 2) (toyAsk fun _ _ sd => sd) false (fun _ => []) (fun _ => []) 7 [[1], [2], [3]]
      ⟨1, [[.fin 4], [.fin 2], [.fin 7]]⟩ = .ok [[8], [10]] := by
  refine ⟨_, rfl, ⟨[], rfl, ⟨rfl, ?_, ?_, by decide, rfl, ?_⟩, [.fin 4], by simp, List.Forall₂.nil⟩, by decide, by decide +kernel⟩
  · intro r hr; simp at hr; rcases hr with rfl | rfl | rfl <;> rfl
  · intro r hr; simp at hr; subst hr; rfl
  · intro r hr
    simp [List.replicate] at hr
    rcases hr with rfl | rfl | rfl <;> exact ⟨_, [], rfl, rfl, by simp, by simp, by simp⟩

/-- Case of `C134_answers`: nothing fails in the toy calls, and the data above is comparable. -/
example : NoFailure (toyAsk fun _ _ sd => sd) ∧ ∃ r, Ask.solverSuggest (askCfg 4) (toyAsk fun _ _ sd => sd) false (fun _ => [])
    (fun _ => []) 7 [[1], [2], [3]] ⟨1, [[.fin 4], [.fin 2], [.fin 7]]⟩ = .ok r ∧ r.length = 4 := by
  have he : NoFailure (toyAsk fun _ _ sd => sd) :=
    ⟨fun _ _ _ _ _ _ _ => ⟨_, rfl⟩, fun _ _ _ _ => ⟨_, rfl⟩, fun _ _ _ _ _ => ⟨_, rfl⟩, fun _ _ _ => ⟨_, rfl, rfl⟩, by decide⟩
  refine ⟨he, C134_answers (askCfg 4) _ he rfl [] rfl _ _ _ _ _ ⟨rfl, ?_, ?_, by decide, rfl, ?_⟩ rfl (by simp)⟩
  · intro r hr; simp at hr; rcases hr with rfl | rfl | rfl <;> rfl
  · intro r hr; simp at hr; subst hr; rfl
  · intro r hr
    simp [List.replicate] at hr
    rcases hr with rfl | rfl | rfl <;> exact ⟨_, [], rfl, rfl, by simp, by simp, by simp⟩

/-- **C134** fails when no point satisfies the constraints and the constrained infill criterion is used: `suggest` only looks for
a feasible point, a run looks for a feasible improvement. -/
theorem C134_refuted_infeasible : ∃ (cfg : Cfg) (env : Env Bool Unit Unit Unit ℕ) (x : List (List ℚ)) (y : Mat Flt),
    cfg.usePof = false ∧ cfg.qPoints = 1 ∧
    Ask.solverSuggest cfg env false (fun _ => []) (fun _ => []) 7 x y = .ok [[2]] ∧
    (Run.init cfg ⟨fun _ => [], []⟩ (.full x y) >>= fun s =>
      (proposals cfg ⟨fun _ => [], []⟩ env (.fixed 1) false (fun _ => []) (fun _ => []) s (fresh env.nOut 7)).map fun r =>
        r.1.pts.map Pt.x) = .ok [[1]] :=
  ⟨{ askCfg 1 with nOut := 2, tol := [.fin 0] },
    { toyAsk (fun _ i _ => if i.feasibility then 1 else 2) with nOut := 2, virtual := fun _ _ _ => some [.fin 0, .fin 0] },
    [[0], [5]], ⟨2, [[.fin 4, .fin 1], [.fin 3, .fin 2]]⟩, rfl, rfl, by decide +kernel, by decide +kernel⟩

/-- **C134** fails for several points per iteration if the number of clusters is automatic and the number of points is a
multiple of ten: a run clusters again for each point of the batch, `suggest` does it for the first point only. -/
theorem C134_refuted_clusters : ∃ (cfg : Cfg) (env : Env Bool Unit Unit Unit ℕ) (x : List (List ℚ)) (y : Mat Flt),
    cfg.qPoints = 2 ∧ x.length = 10 ∧
    Ask.solverSuggest cfg env false (fun _ => []) (fun _ => []) 7 x y = .ok [[1], [0]] ∧
    (Run.init cfg ⟨fun _ => [], []⟩ (.full x y) >>= fun s =>
      (proposals cfg ⟨fun _ => [], []⟩ env (.auto none) false (fun _ => []) (fun _ => []) s (fresh env.nOut 7)).map fun r =>
        r.1.pts.map Pt.x) = .ok [[1], [1]] :=
  ⟨askCfg 2, toyAsk (fun ms _ _ => if ms.headD false then 1 else 0),
    (List.range 10).map fun i => [(i : ℚ)], ⟨1, (List.range 10).map fun i => [.fin i]⟩, rfl, rfl, by decide +kernel,
    by decide +kernel⟩

/-- First and second iterations of a run, and the suggestion from the data of the second one. -/
def twoIterations (cfg : Cfg) (f : List ℚ → List Flt) (env : Env Bool Unit Unit Unit ℕ) (g : ℕ) (x : List (List ℚ)) (y : Mat Flt) :
    Except Panic (List (List ℚ) × List (List ℚ) × List (List ℚ) × List (List ℚ)) := do
  let s ← Run.init cfg ⟨f, []⟩ (.full x y)
  let r ← proposals cfg ⟨f, []⟩ env (.fixed 1) false (fun _ => []) (fun _ => []) s (fresh env.nOut g)
  let s1 ← Run.turn cfg ⟨f, []⟩ ⟨fun _ i => (r.1.pts[i]?).map fun p => ⟨p.x, p.y, []⟩, []⟩ s
  let r1 ← proposals cfg ⟨f, []⟩ env (.fixed 1) false (fun _ => []) (fun _ => []) s1 r.2
  let a ← Ask.solverSuggest cfg env false (fun _ => []) (fun _ => []) g s1.data.x s1.data.y
  .ok (r.1.pts.map Pt.x, s1.data.x, r1.1.pts.map Pt.x, a)

/-- **C134** fails from the second iteration on: a run goes on with its random generator, `suggest` starts again from the seed.
Here it suggests a point that is already evaluated, while the run proposes a new one. -/
theorem C134_refuted_second_iteration : ∃ (cfg : Cfg) (f : List ℚ → List Flt) (env : Env Bool Unit Unit Unit ℕ)
    (x : List (List ℚ)) (y : Mat Flt), twoIterations cfg f env 7 x y = .ok ([[8]], [[0], [5], [8]], [[10]], [[8]]) :=
  ⟨askCfg 1, fun x => [.fin (x.headD 0)], toyAsk (fun _ _ sd => sd), [[0], [5]], ⟨1, [[.fin 4], [.fin 3]]⟩, by decide +kernel⟩

end Verif.Props
