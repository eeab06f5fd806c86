import Mathlib.Tactic.IntervalCases
import Verif.Model.Propose
import Mathlib.Tactic.Linarith
import Mathlib.Data.List.Forall2

/-!
# C122: surrogates used for proposals
-/

set_option autoImplicit false

namespace Verif.Props

open Verif Run Propose

variable {M C T Z S : Type} {cfg : Cfg} {P : Prob} {env : Env M C T Z S} {a : Args} {j : ℕ} {w : ℚ}

theorem bindX_ok {α β : Type} {x : Except Panic α} {f : α → Except Panic β} {b : β} :
    (x >>= f) = .ok b ↔ ∃ a, x = .ok a ∧ f a = .ok b := by
  cases x <;> simp [bind, Except.bind]

theorem at'_ok {α : Type} {l : List α} {i : ℕ} {v : α} : at' l i = .ok v ↔ l[i]? = some v := by
  unfold at'
  cases l[i]? <;> simp

theorem mapM_pairs {α β : Type} {f : α → Except Panic β} {l : List α} {r : List β} (h : l.mapM f = .ok r) :
    List.Forall₂ (fun x y => f x = .ok y) l r := by
  induction l generalizing r with
  | nil =>
    simp only [List.mapM_nil, pure, Except.pure, Except.ok.injEq] at h
    subst h
    exact .nil
  | cons x l ih =>
    rw [List.mapM_cons, bindX_ok] at h
    obtain ⟨y, hy, h⟩ := h
    rw [bindX_ok] at h
    obtain ⟨ys, hys, h⟩ := h
    simp only [pure, Except.pure, Except.ok.injEq] at h
    subst h
    exact .cons hy (ih hys)

/-- Column `k` of rows of outputs. -/
def IsColumn (y : List (List Flt)) (k : ℕ) (col : List Flt) : Prop := List.Forall₂ (fun r v => r[k]? = some v) y col

theorem column_ok {y : List (List Flt)} {k : ℕ} {col : List Flt} (h : column y k = .ok col) : IsColumn y k col :=
  (mapM_pairs h).imp fun _ _ h => at'_ok.1 h

theorem trainAll_ok {x : List (List ℚ)} {y : List (List Flt)} {cl opt : Bool} {s : Kept C T S} {ms : List (M × T)}
    (h : trainAll env x y cl opt s = .ok ms) : ms.length = env.nOut ∧ ∀ k (hk : k < ms.length),
      ∃ col c t, IsColumn y k col ∧ s.clusterings[k]? = some c ∧ s.thetas[k]? = some t ∧
        env.train k x col cl opt c t = .ok ms[k] := by
  have h := mapM_pairs h
  have hl : ms.length = env.nOut := by simpa using h.length_eq.symm
  refine ⟨hl, fun k hk => ?_⟩
  have := (List.forall₂_iff_get.1 h).2 k (by simpa [← hl] using hk) hk
  simp only [List.get_eq_getElem, List.getElem_range, bindX_ok, at'_ok] at this
  obtain ⟨col, h1, c, h2, t, h3, h4⟩ := this
  exact ⟨col, c, t, column_ok h1, h2, h3, h4⟩

/-- What is expected of a proposed point `p` with the surrogates `models`, the weight `w` of the standard deviation and the
generator `g`; `v` is the value reached. -/
structure Chosen (cfg : Cfg) (P : Prob) (env : Env M C T Z S) (a : Args) (w : ℚ) (models : List M) (g : S) (p : Pt)
    (v : Flt) : Prop where
  /-- the criterion is optimized for the best evaluated point, from starting points given by the evaluated points, with the
  next random numbers -/
  optimal : ∃ (yb : List Flt) (fmin : Flt) (xb : List ℚ) (cb : List Flt) (z : Z × List Flt),
    a.y[a.best]? = some yb ∧ yb[0]? = some fmin ∧ a.x[a.best]? = some xb ∧ a.c[a.best]? = some cb ∧
    env.scaling (env.gen g).1 models fmin w = .ok z ∧
    env.optimize models ⟨fmin, xb, z.1, z.2, a.feasibility, w⟩ a.x (env.gen (env.gen g).2).1 (xb, yb, cb) =
      .ok (v, p.x) ∧
    scaledFcstr cfg P p.x z.2 = .ok p.c
  virtual : env.virtual p.x a.y models = some p.y
  width : p.y.length = env.nOut

theorem onePoint_ok {i : ℕ} {pre : List Pt} {s s' : Kept C T S} {p : Pt} {v : Flt} {infill : Infill Z}
    (hpre : i = 0 → pre = []) (h : onePoint cfg P env a j w i pre s = .ok (.point p v infill, s')) :
    ∃ ms, trainAll env (a.x ++ pre.map Pt.x) (a.y ++ pre.map Pt.y) ((a.init && i == 0) || a.recluster)
        (Steps.optimizeTheta cfg.qPoints env.qOptmod a.iter i j) s = .ok ms ∧
      s' = { keep env ms s with rng := (env.gen (env.gen s.rng).2).2 } ∧
      ∃ u, v = Flt.neg u ∧ Chosen cfg P env a w (ms.map Prod.fst) s.rng p u := by
  have e1 : (if i = 0 then a.x else a.x ++ pre.map Pt.x) = a.x ++ pre.map Pt.x := by
    split_ifs with h0
    · simp [hpre h0]
    · rfl
  have e2 : (if i = 0 then a.y else a.y ++ pre.map Pt.y) = a.y ++ pre.map Pt.y := by
    split_ifs with h0
    · simp [hpre h0]
    · rfl
  unfold onePoint at h
  simp only [e1, e2, bindX_ok, at'_ok] at h
  obtain ⟨ms, hms, yb, hyb, fmin, hf, xb, hxb, cb, hcb, z, hz, o, ho, h⟩ := h
  refine ⟨ms, hms, ?_⟩
  cases hv : env.virtual o.2 a.y (ms.map Prod.fst) with
  | none => simp [hv] at h
  | some yk =>
    rw [hv] at h
    simp only at h
    split_ifs at h with hl
    rw [bindX_ok] at h
    obtain ⟨ck, hck, h⟩ := h
    simp only [Except.ok.injEq, Prod.mk.injEq, One.point.injEq] at h
    obtain ⟨⟨rfl, rfl, _⟩, rfl⟩ := h
    exact ⟨rfl, o.1, rfl, ⟨yb, fmin, xb, cb, z, hyb, hf, hxb, hcb, hz, ho, hck⟩, hv, not_not.1 hl⟩

/-- Loop invariant: states between the points of a batch. -/
theorem batch_ok {n i : ℕ} {acc r : Res Z} {s s' : Kept C T S} (hi : acc.pts.length = i)
    (h : batch cfg P env a j w i acc s n = .ok (r, s')) :
    ∃ st : ℕ → Kept C T S, st i = s ∧ acc.pts <+: r.pts ∧ r.pts.length ≤ i + n ∧
      (∀ m (hm : m < r.pts.length), i ≤ m → ∃ v infill,
        onePoint cfg P env a j w m (r.pts.take m) (st m) = .ok (.point r.pts[m] v infill, st (m + 1)) ∧
        (m + 1 = r.pts.length → r.value = v)) ∧ (r.pts.length = i → r.value = acc.value) ∧
      (r.pts.length < i + n → ∃ infill,
        onePoint cfg P env a j w r.pts.length r.pts (st r.pts.length) = .ok (.failed infill, s')) ∧
      (r.pts.length = i + n → st (i + n) = s') := by
  induction n generalizing i acc s with
  | zero =>
    simp only [batch, Except.ok.injEq, Prod.mk.injEq] at h
    obtain ⟨rfl, rfl⟩ := h
    exact ⟨fun _ => s, rfl, List.prefix_rfl, by omega, fun m hm h => by omega, fun _ => rfl, fun h => by omega,
      fun _ => rfl⟩
  | succ n ih =>
    rw [batch, bindX_ok] at h
    obtain ⟨⟨o, s1⟩, ho, h⟩ := h
    cases o with
    | failed infill =>
      simp only [Except.ok.injEq, Prod.mk.injEq] at h
      obtain ⟨rfl, rfl⟩ := h
      refine ⟨fun _ => s, rfl, List.prefix_rfl, by simp; omega, fun m hm h => by simp at hm; omega, fun _ => rfl,
        fun _ => ⟨infill, ?_⟩, fun h => by simp at h; omega⟩
      simpa [hi] using ho
    | point p v infill =>
      obtain ⟨st, h1, h2, h3, h4, h0, h5, h6⟩ := ih (acc := ⟨acc.pts ++ [p], v, some infill⟩) (by simp [hi]) h
      simp only at h2
      obtain ⟨t, ht⟩ := h2
      have hp : acc.pts <+: r.pts := ⟨p :: t, by simpa using ht⟩
      have hlen : i < r.pts.length := by rw [← ht]; simp; omega
      have hrp : r.pts[i] = p := by
        have : r.pts[i]? = some p := by rw [← ht]; simp [← hi]
        simpa [List.getElem?_eq_getElem hlen] using this
      have htake : r.pts.take i = acc.pts := by rw [← ht, ← hi]; simp
      refine ⟨fun m => if m = i then s else st m, by simp, hp, by omega, fun m hm him => ?_, fun hl => by omega,
        fun hl => ?_, fun hl => ?_⟩
      · rcases Nat.eq_or_lt_of_le him with rfl | hlt
        · refine ⟨v, infill, ?_, fun hl => h0 (by omega)⟩
          simp only [hrp, htake, if_true, if_neg (Nat.succ_ne_self i), h1]
          exact ho
        · obtain ⟨v', inf', h7⟩ := h4 m hm hlt
          refine ⟨v', inf', ?_, h7.2⟩
          simp only [if_neg (show ¬ m = i by omega), if_neg (show ¬ m + 1 = i by omega)]
          exact h7.1
      · simp only [if_neg (show ¬ r.pts.length = i by omega)]
        exact h5 (by omega)
      · simp only [if_neg (show ¬ i + (n + 1) = i by omega)]
        rw [← h6 (by omega)]
        congr 1
        omega

/-- The surrogates trained for the point of index `i` of a batch: one for each output, on all evaluated points followed by the
points already proposed in the batch, with their virtual outputs. `prev` is what the previous training left. -/
def TrainedFor (cfg : Cfg) (env : Env M C T Z S) (a : Args) (j i : ℕ) (pre : List Pt) (prev : ℕ → Option C × Option T)
    (ms : List (M × T)) : Prop :=
  ms.length = env.nOut ∧ ∀ k m, ms[k]? = some m → ∃ col, IsColumn (a.y ++ pre.map Pt.y) k col ∧
    env.train k (a.x ++ pre.map Pt.x) col (decide ((a.init = true ∧ i = 0) ∨ a.recluster = true))
      (decide (env.qOptmod ∣ a.iter * cfg.qPoints + i ∧ j = 0)) (prev k).1 (prev k).2 = .ok m

theorem optimizeTheta_eq (q m iter i j : ℕ) :
    Steps.optimizeTheta q m iter i j = decide (m ∣ iter * q + i ∧ j = 0) := by
  unfold Steps.optimizeTheta Steps.isMultipleOf
  rw [Bool.eq_iff_iff]
  split_ifs with h0
  · subst h0; simp
  · simp [Nat.dvd_iff_mod_eq_zero]

theorem trainedFor_of {i : ℕ} {pre : List Pt} {s : Kept C T S} {ms : List (M × T)}
    (h : trainAll env (a.x ++ pre.map Pt.x) (a.y ++ pre.map Pt.y) ((a.init && i == 0) || a.recluster)
        (Steps.optimizeTheta cfg.qPoints env.qOptmod a.iter i j) s = .ok ms) (prev : ℕ → Option C × Option T)
    (h1 : ∀ k < env.nOut, ∀ c, s.clusterings[k]? = some c → (prev k).1 = c)
    (h2 : ∀ k < env.nOut, ∀ t, s.thetas[k]? = some t → (prev k).2 = t) : TrainedFor cfg env a j i pre prev ms := by
  obtain ⟨hl, h⟩ := trainAll_ok h
  refine ⟨hl, fun k m hm => ?_⟩
  obtain ⟨hk, rfl⟩ := List.getElem?_eq_some_iff.1 hm
  obtain ⟨col, c, t, h3, h4, h5, h6⟩ := h k hk
  refine ⟨col, h3, ?_⟩
  rw [h1 k (by omega) c h4, h2 k (by omega) t h5, ← h6, optimizeTheta_eq]
  congr 1
  rw [Bool.eq_iff_iff]
  simp

/-- What the first training of a batch finds. -/
def keptAt (s : Kept C T S) (k : ℕ) : Option C × Option T := ((s.clusterings[k]?).join, (s.thetas[k]?).join)

/-- What a training leaves to the next one: the clusterings and the hyperparameters of its surrogates. -/
def leftBy (env : Env M C T Z S) (ms : List (M × T)) (k : ℕ) : Option C × Option T :=
  ((ms[k]?).map fun m => env.toClustering m.1, (ms[k]?).map Prod.snd)

/-- What the training number `i` of a batch finds, `ms` being what the trainings give. -/
def foundAt (env : Env M C T Z S) (s : Kept C T S) (ms : ℕ → List (M × T)) : ℕ → ℕ → Option C × Option T
  | 0 => keptAt s
  | i + 1 => leftBy env (ms i)

/-- The generator after `n` numbers. -/
def rngAfter (env : Env M C T Z S) (g : S) : ℕ → S
  | 0 => g
  | n + 1 => (env.gen (rngAfter env g n)).2

theorem keptAt_keep {s : Kept C T S} {ms : List (M × T)} {k : ℕ} {g : S} (hk : k < ms.length) :
    keptAt { keep env ms s with rng := g } k = leftBy env ms k := by
  unfold keptAt keep leftBy
  simp only
  rw [List.getElem?_append_left (by simpa using hk), List.getElem?_append_left (by simpa using hk),
    List.getElem?_map, List.getElem?_map]
  cases ms[k]? <;> rfl

/-- The points of a batch. Each one is chosen with surrogates trained on all the evaluated points and on the points of the batch
proposed before it, one surrogate per output, starting from the clusterings and hyperparameters of the previous training;
the best point which the criterion refers to is an evaluated one. Each point uses two new random numbers. The infill value is the
one of the last point, and what is kept is left by the last training. -/
theorem C122_batch {r : Res Z} {s s' : Kept C T S}
    (h : batch cfg P env a j w 0 ⟨[], .pinf, none⟩ s cfg.qPoints = .ok (r, s')) :
    r.pts.length ≤ cfg.qPoints ∧ ∃ (ms : ℕ → List (M × T)) (v : ℕ → Flt),
      (∀ i p, r.pts[i]? = some p →
        TrainedFor cfg env a j i (r.pts.take i) (foundAt env s ms i) (ms i) ∧
        Chosen cfg P env a w ((ms i).map Prod.fst) (rngAfter env s.rng (2 * i)) p (v i)) ∧
      (∀ n, r.pts.length = n + 1 → r.value = Flt.neg (v n)) ∧
      (∀ n, r.pts.length = n + 1 → cfg.qPoints = n + 1 → s'.rng = rngAfter env s.rng (2 * (n + 1)) ∧
        ∀ k < env.nOut, keptAt s' k = leftBy env (ms n) k) := by
  obtain ⟨st, h1, -, h3, h4, -, -, h5⟩ := batch_ok (acc := ⟨[], .pinf, none⟩) (i := 0) rfl h
  refine ⟨by simpa using h3, ?_⟩
  have key : ∀ m (hm : m < r.pts.length), ∃ ms u,
      trainAll env (a.x ++ (r.pts.take m).map Pt.x) (a.y ++ (r.pts.take m).map Pt.y) ((a.init && m == 0) || a.recluster)
        (Steps.optimizeTheta cfg.qPoints env.qOptmod a.iter m j) (st m) = .ok ms ∧
      st (m + 1) = { keep env ms (st m) with rng := (env.gen (env.gen (st m).rng).2).2 } ∧
      (m + 1 = r.pts.length → r.value = Flt.neg u) ∧
      Chosen cfg P env a w (ms.map Prod.fst) (st m).rng r.pts[m] u := by
    intro m hm
    obtain ⟨v, inf, h5, h6⟩ := h4 m hm (Nat.zero_le _)
    obtain ⟨ms, h7, h8, u, h9, h10⟩ := onePoint_ok (fun h0 => by simp [h0]) h5
    exact ⟨ms, u, h7, h8, fun h => by rw [h6 h, h9], h10⟩
  choose ms u hms using key
  have hrng : ∀ i, i ≤ r.pts.length → (st i).rng = rngAfter env s.rng (2 * i) := by
    intro i
    induction i with
    | zero => intro _; rw [h1]; rfl
    | succ i ih =>
      intro hi
      rw [(hms i hi).2.1]
      simp only
      rw [ih (by omega)]
      rfl
  refine ⟨fun i => if hi : i < r.pts.length then ms i hi else [], fun i => if hi : i < r.pts.length then u i hi else .nan,
    fun i p hp => ?_, fun n hn => ?_, fun n hn hq => ?_⟩
  · obtain ⟨hi, rfl⟩ := List.getElem?_eq_some_iff.1 hp
    simp only [dif_pos hi]
    obtain ⟨h5, h6, h7, h8⟩ := hms i hi
    rw [← hrng i hi.le]
    have hprev : ∀ k < env.nOut, foundAt env s (fun i => if hi : i < r.pts.length then ms i hi else []) i k =
        keptAt (st i) k := by
      intro k hk
      cases i with
      | zero => rw [h1, foundAt]
      | succ i =>
        have hi' : i < r.pts.length := by omega
        obtain ⟨h9, h10, -, -⟩ := hms i hi'
        simp only [foundAt, dif_pos hi']
        rw [h10, keptAt_keep (by rw [(trainAll_ok h9).1]; exact hk)]
    refine ⟨trainedFor_of h5 _ (fun k hk c hc => ?_) (fun k hk t ht => ?_), h8⟩
    · rw [hprev k hk]
      simp [keptAt, hc]
    · rw [hprev k hk]
      simp [keptAt, ht]
  · have hn' : n < r.pts.length := by omega
    simp only [dif_pos hn']
    exact (hms n hn').2.2.1 (by omega)
  · have hn' : n < r.pts.length := by omega
    have hs' : st (n + 1) = s' := by
      have := h5 (by omega)
      rwa [Nat.zero_add, hq] at this
    simp only [dif_pos hn']
    refine ⟨by rw [← hs', hrng _ (by omega)], fun k hk => ?_⟩
    rw [← hs', (hms n hn').2.1, keptAt_keep (by rw [(trainAll_ok (hms n hn').1).1]; exact hk)]

theorem onePoint_failed {i : ℕ} {pre : List Pt} {s s' : Kept C T S} {infill : Infill Z}
    (h : onePoint cfg P env a j w i pre s = .ok (.failed infill, s')) : ∃ x models, env.virtual x a.y models = none := by
  unfold onePoint at h
  simp only [bindX_ok] at h
  obtain ⟨ms, hms, yb, hyb, fmin, hf, xb, hxb, cb, hcb, z, hz, o, ho, h⟩ := h
  cases hv : env.virtual o.2 a.y (ms.map Prod.fst) with
  | none => exact ⟨_, _, hv⟩
  | some yk =>
    rw [hv] at h
    simp only at h
    split_ifs at h
    rw [bindX_ok] at h
    obtain ⟨ck, hck, h⟩ := h
    simp at h

/-- A batch has the number of points asked as long as outputs can be predicted. -/
theorem C122_full_batch {r : Res Z} {s s' : Kept C T S} (hv : ∀ x models, env.virtual x a.y models ≠ none)
    (h : batch cfg P env a j w 0 ⟨[], .pinf, none⟩ s cfg.qPoints = .ok (r, s')) : r.pts.length = cfg.qPoints := by
  obtain ⟨st, h1, -, h3, h4, -, h5, -⟩ := batch_ok (acc := ⟨[], .pinf, none⟩) (i := 0) rfl h
  by_contra hne
  obtain ⟨inf, h6⟩ := h5 (by omega)
  obtain ⟨x, models, h7⟩ := onePoint_failed h6
  exact hv x models h7

/-- What is kept for other outputs than those of the surrogates does not change, nor does the number of entries. -/
def SameOthers (env : Env M C T Z S) (s s' : Kept C T S) : Prop :=
  s'.clusterings.length = s.clusterings.length ∧ s'.thetas.length = s.thetas.length ∧
    ∀ k, env.nOut ≤ k → s'.clusterings[k]? = s.clusterings[k]? ∧ s'.thetas[k]? = s.thetas[k]?

theorem keep_others {x : List (List ℚ)} {y : List (List Flt)} {cl opt : Bool} {s : Kept C T S} {ms : List (M × T)}
    (h : trainAll env x y cl opt s = .ok ms) (g : S) : SameOthers env s { keep env ms s with rng := g } := by
  obtain ⟨h1, h2⟩ := trainAll_ok h
  have hc : ms.length ≤ s.clusterings.length := by
    by_contra hc
    obtain ⟨_, c, _, _, h3, _⟩ := h2 (ms.length - 1) (by omega)
    obtain ⟨h4, _⟩ := List.getElem?_eq_some_iff.1 h3
    omega
  have ht : ms.length ≤ s.thetas.length := by
    by_contra hc
    obtain ⟨_, _, t, _, _, h3, _⟩ := h2 (ms.length - 1) (by omega)
    obtain ⟨h4, _⟩ := List.getElem?_eq_some_iff.1 h3
    omega
  refine ⟨by simp [keep]; omega, by simp [keep]; omega, fun k hk => ?_⟩
  simp only [keep]
  rw [List.getElem?_append_right (by simp; omega), List.getElem?_append_right (by simp; omega)]
  simp only [List.length_map, List.getElem?_drop]
  rw [show ms.length + (k - ms.length) = k by omega]
  exact ⟨rfl, rfl⟩

theorem SameOthers.trans {s s' s'' : Kept C T S} (h : SameOthers env s s') (h' : SameOthers env s' s'') :
    SameOthers env s s'' :=
  ⟨h'.1.trans h.1, h'.2.1.trans h.2.1, fun k hk =>
    ⟨(h'.2.2 k hk).1.trans (h.2.2 k hk).1, (h'.2.2 k hk).2.trans (h.2.2 k hk).2⟩⟩

theorem onePoint_others {i : ℕ} {pre : List Pt} {s s' : Kept C T S} {o : Propose.One Z}
    (h : onePoint cfg P env a j w i pre s = .ok (o, s')) : SameOthers env s s' := by
  unfold onePoint at h
  simp only [bindX_ok, at'_ok] at h
  obtain ⟨ms, hms, yb, hyb, fmin, hf, xb, hxb, cb, hcb, z, hz, o', ho, h⟩ := h
  have hk := keep_others hms (env.gen (env.gen (keep env ms s).rng).2).2
  cases hv : env.virtual o'.2 a.y (ms.map Prod.fst) with
  | none =>
    rw [hv] at h
    simp only [Except.ok.injEq, Prod.mk.injEq] at h
    obtain ⟨_, rfl⟩ := h
    exact hk
  | some yk =>
    rw [hv] at h
    simp only at h
    split_ifs at h
    rw [bindX_ok] at h
    obtain ⟨ck, _, h⟩ := h
    simp only [Except.ok.injEq, Prod.mk.injEq] at h
    obtain ⟨_, rfl⟩ := h
    exact hk

/-- A batch replaces what is kept for the surrogates and nothing else, whatever its outcome. -/
theorem C122_kept_entries {n i : ℕ} {acc r : Res Z} {s s' : Kept C T S}
    (h : batch cfg P env a j w i acc s n = .ok (r, s')) : SameOthers env s s' := by
  induction n generalizing i acc s with
  | zero =>
    simp only [batch, Except.ok.injEq, Prod.mk.injEq] at h
    obtain ⟨_, rfl⟩ := h
    exact ⟨rfl, rfl, fun _ _ => ⟨rfl, rfl⟩⟩
  | succ n ih =>
    rw [batch, bindX_ok] at h
    obtain ⟨⟨o, s1⟩, ho, h⟩ := h
    have h1 := onePoint_others ho
    cases o with
    | failed infill =>
      simp only [Except.ok.injEq, Prod.mk.injEq] at h
      obtain ⟨_, rfl⟩ := h
      exact h1
    | point p v infill => exact h1.trans (ih h)

/-- The weights of the portfolio are one, then twelve others; all of them are, up to a relative error of `1e-14`, the
thirteen numbers `10 ^ (k / 4 - 1)` regularly spaced between 0.1 and 100 on a logarithmic scale. -/
theorem C122_weights : (weights true 1).length = 13 ∧ (weights true 1)[0]? = some 1 ∧
    ∀ k < 13, ∃ w ∈ weights true 1, 0 < w ∧ |w ^ 4 * 10000 - 10 ^ k| ≤ 10 ^ k / 10 ^ 14 := by
  refine ⟨rfl, rfl, fun k hk => ?_⟩
  have hw : weights true 1 = [1, 0.1, 0.1778279410038923, 0.31622776601683794, 0.5623413251903491, 1.7782794100389228,
      3.1622776601683795, 5.623413251903491, 10, 17.78279410038923, 31.622776601683793, 56.23413251903491, 100] := rfl
  rw [hw]
  interval_cases k
  · exact ⟨0.1, by simp, by norm_num, by rw [abs_le]; constructor <;> norm_num⟩
  · exact ⟨0.1778279410038923, by simp, by norm_num, by rw [abs_le]; constructor <;> norm_num⟩
  · exact ⟨0.31622776601683794, by simp, by norm_num, by rw [abs_le]; constructor <;> norm_num⟩
  · exact ⟨0.5623413251903491, by simp, by norm_num, by rw [abs_le]; constructor <;> norm_num⟩
  · exact ⟨1, by simp, by norm_num, by rw [abs_le]; constructor <;> norm_num⟩
  · exact ⟨1.7782794100389228, by simp, by norm_num, by rw [abs_le]; constructor <;> norm_num⟩
  · exact ⟨3.1622776601683795, by simp, by norm_num, by rw [abs_le]; constructor <;> norm_num⟩
  · exact ⟨5.623413251903491, by simp, by norm_num, by rw [abs_le]; constructor <;> norm_num⟩
  · exact ⟨10, by simp, by norm_num, by rw [abs_le]; constructor <;> norm_num⟩
  · exact ⟨17.78279410038923, by simp, by norm_num, by rw [abs_le]; constructor <;> norm_num⟩
  · exact ⟨31.622776601683793, by simp, by norm_num, by rw [abs_le]; constructor <;> norm_num⟩
  · exact ⟨56.23413251903491, by simp, by norm_num, by rw [abs_le]; constructor <;> norm_num⟩
  · exact ⟨100, by simp, by norm_num, by rw [abs_le]; constructor <;> norm_num⟩

theorem members_ok {ws : List ℚ} {s s' : Kept C T S} {j : ℕ} {rs : List (Res Z)}
    (h : members cfg P env a j s ws = .ok (rs, s')) : rs.length = ws.length ∧
      ∃ st : ℕ → Kept C T S, st 0 = s ∧ st ws.length = s' ∧ ∀ k r w, rs[k]? = some r → ws[k]? = some w →
        batch cfg P env a (j + k) w 0 ⟨[], .pinf, none⟩ (st k) cfg.qPoints = .ok (r, st (k + 1)) := by
  induction ws generalizing s j rs with
  | nil =>
    simp only [members, Except.ok.injEq, Prod.mk.injEq] at h
    obtain ⟨rfl, rfl⟩ := h
    exact ⟨rfl, fun _ => s, rfl, rfl, by simp⟩
  | cons w ws ih =>
    simp only [members, bindX_ok] at h
    obtain ⟨⟨r, s1⟩, h1, ⟨rs1, s2⟩, h2, h⟩ := h
    simp only [Except.ok.injEq, Prod.mk.injEq] at h
    obtain ⟨rfl, rfl⟩ := h
    obtain ⟨h3, st, h4, h5, h6⟩ := ih h2
    refine ⟨by simp [h3], fun k => if k = 0 then s else st (k - 1), rfl, by simpa using h5, fun k r' w' hr hw => ?_⟩
    cases k with
    | zero =>
      simp only [List.getElem?_cons_zero, Option.some.injEq] at hr hw
      subst hr hw
      simpa [h4] using h1
    | succ k =>
      simp only [List.getElem?_cons_succ] at hr hw
      have := h6 k r' w' hr hw
      simp only [Nat.add_sub_cancel, Nat.succ_ne_zero, if_false, Nat.add_eq_zero_iff, Nat.one_ne_zero, and_false]
      rw [Nat.add_succ, ← Nat.succ_add]
      exact this

/-- Without portfolio or for several points, the proposals are those of one batch, with the standard deviation as it is, starting
from what was kept. -/
theorem C122_without_portfolio {pf : Bool} {labels : List Pt → List (Option ℕ)} {order : List (Option ℕ) → List ℕ}
    {s s' : Kept C T S} {r : Res Z} (hp : pf = false ∨ cfg.qPoints ≠ 1)
    (h : Propose.selectNextPoints cfg P env pf labels order a s = .ok (r, s')) :
    batch cfg P env a 0 1 0 ⟨[], .pinf, none⟩ s cfg.qPoints = .ok (r, s') := by
  have hw : weights pf cfg.qPoints = [1] := by
    unfold weights
    rw [if_neg]
    rintro ⟨h1, h2⟩
    rcases hp with h3 | h3
    · simp [h3] at h1
    · exact h3 h2
  unfold Propose.selectNextPoints at h
  rw [hw, bindX_ok] at h
  obtain ⟨⟨rs, s1⟩, h1, h⟩ := h
  obtain ⟨h2, st, h3, h3', h5⟩ := members_ok h1
  rw [if_neg (by simp [h2])] at h
  simp only [bindX_ok, at'_ok, Except.ok.injEq, Prod.mk.injEq] at h
  obtain ⟨first, h4, rfl, rfl⟩ := h
  have h6 := h5 0 first 1 h4 (by simp)
  rw [h3] at h6
  rw [← h3']
  simpa using h6

theorem selectFromPortfolio_mem {α : Type} {rows : List α} {labels : List (Option ℕ)} {order : List ℕ} {sel : List α}
    (h : Steps.selectFromPortfolio rows labels order = .ok sel) : ∀ p ∈ sel, p ∈ rows := by
  unfold Steps.selectFromPortfolio at h
  split at h
  · simp at h
  · simp only at h
    split_ifs at h
    · intro p hp
      have := mapM_pairs h
      obtain ⟨i, hi, rfl⟩ := List.getElem_of_mem hp
      have h1 := (List.forall₂_iff_get.1 this).2 i (by rw [this.length_eq]; exact hi) hi
      simp only [List.get_eq_getElem] at h1
      split at h1
      · rename_i v hv
        simp only [Except.ok.injEq] at h1
        rw [← h1]
        exact List.mem_of_getElem? hv
      · simp at h1
    · simp only [Except.ok.injEq] at h
      subst h
      simp

/-- With a portfolio, there is one batch of a single point for each weight, each starting from what the previous one left. The
first weight is 1, the others are between 1/10 and 100. Each proposal is the point of one of these batches, made with surrogates
trained on the evaluated points only; hyperparameters are optimized for the first weight only. -/
theorem C122_portfolio {labels : List Pt → List (Option ℕ)} {order : List (Option ℕ) → List ℕ}
    {s s' : Kept C T S} {r : Res Z} (hq : cfg.qPoints = 1)
    (h : Propose.selectNextPoints cfg P env true labels order a s = .ok (r, s')) :
    ∃ (st : ℕ → Kept C T S) (w : ℕ → ℚ) (rs : ℕ → Res Z), st 0 = s ∧ st 13 = s' ∧ w 0 = 1 ∧
      (∀ j < 13, 1 / 10 ≤ w j ∧ w j ≤ 100 ∧
        batch cfg P env a j (w j) 0 ⟨[], .pinf, none⟩ (st j) 1 = .ok (rs j, st (j + 1))) ∧
      r.value = (rs 0).value ∧
      ∀ p ∈ r.pts, ∃ j < 13, (rs j).pts = [p] ∧ ∃ ms v, TrainedFor cfg env a j 0 [] (keptAt (st j)) ms ∧
        Chosen cfg P env a (w j) (ms.map Prod.fst) (st j).rng p v := by
  unfold Propose.selectNextPoints at h
  rw [hq, bindX_ok] at h
  obtain ⟨⟨rs, s1⟩, h1, h⟩ := h
  obtain ⟨h2, st, h3, h3', h4⟩ := members_ok h1
  have hlen : (weights true 1).length = 13 := rfl
  rw [if_pos (by simp [h2, hlen])] at h
  simp only [bindX_ok, at'_ok, Except.ok.injEq, Prod.mk.injEq] at h
  obtain ⟨first, hfirst, rows, hrows, sel, hsel, rfl, rfl⟩ := h
  have hrs : rs.length = 13 := by rw [h2, hlen]
  have hget : ∀ j (hj : j < 13), rs[j]? = some (rs.getD j first) := fun j hj => by
    rw [List.getElem?_eq_getElem (by omega)]
    simp [List.getD, List.getElem?_eq_getElem (show j < rs.length by omega)]
  have hw : ∀ j (hj : j < 13), (weights true 1)[j]? = some ((weights true 1).getD j 1) := fun j hj => by
    rw [List.getElem?_eq_getElem (by rw [hlen]; exact hj)]
    simp [List.getD, List.getElem?_eq_getElem (show j < (weights true 1).length by rw [hlen]; exact hj)]
  have hb : ∀ j < 13, batch cfg P env a j ((weights true 1).getD j 1) 0 ⟨[], .pinf, none⟩ (st j) cfg.qPoints =
      .ok (rs.getD j first, st (j + 1)) := fun j hj => by
    have := h4 j _ _ (hget j hj) (hw j hj)
    rwa [Nat.zero_add] at this
  refine ⟨st, fun j => (weights true 1).getD j 1, fun j => rs.getD j first, h3, by rw [← h3', hlen], rfl,
    fun j hj => ⟨?_, ?_, by simpa only [hq] using hb j hj⟩, ?_, fun p hp => ?_⟩
  · have : ∀ j < 13, 1 / 10 ≤ (weights true 1).getD j 1 := by decide +kernel
    exact this j hj
  · have : ∀ j < 13, (weights true 1).getD j 1 ≤ 100 := by decide +kernel
    exact this j hj
  · have := hget 0 (by norm_num)
    rw [hfirst] at this
    simp only [Option.some.injEq] at this
    simp only
    rw [← this]
  · have hp := selectFromPortfolio_mem hsel p hp
    obtain ⟨k, hk, rfl⟩ := List.getElem_of_mem hp
    have h5 := mapM_pairs hrows
    have hk' : k < rs.length := by rw [h5.length_eq]; exact hk
    have h6 := (List.forall₂_iff_get.1 h5).2 k hk' hk
    simp only [List.get_eq_getElem, firstPoint, at'_ok] at h6
    have h13 : k < 13 := by omega
    have hk2 : rs[k] = rs.getD k first := by
      have := hget k h13
      rwa [List.getElem?_eq_getElem hk', Option.some.injEq] at this
    rw [hk2] at h6
    obtain ⟨h7, ms, v, h8, -, -⟩ := C122_batch (hb k h13)
    obtain ⟨h9, h10⟩ := h8 0 _ h6
    refine ⟨k, h13, ?_, ms 0, v 0, by simpa [foundAt] using h9, h10⟩
    rw [hq] at h7
    cases hpts : (rs.getD k first).pts with
    | nil => rw [hpts] at h6; simp at h6
    | cons q l =>
      rw [hpts] at h6 h7
      simp only [List.getElem?_cons_zero, Option.some.injEq] at h6
      rw [h6]
      simpa using h7

/-- The proposals are among those considered by the theorems on runs, where proposals are arbitrary. -/
theorem C122_is_run {pf : Bool} {labels : List Pt → List (Option ℕ)} {order : List (Option ℕ) → List ℕ}
    {s s' : Kept C T S} {r : Res Z} (hp : pf = false ∨ cfg.qPoints ≠ 1)
    (h : Propose.selectNextPoints cfg P env pf labels order a s = .ok (r, s')) :
    ∃ o, Run.selectNextPoints cfg P o = .ok r.pts := by
  obtain ⟨hlen, ms, v, h, -, -⟩ := C122_batch (C122_without_portfolio hp h)
  have key : ∀ i : ℕ, ∃ k : Option Cand, (∀ p : Pt, r.pts[i]? = some p → ∃ c : Cand, k = some c ∧ c.x = p.x ∧ c.y = p.y ∧
      scaledFcstr cfg P p.x c.scale = .ok p.c) ∧ (r.pts[i]? = none → k = none) := by
    intro i
    cases hi : r.pts[i]? with
    | none => exact ⟨none, by simp, fun _ => rfl⟩
    | some p =>
      obtain ⟨-, ⟨⟨_, _, _, _, z, _, _, _, _, _, _, hz⟩, _, _⟩⟩ := h i p hi
      refine ⟨some ⟨p.x, p.y, z.2⟩, fun q hq => ?_, by simp⟩
      simp only [Option.some.injEq] at hq
      subst hq
      exact ⟨_, rfl, rfl, rfl, hz⟩
  choose o ho using key
  refine ⟨o, ?_⟩
  have aux : ∀ n i, r.pts.length ≤ i + n → batchLoop cfg P o i n = .ok (r.pts.drop i) := by
    intro n
    induction n with
    | zero =>
      intro i hi
      rw [batchLoop, List.drop_eq_nil_of_le (by omega)]
    | succ n ih =>
      intro i hi
      rw [batchLoop]
      by_cases hl : i < r.pts.length
      · obtain ⟨c, h1, h2, h3, h4⟩ := (ho i).1 _ (List.getElem?_eq_getElem hl)
        rw [h1]
        simp only [h2, h4, ih (i + 1) (by omega), bind, Except.bind, h3]
        rw [List.drop_eq_getElem_cons hl]
      · rw [(ho i).2 (List.getElem?_eq_none (by omega)), List.drop_eq_nil_of_le (by omega)]
  rw [Run.selectNextPoints, aux cfg.qPoints 0 (by omega), List.drop_zero]

/-- A local step of TREGO uses surrogates trained on all evaluated points with the clusterings kept, and optimizes their
hyperparameters again. -/
theorem C122_local_step {x : List (List ℚ)} {y : List (List Flt)} {s : Kept C T S} {models : List M}
    (h : refresh env x y s = .ok models) : models.length = env.nOut ∧ ∀ k m, models[k]? = some m →
      ∃ col t, IsColumn y k col ∧ env.train k x col false true (keptAt s k).1 (keptAt s k).2 = .ok (m, t) := by
  unfold refresh at h
  rw [bindX_ok] at h
  obtain ⟨ms, h1, h⟩ := h
  simp only [Except.ok.injEq] at h
  subst h
  obtain ⟨h2, h3⟩ := trainAll_ok h1
  refine ⟨by simp [h2], fun k m hm => ?_⟩
  simp only [List.getElem?_map, Option.map_eq_some_iff] at hm
  obtain ⟨mt, hm, rfl⟩ := hm
  obtain ⟨hk, rfl⟩ := List.getElem?_eq_some_iff.1 hm
  obtain ⟨col, c, t, h4, h5, h6, h7⟩ := h3 k hk
  refine ⟨col, ms[k].2, h4, ?_⟩
  simpa [keptAt, h5, h6] using h7

/-! ## C123: failed predictions -/

/-- A failed prediction ends a batch, which keeps the points proposed before. -/
theorem C123_shorter_batch_partial {r : Res Z} {s s' : Kept C T S}
    (h : batch cfg P env a j w 0 ⟨[], .pinf, none⟩ s cfg.qPoints = .ok (r, s')) (hl : r.pts.length < cfg.qPoints) :
    ∃ x models, env.virtual x a.y models = none := by
  obtain ⟨st, h1, -, h3, h4, -, h5, -⟩ := batch_ok (acc := ⟨[], .pinf, none⟩) (i := 0) rfl h
  obtain ⟨inf, h6⟩ := h5 (by omega)
  exact onePoint_failed h6

/-- A failed prediction for the first point of a batch makes the step panic. -/
theorem C123_refuted_first_point (sel : ℕ → ℕ → Option Cand) (st : St) (hs : st.retries ≠ 0) (h : sel 0 0 = none) :
    egoStep cfg P sel st = .error .outOfBounds := by
  obtain ⟨r, hr⟩ := Nat.exists_eq_succ_of_ne_zero hs
  have h1 : Run.selectNextPoints cfg P (sel 0) = .ok [] := by
    unfold Run.selectNextPoints
    cases cfg.qPoints with
    | zero => rfl
    | succ n => simp [batchLoop, h]
  have h2 : egoLoop cfg P sel st.data 0 (r + 1) = .error .outOfBounds := by
    rw [egoLoop, h1]
    rfl
  unfold egoStep
  rw [hr, h2]
  rfl

/-- With a portfolio a single failed prediction makes the whole iteration panic, although the other weights have proposals. -/
theorem C123_refuted_portfolio {labels : List Pt → List (Option ℕ)} {order : List (Option ℕ) → List ℕ}
    {s s' : Kept C T S} {rs : List (Res Z)} (hq : cfg.qPoints = 1)
    (h : members cfg P env a 0 s (weights true 1) = .ok (rs, s')) (hf : ∃ r ∈ rs, r.pts = []) :
    Propose.selectNextPoints cfg P env true labels order a s = .error .outOfBounds := by
  obtain ⟨h2, -⟩ := members_ok h
  have hl : rs.length > 1 := by simp [h2, weights]
  unfold Propose.selectNextPoints
  rw [hq, h]
  have h0 : at' rs 0 = .ok rs[0] := at'_ok.2 (List.getElem?_eq_getElem (by omega))
  have key : ∀ l : List (Res Z), (∃ r ∈ l, r.pts = []) → l.mapM firstPoint = .error .outOfBounds := by
    intro l
    induction l with
    | nil => simp
    | cons r l ih =>
      rintro ⟨r', hr, hn⟩
      rw [List.mapM_cons]
      cases hr0 : r.pts with
      | nil => simp [firstPoint, at', hr0, bind, Except.bind]
      | cons p ps =>
        have : r' ∈ l := by
          rcases List.mem_cons.1 hr with rfl | h
          · simp [hn] at hr0
          · exact h
        simp [firstPoint, at', hr0, bind, Except.bind, ih ⟨r', this, hn⟩]
  simp only [bind, Except.bind, if_pos hl, h0, key rs hf]

/-! ## Cases -/

/-- Surrogates remember the data they are trained on, the point proposed is the number of training points. -/
def toyProposals : Env (List (List ℚ) × List Flt) ℕ ℕ Unit ℕ where
  nOut := 2
  qOptmod := 2
  train k x col cl opt c t :=
    if cl = false ∧ c = none then .error .other
    else .ok ((x, col), (if opt then 100 else 0) + t.getD 0 + k)
  toClustering m := m.1.length
  gen s := (s, s + 1)
  scaling _ _ _ _ := .ok ((), [])
  optimize ms i _ _ _ := .ok (i.fmin, [((ms.headD ([], [])).1.length : ℚ) * i.weight])
  virtual x _ ms := if x = [] then none else some [.fin 0, .fin ms.length]

def toyCfg (q : ℕ) : Cfg := ⟨[.float 0 10], q, 2, [.fin 0], 5, .ninf, false, false, 1, 2, 1 / 2, false⟩

def toyArgs : Args := ⟨[[0], [5]], [[.fin 4, .fin 1], [.fin 3, .fin 1]], [[], []], 1, true, true, 0, false⟩

/-- Three points of a batch: the surrogates are trained on 2, 3 and 4 points. -/
example : (Propose.selectNextPoints (toyCfg 3) ⟨fun _ => [], []⟩ toyProposals false (fun _ => []) (fun _ => []) toyArgs
      ⟨[none, none], [none, none], 7⟩).map (fun r => (r.1.pts.map Pt.x, r.2.clusterings, r.2.thetas, r.2.rng)) =
    .ok ([[2], [3], [4]], [some 4, some 4], [some 200, some 203], 13) := by decide +kernel

/-- A portfolio of two groups of points. -/
example : (Propose.selectNextPoints (toyCfg 1) ⟨fun _ => [], []⟩ toyProposals true
      (fun rows => (List.range rows.length).map fun i => if i < 8 then some 0 else some 1) (fun _ => [1, 0]) toyArgs
      ⟨[none, none], [none, none], 7⟩).map (fun r => (r.1.pts.map Pt.x, r.2.clusterings)) =
    .ok ([[20], [2]], [some 2, some 2]) := by decide +kernel

/-- A portfolio makes a run depend on more than the seed: the points selected are in the order of a hash map, which is not the
same from one execution to the next. The surrogates, the data and the seed are the same here. -/
theorem C111_refuted_portfolio : ∃ (labels : List Pt → List (Option ℕ)) (order order' : List (Option ℕ) → List ℕ),
    (∀ l, (order l).Perm (order' l)) ∧
    let run := fun o => (Propose.selectNextPoints (toyCfg 1) ⟨fun _ => [], []⟩ toyProposals true labels o toyArgs
      ⟨[none, none], [none, none], 7⟩).map fun r => r.1.pts.map Pt.x
    run order = .ok [[2], [20]] ∧ run order' = .ok [[20], [2]] :=
  ⟨fun rows => (List.range rows.length).map fun i => if i < 8 then some 0 else some 1, fun _ => [0, 1], fun _ => [1, 0],
    fun _ => List.Perm.swap 1 0 [], by decide +kernel⟩

end Verif.Props
