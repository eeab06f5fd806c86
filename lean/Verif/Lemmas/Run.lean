import Verif.Model.Run
import Verif.Spec.Run
import Verif.Lemmas.Best

/-!
# Lemmas on the run model
-/

set_option autoImplicit false

namespace Verif

theorem bind_ok {α β : Type} {x : Except Panic α} {f : α → Except Panic β} {b : β} :
    (x >>= f) = .ok b ↔ ∃ a, x = .ok a ∧ f a = .ok b := by
  cases x <;> simp [bind, Except.bind]

theorem mapM_ok {α β : Type} {f : α → Except Panic β} {l : List α} {l' : List β} :
    l.mapM f = .ok l' ↔ List.Forall₂ (fun a b => f a = .ok b) l l' := by
  induction l generalizing l' with
  | nil => simp [pure, Except.pure, eq_comm]
  | cons a l ih =>
    rw [List.mapM_cons, bind_ok]
    constructor
    · rintro ⟨b, hb, h⟩
      rw [bind_ok] at h
      obtain ⟨r, hr, h⟩ := h
      simp only [pure, Except.pure, Except.ok.injEq] at h
      subst h
      exact .cons hb (ih.1 hr)
    · intro h
      cases h with
      | cons hb hr => exact ⟨_, hb, by rw [bind_ok]; exact ⟨_, ih.2 hr, rfl⟩⟩

namespace Run

open Spec FindResult MixInt

/-- Two points of the same dimension, far enough from each other. -/
def Far (a b : List ℚ) : Prop := a.length = b.length ∧ minSep ≤ l1 a b

theorem l1dist_ok {a b : List ℚ} {d : ℚ} (h : l1dist a b = .ok d) : a.length = b.length ∧ d = l1 a b := by
  unfold l1dist at h
  split_ifs at h with h1 h2
  · simp only [Except.ok.injEq] at h
    simp only [ne_eq, not_not] at h2
    exact ⟨h2, h.symm⟩

theorem isUpdateOk_true {x : List ℚ} {rs : List (List ℚ)} (h : isUpdateOk x rs = .ok true) :
    ∀ r ∈ rs, Far r x := by
  induction rs with
  | nil => simp
  | cons r rs ih =>
    simp only [isUpdateOk, bind_ok] at h
    obtain ⟨d, hd, h⟩ := h
    split_ifs at h with hlt
    · simp at h
    · obtain ⟨h1, rfl⟩ := l1dist_ok hd
      intro a ha
      rcases List.mem_cons.1 ha with rfl | ha
      · exact ⟨h1, not_lt.1 hlt⟩
      · exact ih h a ha

theorem isUpdateOk_false {x : List ℚ} {rs : List (List ℚ)} (h : isUpdateOk x rs = .ok false) :
    ∃ r ∈ rs, r.length = x.length ∧ l1 r x < minSep := by
  induction rs with
  | nil => simp [isUpdateOk] at h
  | cons r rs ih =>
    simp only [isUpdateOk, bind_ok] at h
    obtain ⟨d, hd, h⟩ := h
    obtain ⟨h1, rfl⟩ := l1dist_ok hd
    split_ifs at h with hlt
    · exact ⟨r, by simp, h1, hlt⟩
    · obtain ⟨a, ha, h2⟩ := ih h
      exact ⟨a, by simp [ha], h2⟩

theorem pushRow_ok {m m' : Mat Flt} {r : List Flt} (h : pushRow m r = .ok m') :
    m' = ⟨m.ncols, m.rows ++ [r]⟩ ∧ r.length = m.ncols := by
  unfold pushRow at h
  split_ifs at h with h1
  · simp only [Except.ok.injEq] at h
    exact ⟨h.symm, h1⟩

/-- Effect of `update_data`. -/
theorem updateData_spec {d d' : Data} {ps : List Pt} {idx : ℕ} {ids : List ℕ}
    (h : updateData d idx ps = .ok (d', ids)) :
    ∃ qs : List Pt, qs.Sublist ps ∧ qs.length = ids.length ∧ d'.x = d.x ++ qs.map (·.x) ∧
      d'.y = ⟨d.y.ncols, d.y.rows ++ qs.map (·.y)⟩ ∧ d'.c = ⟨d.c.ncols, d.c.rows ++ qs.map (·.c)⟩ ∧
      (∀ q ∈ qs, q.y.length = d.y.ncols ∧ q.c.length = d.c.ncols) ∧
      (∀ (i : ℕ) (hi : i < qs.length), ∀ a ∈ d.x ++ (qs.take i).map (·.x), Far a qs[i].x) ∧
      (∀ p ∈ ps, p ∈ qs ∨ ∃ a ∈ d'.x, a.length = p.x.length ∧ l1 a p.x < minSep) := by
  induction ps generalizing d idx ids with
  | nil =>
    simp only [updateData, Except.ok.injEq, Prod.mk.injEq] at h
    obtain ⟨rfl, rfl⟩ := h
    exact ⟨[], by simp⟩
  | cons p ps ih =>
    simp only [updateData, bind_ok] at h
    obtain ⟨b, hb, h⟩ := h
    cases b with
    | false =>
      simp only [Bool.false_eq_true, if_false] at h
      obtain ⟨qs, h1, h2, h3, h4, h5, h6, h7, h8⟩ := ih h
      refine ⟨qs, h1.cons _, h2, h3, h4, h5, h6, h7, ?_⟩
      intro q hq
      rcases List.mem_cons.1 hq with rfl | hq
      · right
        obtain ⟨a, ha, h⟩ := isUpdateOk_false hb
        exact ⟨a, by rw [h3]; exact List.mem_append_left _ ha, h⟩
      · exact h8 q hq
    | true =>
      simp only [if_true, bind_ok] at h
      obtain ⟨y, hy, c, hc, r, hr, h⟩ := h
      simp only [Except.ok.injEq, Prod.mk.injEq] at h
      obtain ⟨rfl, rfl⟩ := h
      obtain ⟨rfl, ly⟩ := pushRow_ok hy
      obtain ⟨rfl, lc⟩ := pushRow_ok hc
      obtain ⟨qs, h1, h2, h3, h4, h5, h6, h7, h8⟩ := ih hr
      have hfar := isUpdateOk_true hb
      refine ⟨p :: qs, h1.cons_cons _, by simp [h2], by simp [h3], by simp [h4], by simp [h5], ?_, ?_, ?_⟩
      · intro q hq
        rcases List.mem_cons.1 hq with rfl | hq
        · exact ⟨ly, lc⟩
        · exact h6 q hq
      · intro i hi
        cases i with
        | zero => simpa using hfar
        | succ i =>
          have := h7 i (by simpa using hi)
          simpa using this
      · intro q hq
        rcases List.mem_cons.1 hq with rfl | hq
        · left; simp
        · rcases h8 q hq with h | h
          · left; simp [h]
          · exact Or.inr h

theorem updateData_near {d : Data} {ps : List Pt} (idx : ℕ)
    (h : ∀ p ∈ ps, isUpdateOk p.x d.x = .ok false) : updateData d idx ps = .ok (d, []) := by
  induction ps generalizing idx with
  | nil => rfl
  | cons p ps ih =>
    simp only [updateData, h p (by simp), bind, Except.bind, Bool.false_eq_true, if_false]
    exact ih (idx + 1) (fun q hq => h q (by simp [hq]))

/-- How the function constraints of an added point were computed: scaled (EGO) or not (TREGO). -/
def StoredCstr (cfg : Cfg) (P : Prob) (x : List ℚ) (c : List Flt) : Option (List Flt) → Prop
  | some scale => scaledFcstr cfg P x scale = .ok c
  | none => evalFcstr cfg P x = .ok c

/-- The point `x` is one of the choices of the environment for an iteration, `src` being the scaling
factors given with it (EGO) or `none` (TREGO). -/
def Proposed (o : Oracle) (x : List ℚ) : Option (List Flt) → Prop
  | some scale => ∃ k i c, o.sel k i = some c ∧ c.x = x ∧ c.scale = scale
  | none => x = o.loc

/-- `d'` extends `d` with the points `xs`, their true outputs and constraint values. `S` relates a point
and the way its function constraints are computed. -/
structure Ext (cfg : Cfg) (P : Prob) (S : List ℚ → Option (List Flt) → Prop) (d d' : Data) (xs : List (List ℚ)) : Prop where
  x : d'.x = d.x ++ xs
  y : ∃ ys, d'.y = ⟨d.y.ncols, d.y.rows ++ ys⟩ ∧ List.Forall₂ (fun x y => y.length = d.y.ncols ∧
    ∃ u, userInput cfg x = .ok u ∧ assignRow d.y.ncols (P.f u) = .ok y) xs ys
  c : ∃ cs, d'.c = ⟨d.c.ncols, d.c.rows ++ cs⟩ ∧ List.Forall₂ (fun x c => c.length = d.c.ncols ∧
    ∃ src, S x src ∧ StoredCstr cfg P x c src) xs cs
  far : ∀ (i : ℕ) (hi : i < xs.length), ∀ a ∈ d.x ++ xs.take i, Far a xs[i]

theorem Ext.refl (cfg : Cfg) (P : Prob) (S : List ℚ → Option (List Flt) → Prop) (d : Data) :
    Ext cfg P S d d [] :=
  ⟨by simp, ⟨[], by simp⟩, ⟨[], by simp⟩, by simp⟩

theorem Ext.mono {cfg : Cfg} {P : Prob} {S S' : List ℚ → Option (List Flt) → Prop} {d d' : Data}
    {xs : List (List ℚ)} (h : Ext cfg P S d d' xs) (hS : ∀ x src, S x src → S' x src) :
    Ext cfg P S' d d' xs := by
  obtain ⟨hx, hy, ⟨cs, hc, fc⟩, hf⟩ := h
  refine ⟨hx, hy, ⟨cs, hc, fc.imp ?_⟩, hf⟩
  rintro x c ⟨h1, src, h2, h3⟩
  exact ⟨h1, src, hS _ _ h2, h3⟩

theorem Ext.trans {cfg : Cfg} {P : Prob} {S : List ℚ → Option (List Flt) → Prop} {d d' d'' : Data}
    {xs xs' : List (List ℚ)}
    (h : Ext cfg P S d d' xs) (h' : Ext cfg P S d' d'' xs') : Ext cfg P S d d'' (xs ++ xs') := by
  obtain ⟨hx, ⟨ys, hy, fy⟩, ⟨cs, hc, fc⟩, hf⟩ := h
  obtain ⟨hx', ⟨ys', hy', fy'⟩, ⟨cs', hc', fc'⟩, hf'⟩ := h'
  refine ⟨by rw [hx', hx, List.append_assoc], ⟨ys ++ ys', ?_, ?_⟩, ⟨cs ++ cs', ?_, ?_⟩, ?_⟩
  · rw [hy', hy]; simp
  · rw [hy] at fy'; exact List.rel_append (R := _) fy fy'
  · rw [hc', hc]; simp
  · rw [hc] at fc'; exact List.rel_append (R := _) fc fc'
  · intro i hi a ha
    by_cases h1 : i < xs.length
    · rw [List.getElem_append_left h1]
      refine hf i h1 a ?_
      rwa [List.take_append_of_le_length (by omega)] at ha
    · rw [List.getElem_append_right (by omega)]
      refine hf' (i - xs.length) (by simp at hi; omega) a ?_
      rw [hx]
      rw [List.take_append, List.take_of_length_le (by omega)] at ha
      simpa [List.append_assoc] using ha

theorem Far.symm_len {a b : List ℚ} (h : Far a b) : a.length = b.length := h.1

theorem batchLoop_spec {cfg : Cfg} {P : Prob} {o : ℕ → Option Cand} {i n : ℕ} {ps : List Pt}
    (h : batchLoop cfg P o i n = .ok ps) :
    ps.length ≤ n ∧ ∀ p ∈ ps, ∃ j c, o j = some c ∧ c.x = p.x ∧
      scaledFcstr cfg P p.x c.scale = .ok p.c := by
  induction n generalizing i ps with
  | zero => simp only [batchLoop, Except.ok.injEq] at h; subst h; simp
  | succ n ih =>
    simp only [batchLoop] at h
    split at h
    · simp only [Except.ok.injEq] at h; subst h; simp
    · rename_i k hk
      simp only [bind_ok] at h
      obtain ⟨c, hc, r, hr, h⟩ := h
      simp only [Except.ok.injEq] at h
      subst h
      obtain ⟨h1, h2⟩ := ih hr
      refine ⟨by simpa using h1, ?_⟩
      intro p hp
      rcases List.mem_cons.1 hp with rfl | hp
      · exact ⟨i, k, hk, rfl, hc⟩
      · exact h2 p hp

theorem egoLoop_spec {cfg : Cfg} {P : Prob} {sel : ℕ → ℕ → Option Cand} {d : Data} {k r : ℕ}
    {l : LoopRes} (h : egoLoop cfg P sel d k r = .ok l) :
    (l = .noMore d) ∨
    ∃ (d' : Data) (n : ℕ) (qs : List Pt), l = .added d' n ∧ n = qs.length ∧ 1 ≤ n ∧ n ≤ cfg.qPoints ∧
      d'.x = d.x ++ qs.map Pt.x ∧
      d'.y = ⟨d.y.ncols, d.y.rows ++ qs.map Pt.y⟩ ∧ d'.c = ⟨d.c.ncols, d.c.rows ++ qs.map Pt.c⟩ ∧
      (∀ q ∈ qs, q.y.length = d.y.ncols ∧ q.c.length = d.c.ncols) ∧
      (∀ q ∈ qs, ∃ l j c, sel l j = some c ∧ c.x = q.x ∧ scaledFcstr cfg P q.x c.scale = .ok q.c) ∧
      (∀ (i : ℕ) (hi : i < qs.length), ∀ a ∈ d.x ++ (qs.take i).map Pt.x, Far a qs[i].x) := by
  induction r generalizing d k with
  | zero => simp [egoLoop] at h
  | succ r ih =>
    simp only [egoLoop, bind_ok] at h
    obtain ⟨ps, hps, ⟨d', ids⟩, hu, h⟩ := h
    obtain ⟨hlen, hsc⟩ := batchLoop_spec hps
    obtain ⟨qs, h1, h2, h3, h4, h5, h6, h7, _⟩ := updateData_spec hu
    have hle := h1.length_le
    split_ifs at h with he hrej hr
    · -- all rejected, stop
      have : qs = [] := List.eq_nil_of_length_eq_zero (by
        have : ps.length ≠ 0 := by simpa using he
        simp only at hrej
        omega)
      subst this
      simp only [Except.ok.injEq] at h
      left
      rw [← h]
      congr
      cases d'; cases d
      simp_all
    · have : qs = [] := List.eq_nil_of_length_eq_zero (by
        have : ps.length ≠ 0 := by simpa using he
        simp only at hrej
        omega)
      subst this
      have hd : d' = d := by cases d'; cases d; simp_all
      simp only at h
      rw [hd] at h
      exact ih h
    · right
      simp only [Except.ok.injEq] at h
      simp only at hrej
      refine ⟨d', qs.length, qs, ?_, rfl, ?_, by omega, h3, h4, h5, h6,
        fun q hq => ⟨k, hsc q (h1.subset hq)⟩, h7⟩
      · rw [← h]; congr 1; omega
      · omega

theorem assignRow_length {n : ℕ} {v w : List Flt} (h : assignRow n v = .ok w) : w.length = n := by
  unfold assignRow at h
  split_ifs at h with h1
  · simp only [Except.ok.injEq] at h; rw [← h, h1]
  · split at h
    · simp only [Except.ok.injEq] at h; rw [← h]; simp
    · simp at h

theorem assignRow_self {n : ℕ} {v : List Flt} (h : v.length = n) : assignRow n v = .ok v := by
  unfold assignRow; rw [if_pos h]

/-- Effect of an EGO step. -/
theorem egoStep_spec {cfg : Cfg} {P : Prob} {o : Oracle} {s : St} {r : StepRes}
    (h : egoStep cfg P o.sel s = .ok r) :
    (r = .noMore { s with retries := 0 }) ∨
    ∃ s' xs us b fe, r = .ok s' ∧ Ext cfg P (Proposed o) s.data s'.data xs ∧ 1 ≤ xs.length ∧
      xs.length ≤ cfg.qPoints ∧ List.Forall₂ (fun x u => userInput cfg x = .ok u) xs us ∧
      findBestFrom s.best s.data.y.rows.length s'.data.y s'.data.c cfg.tol = .ok b ∧
      updFeasible s.feasible s'.data b cfg.tol = .ok fe ∧
      s' = { s with
              data := s'.data, prevBest := s.best, best := b, feasible := fe,
              prevAdded := s.added, added := s.added + xs.length, retries := maxRetry,
              calls := s.calls ++ us } := by
  simp only [egoStep, bind_ok] at h
  obtain ⟨l, hl, h⟩ := h
  rcases egoLoop_spec hl with rfl | ⟨d', n, qs, rfl, hn, h1, hq, h3, h4, h5, h6, h7, h8⟩
  · left
    simp only [Except.ok.injEq] at h
    exact h.symm
  · right
    simp only [bind_ok] at h
    obtain ⟨ev, hev, vals, hvals, b, hb, fe, hfe, h⟩ := h
    simp only [evalObj, bind_ok, Except.ok.injEq] at hev
    obtain ⟨us, hus, rfl⟩ := hev
    have hx : d'.x.drop (d'.x.length - n) = qs.map Pt.x := by
      rw [h3, hn]; simp
    rw [hx, mapM_ok] at hus
    rw [mapM_ok] at hvals
    have hvl : vals.length = n := by
      rw [← hvals.length_eq, List.length_map, ← hus.length_eq, List.length_map, hn]
    have htake : d'.y.rows.take (d'.y.rows.length - n) = s.data.y.rows := by
      rw [h4, hn]; simp
    have hnc : d'.y.ncols = s.data.y.ncols := by rw [h4]
    simp only [Except.ok.injEq] at h
    simp only [htake, hnc] at h hb hfe hvals
    have hrows : (s.data.y.rows ++ vals).length - n = s.data.y.rows.length := by simp [hvl]
    rw [hrows] at hb
    refine ⟨_, qs.map Pt.x, us, b, fe, h.symm, ⟨?_, ⟨vals, rfl, ?_⟩, ⟨qs.map Pt.c, ?_, ?_⟩, ?_⟩,
      by simpa [← hn] using h1, by simpa [← hn] using hq, hus, hb, hfe, ?_⟩
    · exact h3
    · -- outputs
      clear h hb hfe hrows htake hvl h1 hq h3 h4 h5 h6 h7 h8 hx hl hn
      generalize qs.map Pt.x = xs at hus
      induction hus generalizing vals with
      | nil => cases hvals; exact .nil
      | cons hu _ ih =>
        rw [List.map_cons] at hvals
        cases hvals with
        | cons hv hvs => exact .cons ⟨assignRow_length hv, _, hu, hv⟩ (ih _ hvs)
    · exact h5
    · rw [List.forall₂_map_left_iff, List.forall₂_map_right_iff, List.forall₂_same]
      intro q hq
      obtain ⟨l, j, c, e1, e2, e3⟩ := h7 q hq
      exact ⟨(h6 q hq).2, some c.scale, ⟨l, j, c, e1, e2, rfl⟩, e3⟩
    · intro i hi a ha
      have := h8 i (by simpa using hi) a (by rw [← List.map_take] at ha; exact ha)
      simpa using this
    · simp [hn]

/-- Effect of a TREGO step. -/
theorem tregoStep_spec {cfg : Cfg} {P : Prob} {o : Oracle} {x : List ℚ} {s s' : St} (hxo : x = o.loc)
    (h : tregoStep cfg P x s = .ok s') :
    ∃ xs u b fe, (xs = [] ∧ (∃ a ∈ s.data.x, a.length = x.length ∧ l1 a x < minSep) ∨ xs = [x]) ∧
      Ext cfg P (Proposed o) s.data s'.data xs ∧ userInput cfg x = .ok u ∧
      0 < s'.data.y.rows.length ∧
      findBestFrom s.best (s'.data.y.rows.length - 1) s'.data.y s'.data.c cfg.tol = .ok b ∧
      updFeasible s.feasible s'.data b cfg.tol = .ok fe ∧
      s' = { s with
              data := s'.data, prevBest := s.best, best := b, feasible := fe,
              prevAdded := s.added, added := s.added + xs.length, calls := s.calls ++ [u] } := by
  simp only [tregoStep, bind_ok] at h
  obtain ⟨ev, hev, c, hc, ⟨d', ids⟩, hu, h⟩ := h
  simp only [evalObj, bind_ok, Except.ok.injEq] at hev
  obtain ⟨us, hus, rfl⟩ := hev
  rw [mapM_ok] at hus
  obtain ⟨u, us', hu1, hu2, rfl⟩ := List.forall₂_cons_left_iff.1 hus
  cases hu2
  split_ifs at h with hz
  simp only [bind_ok] at h
  obtain ⟨b, hb, fe, hfe, h⟩ := h
  simp only [Except.ok.injEq] at h
  obtain ⟨qs, h1, h2, h3, h4, h5, h6, h7, h8⟩ := updateData_spec hu
  simp only [List.map_cons, List.map_nil] at h1 h8
  have hqs : qs = [] ∨ qs = [⟨x, P.f u, c⟩] := by
    cases h1 with
    | cons _ h => left; simpa using h
    | cons_cons _ h => right; simpa using h
  simp only at hz hb hfe
  subst h
  refine ⟨qs.map Pt.x, u, b, fe, ?_, ⟨h3, ⟨qs.map Pt.y, h4, ?_⟩, ⟨qs.map Pt.c, h5, ?_⟩, ?_⟩, hu1,
    Nat.pos_of_ne_zero hz, hb, hfe, ?_⟩
  · rcases hqs with rfl | rfl
    · left
      refine ⟨rfl, ?_⟩
      rcases h8 ⟨x, P.f u, c⟩ (by simp) with h | ⟨a, ha, h⟩
      · simp at h
      · exact ⟨a, by simpa [h3] using ha, h⟩
    · right; rfl
  · rcases hqs with rfl | rfl
    · simp
    · have := (h6 ⟨x, P.f u, c⟩ (by simp)).1
      exact .cons ⟨this, u, hu1, assignRow_self this⟩ .nil
  · rcases hqs with rfl | rfl
    · simp
    · exact .cons ⟨(h6 ⟨x, P.f u, c⟩ (by simp)).2, none, hxo, hc⟩ .nil
  · intro i hi a ha
    have := h7 i (by simpa using hi) a (by rw [← List.map_take] at ha; exact ha)
    simpa using this
  · simp [h2]

/-- The three kinds of iterations. -/
inductive Kind (cfg : Cfg) (o : Oracle) (s s' : St) (xs us : List (List ℚ)) : Prop
  /-- no point could be added -/
  | noMore : xs = [] → us = [] → s'.data = s.data → s'.best = s.best → s'.prevBest = s.prevBest →
      s'.feasible = s.feasible → s'.converged = true → s'.added = s.added →
      s'.prevAdded = s.prevAdded → Kind cfg o s s' xs us
  /-- global step -/
  | ego : 1 ≤ xs.length → xs.length ≤ cfg.qPoints →
      List.Forall₂ (fun x u => userInput cfg x = .ok u) xs us →
      findBestFrom s.best s.data.y.rows.length s'.data.y s'.data.c cfg.tol = .ok s'.best →
      s'.prevBest = s.best → updFeasible s.feasible s'.data s'.best cfg.tol = .ok s'.feasible →
      s'.retries = maxRetry → s'.converged = s.converged →
      s'.added = s.added + xs.length → s'.prevAdded = s.added → Kind cfg o s s' xs us
  /-- local step -/
  | trego (x u : List ℚ) : x = o.loc → cfg.trego = true → us = [u] → userInput cfg x = .ok u →
      (xs = [] ∧ (∃ a ∈ s.data.x, a.length = x.length ∧ l1 a x < minSep) ∨ xs = [x]) →
      0 < s'.data.y.rows.length →
      findBestFrom s.best (s'.data.y.rows.length - 1) s'.data.y s'.data.c cfg.tol = .ok s'.best →
      s'.prevBest = s.best → updFeasible s.feasible s'.data s'.best cfg.tol = .ok s'.feasible →
      s'.retries = s.retries → s'.converged = s.converged →
      s'.added = s.added + xs.length → s'.prevAdded = s.added → Kind cfg o s s' xs us

/-- Effect of an iteration (before recording). -/
structure Iter (cfg : Cfg) (P : Prob) (o : Oracle) (s s' : St) (xs us : List (List ℚ)) : Prop where
  ext : Ext cfg P (Proposed o) s.data s'.data xs
  kind : Kind cfg o s s' xs us
  calls : s'.calls = s.calls ++ us
  doeSize : s'.doeSize = s.doeSize
  iter : s'.iter = s.iter
  maxIters : s'.maxIters = s.maxIters
  initial : s'.initial = s.initial
  history : s'.history = s.history
  lastBestIter : s'.lastBestIter = s.lastBestIter

theorem egoIteration_spec {cfg : Cfg} {P : Prob} {o : Oracle} {s s' : St}
    (h : egoIteration cfg P o s = .ok s') :
    ∃ xs us, Iter cfg P o s s' xs us ∧ s'.sigma = s.sigma ∧ s'.prevStepEgo = s.prevStepEgo := by
  simp only [egoIteration, bind_ok] at h
  obtain ⟨r, hr, h⟩ := h
  rcases egoStep_spec hr with rfl | ⟨s1, xs, us, b, fe, rfl, hext, h1, h2, h3, h4, h5, h6⟩
  · simp only [Except.ok.injEq] at h
    subst h
    exact ⟨[], [], ⟨Ext.refl _ _ _ _, .noMore rfl rfl rfl rfl rfl rfl rfl rfl rfl, by simp, rfl, rfl, rfl, rfl,
      rfl, rfl⟩, rfl, rfl⟩
  · simp only [Except.ok.injEq] at h
    subst h
    have hb : s1.best = b := by rw [h6]
    have hf : s1.feasible = fe := by rw [h6]
    refine ⟨xs, us, ⟨hext, .ego h1 h2 h3 (hb ▸ h4) ?_ (by rw [hb, hf]; exact h5) ?_ ?_ ?_ ?_,
      ?_, ?_, ?_, ?_, ?_, ?_, ?_⟩, ?_, ?_⟩
    all_goals rw [h6]

theorem tregoIteration_spec {cfg : Cfg} {P : Prob} {o : Oracle} {s s' : St} (hc : cfg.trego = true)
    (h : tregoIteration cfg P o s = .ok s') :
    ∃ xs us success, Iter cfg P o s s' xs us ∧ lastIterSuccess s = .ok success ∧
      s'.sigma = nextSigma cfg success s ∧ s'.prevStepEgo = isGlobalPhase cfg success s := by
  simp only [tregoIteration, bind_ok] at h
  obtain ⟨success, hs, h⟩ := h
  split_ifs at h with hg
  · simp only [bind_ok] at h
    obtain ⟨s2, h2, h⟩ := h
    simp only [Except.ok.injEq] at h
    subst h
    obtain ⟨xs, us, ⟨h1, h2, h3, h4, h5, h6, h7, h8, h9⟩, h10, h11⟩ := egoIteration_spec h2
    refine ⟨xs, us, success, ⟨h1, ?_, h3, h4, h5, h6, h7, h8, h9⟩, hs, h10, hg.symm⟩
    cases h2 with
    | noMore a1 a2 a3 a4 a5 a6 a7 a8 a9 => exact .noMore a1 a2 a3 a4 a5 a6 a7 a8 a9
    | ego a1 a2 a3 a4 a5 a6 a7 a8 a9 a10 => exact .ego a1 a2 a3 a4 a5 a6 a7 a8 a9 a10
    | trego x u al a0 a1 a2 a3 a4 a5 a6 a7 a8 a9 a10 a11 =>
      exact .trego x u al a0 a1 a2 a3 a4 a5 a6 a7 a8 a9 a10 a11
  · simp only [bind_ok] at h
    obtain ⟨s2, h2, h⟩ := h
    simp only [Except.ok.injEq] at h
    subst h
    obtain ⟨xs, u, b, fe, hxs, hext, hu, hpos, hb, hfe, h6⟩ := tregoStep_spec (o := o) rfl h2
    have hb' : s2.best = b := by rw [h6]
    have hf : s2.feasible = fe := by rw [h6]
    refine ⟨xs, [u], success, ⟨hext, .trego o.loc u rfl hc rfl hu hxs hpos (by rw [hb']; exact hb) ?_
      (by rw [hb', hf]; exact hfe) ?_ ?_ ?_ ?_, ?_, ?_, ?_, ?_, ?_, ?_, ?_⟩, hs, ?_, ?_⟩
    all_goals (try (show _ = _; rw [h6]))
    simp only [Bool.not_eq_true] at hg
    exact hg.symm

theorem Kind.congr {cfg : Cfg} {o : Oracle} {s s' s'' : St} {xs us : List (List ℚ)} (h : Kind cfg o s s' xs us)
    (h1 : s''.data = s'.data) (h2 : s''.best = s'.best) (h3 : s''.prevBest = s'.prevBest)
    (h4 : s''.feasible = s'.feasible) (h5 : s''.converged = s'.converged)
    (h6 : s''.added = s'.added) (h7 : s''.prevAdded = s'.prevAdded) (h8 : s''.retries = s'.retries) :
    Kind cfg o s s'' xs us := by
  cases h with
  | noMore a1 a2 a3 a4 a5 a6 a7 a8 a9 =>
    exact .noMore a1 a2 (by rw [h1, a3]) (by rw [h2, a4]) (by rw [h3, a5]) (by rw [h4, a6])
      (by rw [h5, a7]) (by rw [h6, a8]) (by rw [h7, a9])
  | ego a1 a2 a3 a4 a5 a6 a7 a8 a9 a10 =>
    exact .ego a1 a2 a3 (by rw [h1, h2, a4]) (by rw [h3, a5]) (by rw [h1, h2, h4, a6])
      (by rw [h8, a7]) (by rw [h5, a8]) (by rw [h6, a9]) (by rw [h7, a10])
  | trego x u al a0 a1 a2 a3 a4 a5 a6 a7 a8 a9 a10 a11 =>
    exact .trego x u al a0 a1 a2 a3 (by rw [h1]; exact a4) (by rw [h1, h2, a5]) (by rw [h3, a6])
      (by rw [h1, h2, h4, a7]) (by rw [h8, a8]) (by rw [h5, a9]) (by rw [h6, a10]) (by rw [h7, a11])

/-- Effect of one turn of the executor. -/
structure Turn (cfg : Cfg) (P : Prob) (o : Oracle) (s s' : St) (xs us : List (List ℚ)) : Prop where
  ext : Ext cfg P (Proposed o) s.data s'.data xs
  kind : Kind cfg o s s' xs us
  calls : s'.calls = s.calls ++ us
  doeSize : s'.doeSize = s.doeSize
  iter : s'.iter = s.iter + 1
  maxIters : s'.maxIters = s.maxIters
  initial : s'.initial = s.initial
  history : (cfg.recorder = false ∧ s'.history = s.history) ∨
    (cfg.recorder = true ∧ s'.added - s'.prevAdded ≤ s'.data.x.length ∧
     s'.history = s.history ++
      [samples (s'.data.x.drop (s'.data.x.length - (s'.added - s'.prevAdded)))
        (s'.data.y.rows.drop (s'.data.x.length - (s'.added - s'.prevAdded)))])
  lastBestIter : s'.lastBestIter =
    if s'.best > s'.doeSize ∧ s'.best ≠ s'.prevBest then s'.iter else s.lastBestIter
  bestParam : s'.data.x[s'.best]? = s'.bestParam
  bestCost : s'.data.y.rows[s'.best]? = s'.bestCost

theorem turn_spec {cfg : Cfg} {P : Prob} {o : Oracle} {s s' : St} (h : turn cfg P o s = .ok s') :
    ∃ xs us, Turn cfg P o s s' xs us := by
  simp only [turn, nextIter, bind_ok] at h
  obtain ⟨s2, ⟨s1, h1, hrec⟩, s3, hupd, h⟩ := h
  simp only [Except.ok.injEq] at h
  have hIter : ∃ xs us, Iter cfg P o s s1 xs us := by
    split_ifs at h1 with hc
    · obtain ⟨xs, us, _, h, _⟩ := tregoIteration_spec hc h1
      exact ⟨xs, us, h⟩
    · obtain ⟨xs, us, h, _⟩ := egoIteration_spec h1
      exact ⟨xs, us, h⟩
  obtain ⟨xs, us, ⟨e1, e2, e3, e4, e5, e6, e7, e8, e9⟩⟩ := hIter
  -- recording
  have hR : s2 = { s1 with history := s2.history } ∧
      ((cfg.recorder = false ∧ s2.history = s1.history) ∨
       (cfg.recorder = true ∧ s1.added - s1.prevAdded ≤ s1.data.x.length ∧ s2.history = s1.history ++
        [samples (s1.data.x.drop (s1.data.x.length - (s1.added - s1.prevAdded)))
          (s1.data.y.rows.drop (s1.data.x.length - (s1.added - s1.prevAdded)))])) := by
    unfold record at hrec
    split_ifs at hrec with hr
    · simp only at hrec
      split_ifs at hrec with hlen
      simp only [Except.ok.injEq] at hrec
      subst hrec
      push Not at hlen
      exact ⟨rfl, Or.inr ⟨hr, hlen.2, rfl⟩⟩
    · simp only [Except.ok.injEq] at hrec
      subst hrec
      simp only [Bool.not_eq_true] at hr
      exact ⟨rfl, Or.inl ⟨hr, rfl⟩⟩
  obtain ⟨hs2, hhist⟩ := hR
  simp only [update, bind_ok] at hupd
  obtain ⟨cost, hcost, hupd⟩ := hupd
  split at hupd
  · simp at hupd
  rename_i p hp
  simp only [Except.ok.injEq] at hupd
  have hcost' : s2.data.y.rows[s2.best]? = some cost := by
    unfold row at hcost
    split at hcost
    · simp only [Except.ok.injEq] at hcost
      rename_i r hr
      rw [hr, hcost]
    · simp at hcost
  subst hupd
  subst h
  have d1 : s2.data = s1.data := by rw [hs2]
  have d2 : s2.best = s1.best := by rw [hs2]
  have d3 : s2.prevBest = s1.prevBest := by rw [hs2]
  have d4 : s2.feasible = s1.feasible := by rw [hs2]
  have d5 : s2.converged = s1.converged := by rw [hs2]
  have d6 : s2.added = s1.added := by rw [hs2]
  have d7 : s2.prevAdded = s1.prevAdded := by rw [hs2]
  have d8 : s2.retries = s1.retries := by rw [hs2]
  have d9 : s2.calls = s1.calls := by rw [hs2]
  have d10 : s2.doeSize = s1.doeSize := by rw [hs2]
  have d11 : s2.iter = s1.iter := by rw [hs2]
  have d12 : s2.maxIters = s1.maxIters := by rw [hs2]
  have d13 : s2.initial = s1.initial := by rw [hs2]
  have d14 : s2.lastBestIter = s1.lastBestIter := by rw [hs2]
  refine ⟨xs, us, ⟨?_, ?_, ?_, ?_, ?_, ?_, ?_, ?_, ?_, ?_, ?_⟩⟩
  · show Ext cfg P (Proposed o) s.data s2.data xs
    rw [d1]; exact e1
  · exact e2.congr d1 d2 d3 d4 d5 d6 d7 d8
  · show s2.calls = _
    rw [d9, e3]
  · show s2.doeSize = _
    rw [d10, e4]
  · show s2.iter + 1 = _
    rw [d11, e5]
  · show s2.maxIters = _
    rw [d12, e6]
  · show s2.initial = _
    rw [d13, e7]
  · show _ ∨ (_ ∧ s2.added - s2.prevAdded ≤ s2.data.x.length ∧ s2.history = s.history ++ _)
    simp only
    rw [d1, d6, d7, ← e8]
    exact hhist
  · show (if s2.best > s2.doeSize then if s2.best ≠ s2.prevBest then s2.iter + 1 else s2.lastBestIter
      else s2.lastBestIter) = if s2.best > s2.doeSize ∧ s2.best ≠ s2.prevBest then s2.iter + 1 else _
    rw [d14, e9]
    split_ifs with g1 g2 g3 g4 <;> first | rfl | (exfalso; tauto)
  · exact hp
  · exact hcost'

end Run

end Verif
