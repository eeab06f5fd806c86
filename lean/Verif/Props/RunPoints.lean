import Verif.Props.RunTrego
import Verif.Spec.Proposals

/-!
# Points added by an iteration (C103)
-/

set_option autoImplicit false

namespace Verif.Props

open Verif Spec FindResult MixInt Run Result

theorem updateData_kept {d d' : Data} {ps : List Pt} {idx : ℕ} {ids : List ℕ}
    (h : updateData d idx ps = .ok (d', ids)) :
    ∃ qs, d'.x = d.x ++ qs ∧ Kept d.x (ps.map Pt.x) qs ∧ qs.length = ids.length := by
  induction ps generalizing d idx ids with
  | nil =>
    simp only [updateData, Except.ok.injEq, Prod.mk.injEq] at h
    obtain ⟨rfl, rfl⟩ := h
    exact ⟨[], by simp, .nil, rfl⟩
  | cons p ps ih =>
    simp only [updateData, bind_ok] at h
    obtain ⟨b, hb, h⟩ := h
    cases b with
    | false =>
      simp only [Bool.false_eq_true, if_false] at h
      obtain ⟨qs, h1, h2, h3⟩ := ih h
      obtain ⟨a, ha, _, hlt⟩ := isUpdateOk_false hb
      exact ⟨qs, h1, .drop ⟨a, ha, hlt⟩ h2, h3⟩
    | true =>
      simp only [if_true, bind_ok, Except.ok.injEq, Prod.mk.injEq] at h
      obtain ⟨y, _, c, _, ⟨d1, i1⟩, hr, rfl, rfl⟩ := h
      obtain ⟨qs, h1, h2, h3⟩ := ih hr
      refine ⟨p.x :: qs, by rw [h1]; simp, .keep (fun a ha => (isUpdateOk_true hb a ha).2) h2, by simp [h3]⟩

/-- The proposals of an attempt: as many as asked, or up to the first one without prediction. -/
structure Batch (sel : ℕ → Option Cand) (q : ℕ) (props : List (List ℚ)) : Prop where
  length_le : props.length ≤ q
  get : ∀ (i : ℕ) (hi : i < props.length), ∃ c, sel i = some c ∧ c.x = props[i]
  stop : props.length < q → sel props.length = none

theorem batchLoop_batch {cfg : Cfg} {P : Prob} {o : ℕ → Option Cand} {i n : ℕ} {ps : List Pt}
    (h : batchLoop cfg P o i n = .ok ps) : Batch (fun j => o (i + j)) n (ps.map Pt.x) := by
  induction n generalizing i ps with
  | zero =>
    simp only [batchLoop, Except.ok.injEq] at h
    subst h
    exact ⟨by simp, by simp, by simp⟩
  | succ n ih =>
    simp only [batchLoop] at h
    split at h
    · rename_i hk
      simp only [Except.ok.injEq] at h
      subst h
      exact ⟨by simp, by simp, fun _ => by simpa using hk⟩
    · rename_i k hk
      simp only [bind_ok, Except.ok.injEq] at h
      obtain ⟨c, hc, r, hr, rfl⟩ := h
      obtain ⟨h1, h2, h3⟩ := ih hr
      refine ⟨by simpa using h1, ?_, ?_⟩
      · intro j hj
        cases j with
        | zero => exact ⟨k, by simpa using hk, rfl⟩
        | succ j =>
          obtain ⟨c', e1, e2⟩ := h2 j (by simpa using hj)
          exact ⟨c', by rw [← e1]; congr 1; omega, by simpa using e2⟩
      · intro hl
        have := h3 (by simpa using hl)
        rw [← this]
        simp only [List.map_cons, List.length_cons]
        congr 1
        omega

theorem egoLoop_kept {cfg : Cfg} {P : Prob} {sel : ℕ → ℕ → Option Cand} {d : Data} {k r : ℕ}
    {l : LoopRes} (h : egoLoop cfg P sel d k r = .ok l) :
    (l = .noMore d ∧ ∀ j < r, ∃ props, props ≠ [] ∧ Batch (sel (k + j)) cfg.qPoints props ∧ Kept d.x props []) ∨
    ∃ (d' : Data) (n j : ℕ) (props qs : List (List ℚ)), l = .added d' n ∧ j < r ∧
      Batch (sel (k + j)) cfg.qPoints props ∧ Kept d.x props qs ∧ qs ≠ [] ∧ d'.x = d.x ++ qs ∧
      ∀ i < j, ∃ props, props ≠ [] ∧ Batch (sel (k + i)) cfg.qPoints props ∧ Kept d.x props [] := by
  induction r generalizing d k with
  | zero => simp [egoLoop] at h
  | succ r ih =>
    have hspec := egoLoop_spec h
    simp only [egoLoop, bind_ok] at h
    obtain ⟨ps, hps, ⟨d', ids⟩, hu, h⟩ := h
    have hB := batchLoop_batch hps
    simp only [Nat.zero_add] at hB
    obtain ⟨qs, h1, h2, h3⟩ := updateData_kept hu
    obtain ⟨qs', g1, g2, g3, g4, g5, _⟩ := updateData_spec hu
    have hle := g1.length_le
    split_ifs at h with he hn hr
    · -- last attempt
      have hids : ids.length = 0 := by
        have : ps.length ≠ 0 := by simpa using he
        simp only at hn
        omega
      have hq : qs = [] := List.length_eq_zero_iff.1 (by omega)
      subst hq
      simp only [Except.ok.injEq] at h
      subst h
      left
      refine ⟨?_, ?_⟩
      · rcases hspec with hs | ⟨_, _, _, hs, _⟩
        · exact hs
        · simp at hs
      · intro j hj
        have : j = 0 := by omega
        subst this
        exact ⟨_, by simpa using he, by simpa using hB, h2⟩
    · have hids : ids.length = 0 := by
        have : ps.length ≠ 0 := by simpa using he
        simp only at hn
        omega
      have hq : qs = [] := List.length_eq_zero_iff.1 (by omega)
      have hq' : qs' = [] := List.length_eq_zero_iff.1 (by omega)
      subst hq; subst hq'
      have hd : d' = d := by
        cases d; cases d'
        simp_all
      subst hd
      have h0 : ∃ props, props ≠ [] ∧ Batch (sel (k + 0)) cfg.qPoints props ∧ Kept d'.x props [] :=
        ⟨_, by simpa using he, by simpa using hB, h2⟩
      rcases ih h with ⟨e1, e2⟩ | ⟨dd, n, j, props, as, e1, e2, e3, e4, e5, e6, e7⟩
      · left
        refine ⟨e1, fun j hj => ?_⟩
        cases j with
        | zero => exact h0
        | succ j =>
          have := e2 j (by omega)
          rwa [show k + 1 + j = k + (j + 1) from by omega] at this
      · right
        refine ⟨dd, n, j + 1, props, as, e1, by omega, ?_, e4, e5, e6, fun i hi => ?_⟩
        · rwa [show k + (j + 1) = k + 1 + j from by omega]
        · cases i with
          | zero => exact h0
          | succ i =>
            have := e7 i (by omega)
            rwa [show k + 1 + i = k + (i + 1) from by omega] at this
    · simp only [Except.ok.injEq] at h
      subst h
      right
      refine ⟨_, _, 0, _, qs, rfl, by omega, by simpa using hB, h2, ?_, h1, fun i hi => absurd hi (by omega)⟩
      rintro rfl
      simp only [List.length_nil] at h3
      simp only at hn
      omega

theorem turn_ego {cfg : Cfg} {P : Prob} {o : Oracle} {s s' : St} (hego : cfg.trego = false)
    (h : turn cfg P o s = .ok s') : ∃ s1, egoIteration cfg P o s = .ok s1 ∧ s'.data = s1.data ∧
      s'.calls = s1.calls ∧ s'.converged = s1.converged := by
  simp only [turn, nextIter, hego, Bool.false_eq_true, if_false, bind_ok, Except.ok.injEq] at h
  obtain ⟨s2, ⟨s1, h1, hrec⟩, s3, hupd, rfl⟩ := h
  refine ⟨s1, h1, ?_⟩
  have hR : s2.data = s1.data ∧ s2.calls = s1.calls ∧ s2.converged = s1.converged := by
    unfold record at hrec
    split_ifs at hrec
    · simp only at hrec
      split_ifs at hrec
      simp only [Except.ok.injEq] at hrec
      subst hrec; exact ⟨rfl, rfl, rfl⟩
    · simp only [Except.ok.injEq] at hrec
      subst hrec; exact ⟨rfl, rfl, rfl⟩
  simp only [update, bind_ok] at hupd
  obtain ⟨cost, _, hupd⟩ := hupd
  split at hupd
  · simp at hupd
  · simp only [Except.ok.injEq] at hupd
    subst hupd; exact hR

/-- C103. In a run without TREGO, an iteration adds exactly the new points among the proposals of the first attempt
(of three) that has new points, in order, and evaluates the objective at these points only. It ends the run, with
unchanged data, exactly when no attempt has a new point. -/
theorem C103_ego_iteration_points (cfg : Cfg) (hego : cfg.trego = false) (P : Prob) (doe : Doe) (os : List Oracle)
    (o : Oracle) (s s' : St) (h : run cfg P doe os = .ok s) (hst : stops cfg s = false)
    (h' : turn cfg P o s = .ok s') :
    (s'.converged = true ∧ s'.data = s.data ∧ s'.calls = s.calls ∧
      ∀ k < 3, ∃ props, props ≠ [] ∧ Batch (o.sel k) cfg.qPoints props ∧ Kept s.data.x props []) ∨
    ∃ k < 3, ∃ props qs us, Batch (o.sel k) cfg.qPoints props ∧ Kept s.data.x props qs ∧ qs ≠ [] ∧
      s'.converged = false ∧ s'.data.x = s.data.x ++ qs ∧ qs.mapM (userInput cfg) = .ok us ∧
      s'.calls = s.calls ++ us ∧
      ∀ i < k, ∃ props, props ≠ [] ∧ Batch (o.sel i) cfg.qPoints props ∧ Kept s.data.x props [] := by
  have hc : s.converged = false := by
    simp only [stops, Bool.or_eq_false_iff] at hst
    exact hst.1.1
  have hr := C19_retries_reset cfg P doe os s h hc
  have hw : ∀ {k : ℕ}, o.sel (0 + k) = o.sel k := fun {k} => by rw [Nat.zero_add]
  obtain ⟨s1, h1, e1, e2, e3⟩ := turn_ego hego h'
  simp only [egoIteration, egoStep, bind_ok] at h1
  obtain ⟨r, ⟨l, hl, hr'⟩, h1⟩ := h1
  rw [hr] at hl
  rcases egoLoop_kept hl with ⟨rfl, g⟩ | ⟨d', n, k, props, qs, rfl, hk, hB, hK, hne, hx, g⟩
  · left
    simp only [Except.ok.injEq] at hr'
    subst hr'
    simp only [Except.ok.injEq] at h1
    subst h1
    exact ⟨e3, e1, e2, fun k hk => by simpa only [hw] using g k hk⟩
  · right
    rcases egoLoop_spec hl with hl' | ⟨d2, n2, qs2, hl', hn, _, _, hx2, _⟩
    · simp at hl'
    simp only [LoopRes.added.injEq] at hl'
    obtain ⟨rfl, rfl⟩ := hl'
    simp only [evalObj, bind_ok, Except.ok.injEq] at hr'
    obtain ⟨_, ⟨us, hus, rfl⟩, vals, _, b, _, fe, _, rfl⟩ := hr'
    simp only [Except.ok.injEq] at h1
    subst h1
    have hlen : n = qs.length := by
      have := congrArg List.length (hx.symm.trans hx2)
      simp only [List.length_append, List.length_map] at this
      omega
    have hd : d'.x.drop (d'.x.length - n) = qs := by
      rw [hx, hlen, List.length_append, Nat.add_sub_cancel, List.drop_left]
    rw [hd] at hus
    exact ⟨k, hk, props, qs, us, by simpa only [hw] using hB, hK, hne, e3.trans hc, by rw [e1]; exact hx, hus,
      e2, fun i hi => by simpa only [hw] using g i hi⟩

/-- C103. In particular proposals that are all far from the data and from each other are all added. -/
theorem C103_new_points_added (cfg : Cfg) (hego : cfg.trego = false) (P : Prob) (doe : Doe) (os : List Oracle)
    (o : Oracle) (s s' : St) (h : run cfg P doe os = .ok s) (hst : stops cfg s = false)
    (h' : turn cfg P o s = .ok s') (xs : List (List ℚ)) (hxs : xs ≠ []) (hB : Batch (o.sel 0) cfg.qPoints xs)
    (hfar : ∀ (i : ℕ) (hi : i < xs.length), ∀ a ∈ s.data.x ++ xs.take i, minSep ≤ l1 a xs[i]) :
    s'.data.x = s.data.x ++ xs := by
  have hu : ∀ ps, Batch (o.sel 0) cfg.qPoints ps → ps = xs := by
    intro ps hp
    have hl : ps.length = xs.length := by
      rcases lt_trichotomy ps.length xs.length with hlt | heq | hgt
      · obtain ⟨c, hc, _⟩ := hB.get _ hlt
        rw [hp.stop (lt_of_lt_of_le hlt hB.length_le)] at hc
        cases hc
      · exact heq
      · obtain ⟨c, hc, _⟩ := hp.get _ hgt
        rw [hB.stop (lt_of_lt_of_le hgt hp.length_le)] at hc
        cases hc
    refine List.ext_getElem hl fun i h1 h2 => ?_
    obtain ⟨c, hc, e⟩ := hp.get i h1
    obtain ⟨c', hc', e'⟩ := hB.get i h2
    rw [hc] at hc'
    rw [← e, ← e', Option.some.inj hc']
  have hk : ∀ (ps st qs : List (List ℚ)), (∀ (i : ℕ) (hi : i < ps.length), ∀ a ∈ st ++ ps.take i, minSep ≤ l1 a ps[i]) →
      Kept st ps qs → qs = ps := by
    intro ps
    induction ps with
    | nil => intro st qs _ hK; cases hK; rfl
    | cons p ps ih =>
      intro st qs hf hK
      cases hK with
      | keep _ hK =>
        rw [ih _ _ ?_ hK]
        intro i hi a ha
        exact hf (i + 1) (by simpa using hi) a (by simpa using ha)
      | drop hd _ =>
        obtain ⟨a, ha, hlt⟩ := hd
        exact absurd (hf 0 (by simp) a (by simpa using ha)) (not_le.2 hlt)
  rcases C103_ego_iteration_points cfg hego P doe os o s s' h hst h' with ⟨_, _, _, g⟩ | ⟨k, _, ps, qs, us, h1, h2, _, _, h5, _, _, g⟩
  · obtain ⟨ps, _, h1, h2⟩ := g 0 (by omega)
    rw [hu ps h1] at h2
    exact absurd (hk _ _ _ hfar h2).symm hxs
  · cases k with
    | zero =>
      rw [hu ps h1] at h2
      rw [h5, hk _ _ _ hfar h2]
    | succ k =>
      obtain ⟨ps, _, h1, h2⟩ := g 0 (by omega)
      rw [hu ps h1] at h2
      exact absurd (hk _ _ _ hfar h2).symm hxs

/-- C103. In a run with TREGO, a local iteration adds the local point if it is new. -/
theorem C103_trego_local_point (cfg : Cfg) (hc : cfg.trego = true) (P : Prob) (o : Oracle) (s s' : St)
    (h : turn cfg P o s = .ok s') (hl : s'.prevStepEgo = false) :
    ∃ qs, s'.data.x = s.data.x ++ qs ∧ Kept s.data.x [o.loc] qs := by
  simp only [turn, nextIter, hc, if_true, bind_ok, Except.ok.injEq] at h
  obtain ⟨s2, ⟨s1, h1, hrec⟩, s3, hupd, rfl⟩ := h
  have hR : s2.data = s1.data ∧ s2.prevStepEgo = s1.prevStepEgo := by
    unfold record at hrec
    split_ifs at hrec
    · simp only at hrec
      split_ifs at hrec
      simp only [Except.ok.injEq] at hrec
      subst hrec; exact ⟨rfl, rfl⟩
    · simp only [Except.ok.injEq] at hrec
      subst hrec; exact ⟨rfl, rfl⟩
  have hU : s3.data = s2.data ∧ s3.prevStepEgo = s2.prevStepEgo := by
    simp only [update, bind_ok] at hupd
    obtain ⟨cost, _, hupd⟩ := hupd
    split at hupd
    · simp at hupd
    · simp only [Except.ok.injEq] at hupd
      subst hupd; exact ⟨rfl, rfl⟩
  have hl : s1.prevStepEgo = false := by rw [← hR.2, ← hU.2]; exact hl
  show ∃ qs, s3.data.x = _ ∧ _
  rw [hU.1, hR.1]
  simp only [tregoIteration, bind_ok] at h1
  obtain ⟨success, _, h1⟩ := h1
  split_ifs at h1 with hg
  · simp only [bind_ok, Except.ok.injEq] at h1
    obtain ⟨_, _, rfl⟩ := h1
    simp at hl
  · simp only [bind_ok, Except.ok.injEq] at h1
    obtain ⟨t, h2, rfl⟩ := h1
    simp only [tregoStep, evalObj, bind_ok, Except.ok.injEq] at h2
    obtain ⟨_, ⟨us, hus, rfl⟩, c, _, ⟨d', ids⟩, hu, h2⟩ := h2
    split_ifs at h2
    simp only [bind_ok, Except.ok.injEq] at h2
    obtain ⟨b, _, fe, _, rfl⟩ := h2
    obtain ⟨qs, g1, g2, _⟩ := updateData_kept hu
    obtain ⟨u, rfl, _⟩ : ∃ u, us = [u] ∧ userInput cfg o.loc = .ok u := by
      have := mapM_ok.1 hus
      cases this with
      | cons h hn => cases hn; exact ⟨_, rfl, h⟩
    exact ⟨qs, g1, by simpa using g2⟩

/-- Case of C103: in the first iteration one of the two proposals is known, in the second both are new. -/
example : ((run exCfg exProb (.points [[5], [3]]) [exOracle 5 (1/2), exOracle (1/3) (1/4)]).map fun s => s.data.x)
    = .ok [[5], [3], [1/2], [1/3], [1/4]] := by decide +kernel
example : Kept [[5], [3]] [[5], [1/2]] [[1/2]] :=
  .drop ⟨[5], by simp, by decide +kernel⟩ (.keep (by decide +kernel) .nil)
example : Batch ((exOracle 5 (1/2)).sel 0) exCfg.qPoints [[5], [1/2]] :=
  ⟨by decide, fun i hi => by
    match i, hi with
    | 0, _ => exact ⟨_, rfl, rfl⟩
    | 1, _ => exact ⟨_, rfl, rfl⟩, by decide⟩

end Verif.Props
