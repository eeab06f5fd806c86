import Verif.Spec.Tuning
import Verif.Props.Coego
import Verif.Props.Doe
import Verif.Props.Config
import Verif.Props.Moe

/-!
# Properties of the tuning of hyperparameters (C48, C49, C87, C88, C89)
-/

set_option autoImplicit false

namespace Verif.Props

open Verif Tuning

variable {α : Type}

/-! ## Lemmas -/

theorem expand_ok {dim : ℕ} {l r : List α} :
    expand dim l = .ok r ↔ (l.length = 1 ∨ l.length = dim) ∧ r.length = dim ∧
      ∀ i, i < dim → r[i]? = Spec.perComponent l i := by
  unfold expand
  split
  · rename_i v
    simp only [Except.ok.injEq, List.length_cons, List.length_nil, Spec.perComponent]
    constructor
    · rintro rfl
      simp +contextual
    · rintro ⟨_, h, h2⟩
      apply List.ext_getElem?
      intro i
      rcases lt_or_ge i dim with hi | hi
      · rw [h2 i hi]; simp [hi]
      · rw [List.getElem?_eq_none (by simpa using hi), List.getElem?_eq_none (by omega)]
  · rename_i hl
    have hne : l.length ≠ 1 := by
      intro hc
      obtain ⟨v, rfl⟩ := List.length_eq_one_iff.1 hc
      exact hl v rfl
    split_ifs with h
    · simp only [Except.ok.injEq, Spec.perComponent, hne, if_false]
      constructor
      · rintro rfl
        exact ⟨Or.inr h, h, fun _ _ => rfl⟩
      · rintro ⟨_, h1, h2⟩
        apply List.ext_getElem?
        intro i
        rcases lt_or_ge i dim with hi | hi
        · exact (h2 i hi).symm
        · rw [List.getElem?_eq_none (by omega), List.getElem?_eq_none (by omega)]
    · simp [hne, h]

theorem expand_exists {dim : ℕ} {l : List α} (h : l.length = 1 ∨ l.length = dim) :
    ∃ r, expand dim l = .ok r := by
  unfold expand
  split
  · exact ⟨_, rfl⟩
  · rename_i hl
    rcases h with h | h
    · obtain ⟨v, rfl⟩ := List.length_eq_one_iff.1 h
      exact absurd rfl (hl v)
    · exact ⟨l, by rw [if_pos h]⟩

theorem select_ok {l : List α} {is : List ℕ} {r : List α} :
    select l is = .ok r ↔ Spec.pickAt l is = r.map some := by
  induction is generalizing r with
  | nil => cases r <;> simp [select, Spec.pickAt]
  | cons i is ih =>
    unfold select
    simp only [Spec.pickAt, List.map_cons] at ih ⊢
    cases hi : l[i]? with
    | none =>
      simp only [reduceCtorEq, false_iff]
      intro hc
      cases r <;> simp at hc
    | some v =>
      simp only [bind_ok, ih, Except.ok.injEq]
      constructor
      · rintro ⟨a, ha, rfl⟩; simp [ha]
      · intro h
        cases r with
        | nil => simp at h
        | cons w r =>
          simp only [List.map_cons, List.cons.injEq, Option.some.injEq] at h
          exact ⟨r, h.2, by rw [h.1]⟩

theorem select_exists {l : List α} {is : List ℕ} (h : ∀ i ∈ is, i < l.length) : ∃ r, select l is = .ok r := by
  induction is with
  | nil => exact ⟨[], rfl⟩
  | cons i is ih =>
    obtain ⟨r, hr⟩ := ih fun j hj => h j (by simp [hj])
    have := h i (by simp)
    exact ⟨l[i] :: r, by simp [select, List.getElem?_eq_getElem this, hr, bind, Except.bind]⟩

theorem pickAt_length (l : List α) (is : List ℕ) : (Spec.pickAt l is).length = is.length := by
  simp [Spec.pickAt]

theorem activeBounds_sorted (l : List α) (active : List ℕ) (hs : active.Pairwise (· < ·))
    (ha : ∀ i ∈ active, i < l.length) : Spec.pickAt l active = (activeBounds l active).map some :=
  (C29_sorted_group_partial l active active
    ⟨[], by simp, hs.imp (fun h => h.ne), ha, by simp⟩ hs).symm

theorem activeBounds_range (l : List α) : activeBounds l (List.range l.length) = l :=
  C29_full_activity_partial l _ (by simp [Coego.fullActivity])

theorem activeBounds_subset (l : List α) (active : List ℕ) : ∀ b ∈ activeBounds l active, b ∈ l := by
  intro b hb
  simp only [activeBounds, List.mem_map, List.mem_filter] at hb
  obtain ⟨p, ⟨hp, _⟩, rfl⟩ := hb
  exact (List.of_mem_zip hp).1

theorem pow10_log10 {v : ℝ} (h : 0 < v) : pow10 (log10 v) = v :=
  Real.rpow_logb (by norm_num) (by norm_num) h

theorem log10_le {a b : ℝ} (ha : 0 < a) (h : a ≤ b) : log10 a ≤ log10 b :=
  Real.logb_le_logb_of_le (by norm_num) ha h

theorem log10_lt {a b : ℝ} (ha : 0 < a) (h : a < b) : log10 a < log10 b :=
  Real.logb_lt_logb (by norm_num) ha h

theorem pow10_mono {a b : ℝ} (h : a ≤ b) : pow10 a ≤ pow10 b :=
  Real.rpow_le_rpow_of_exponent_le (by norm_num) h

theorem pow10_within {x : List ℝ} {bs : List (ℝ × ℝ)} (hpos : ∀ b ∈ bs, 0 < b.1 ∧ b.1 ≤ b.2)
    (h : Spec.WithinBounds x (bs.map fun b => (log10 b.1, log10 b.2))) :
    Spec.WithinBounds (x.map pow10) bs := by
  unfold Spec.WithinBounds at *
  rw [List.forall₂_map_right_iff] at h
  rw [List.forall₂_map_left_iff]
  induction h with
  | nil => exact .nil
  | cons hab _ ih =>
    refine .cons ?_ (ih fun b hb => hpos b (by simp [hb]))
    obtain ⟨h1, h2⟩ := hpos _ (List.mem_cons_self)
    constructor
    · have := pow10_mono hab.1; rwa [pow10_log10 h1] at this
    · have := pow10_mono hab.2; rwa [pow10_log10 (h1.trans_le h2)] at this

theorem log10_within {x : List ℝ} {bs : List (ℝ × ℝ)} (hpos : ∀ b ∈ bs, 0 < b.1)
    (h : Spec.WithinBounds x bs) :
    Spec.WithinBounds (x.map log10) (bs.map fun b => (log10 b.1, log10 b.2)) := by
  unfold Spec.WithinBounds at *
  rw [List.forall₂_map_right_iff, List.forall₂_map_left_iff]
  induction h with
  | nil => exact .nil
  | cons hab _ ih =>
    refine .cons ?_ (ih fun b hb => hpos b (by simp [hb]))
    have h1 := hpos _ (List.mem_cons_self)
    exact ⟨log10_le h1 hab.1, log10_le (h1.trans_le hab.1) hab.2⟩

/-! ## C49 -/

/-- Uniform numbers. -/
def UniformRng (rng : Rng) : Prop :=
  (∀ i, 0 ≤ rng.unit i ∧ rng.unit i < 1) ∧
  ∀ ns nx, UniformCall (.maximin (rng.first ns nx) (rng.others ns nx))

theorem genRange_within (u : ℝ) (hu : 0 ≤ u ∧ u < 1) (b : ℝ × ℝ) (hb : b.1 < b.2) :
    ∃ v, genRange u b = .ok v ∧ b.1 ≤ v ∧ v ≤ b.2 := by
  refine ⟨_, if_pos hb, ?_, ?_⟩ <;> nlinarith [hu.1, hu.2]

theorem forall₂_zip_left {β γ : Type} {R : α → γ → Prop} {l : List α} {l' : List β} {r : List γ}
    (hl : l.length = l'.length) (h : List.Forall₂ (fun p c => R p.1 c) (l.zip l') r) : List.Forall₂ R l r := by
  have : l = (l.zip l').map Prod.fst := by rw [List.map_fst_zip]; omega
  rw [this, List.forall₂_map_left_iff]; exact h

theorem lhsRows_spec (rng : Rng) (hu : UniformRng rng) (k : ℕ) (bounds : List (ℝ × ℝ))
    (hb : ∀ b ∈ bounds, b.1 ≤ b.2) :
    ∃ rows, lhsRows rng (k + 2) bounds = .ok rows ∧ rows.length = k + 2 ∧
      ∀ row ∈ rows, Spec.WithinBounds row bounds := by
  obtain ⟨x, hx⟩ := C02_returns_partial (by omega : 2 ≤ k + 2)
    (.maximin (rng.first (k + 2) bounds.length) (rng.others (k + 2) bounds.length)) trivial
  have hin := C01_lhs_in_bounds (fun j => (bounds.get j).1) (fun j => (bounds.get j).2)
    (fun j => hb _ (List.get_mem _ _)) _ (hu.2 _ _) x hx
  refine ⟨List.ofFn fun i => List.ofFn
    (Doe.sample (fun j => (bounds.get j).1) (fun j => (bounds.get j).2) x i),
    by simp only [lhsRows, hx, bind, Except.bind], by rw [List.length_ofFn], ?_⟩
  intro row hrow
  rw [List.mem_ofFn] at hrow
  obtain ⟨i, rfl⟩ := hrow
  unfold Spec.WithinBounds
  rw [List.forall₂_iff_get]
  refine ⟨by simp, ?_⟩
  intro j h1 h2
  simpa using hin i ⟨j, h2⟩

theorem otherStarts_spec (rng : Rng) (hu : UniformRng rng) (nStart : ℕ) (bounds : List (ℝ × ℝ))
    (hb : ∀ b ∈ bounds, b.1 ≤ b.2) (h1 : nStart = 1 → ∀ b ∈ bounds, b.1 < b.2) :
    ∃ rows, otherStarts rng nStart bounds.length bounds = .ok rows ∧ rows.length = nStart ∧
      ∀ row ∈ rows, Spec.WithinBounds row bounds := by
  match nStart with
  | 0 => exact ⟨[], rfl, rfl, by simp⟩
  | 1 =>
    obtain ⟨vals, hv, hR⟩ := mapM_forall₂ (f := fun p : (ℝ × ℝ) × ℕ => genRange (rng.unit p.2) p.1)
      (R := fun p v => p.1.1 ≤ v ∧ v ≤ p.1.2) (bounds.zip (List.range bounds.length))
      (fun p hp => genRange_within _ (hu.1 _) _ (h1 rfl _ (List.of_mem_zip hp).1))
    have hR := forall₂_zip_left (R := fun (b : ℝ × ℝ) v => b.1 ≤ v ∧ v ≤ b.2) (by simp) hR
    refine ⟨[vals], ?_, rfl, ?_⟩
    · simp only [otherStarts, hv, bind, Except.bind, assignRow]
      rw [if_pos hR.length_eq.symm]
    · intro row hrow
      simp only [List.mem_singleton] at hrow
      subst hrow
      exact hR.flip
  | k + 2 =>
    obtain ⟨rows, hr, hl, hin⟩ := lhsRows_spec rng hu k bounds hb
    refine ⟨rows, ?_, hl, hin⟩
    simp only [otherStarts, hr, bind, Except.bind]
    have := forall₂_mapM_ok (f := assignRow bounds.length) (g := id) (l := rows)
      (fun row hrow => by simp [assignRow, (hin row hrow).length_eq])
    simpa using this

/-- C49, part. With as many bounds as components, there are `n_start + 1` starts on the log10 scale, the first
being the initial guess and the other ones being between the bounds. Missing: equal bounds when
`n_start = 1` (`C49_refuted_equal_bounds`); the first start is the initial guess even out of the bounds. -/
theorem C49_starts_partial (rng : Rng) (hu : UniformRng rng) (nStart : ℕ) (theta0 : List ℝ)
    (bounds : List (ℝ × ℝ)) (hl : theta0.length = bounds.length) (hpos : ∀ b ∈ bounds, 0 < b.1 ∧ b.1 ≤ b.2)
    (h1 : nStart = 1 → ∀ b ∈ bounds, b.1 < b.2) :
    ∃ rows, prepareMultistart rng nStart theta0 bounds =
        .ok (theta0.map (Real.logb 10) :: rows, bounds.map fun b => (Real.logb 10 b.1, Real.logb 10 b.2)) ∧
      rows.length = nStart ∧
      ∀ row ∈ rows, Spec.WithinBounds row (bounds.map fun b => (Real.logb 10 b.1, Real.logb 10 b.2)) := by
  obtain ⟨rows, h, h2, h3⟩ := otherStarts_spec rng hu nStart (bounds.map fun b => (log10 b.1, log10 b.2))
    (by simp only [List.mem_map]; rintro _ ⟨b, hb, rfl⟩; exact log10_le (hpos b hb).1 (hpos b hb).2)
    (by simp only [List.mem_map]; rintro h0 _ ⟨b, hb, rfl⟩; exact log10_lt (hpos b hb).1 (h1 h0 b hb))
  rw [List.length_map, ← hl] at h
  refine ⟨rows, ?_, h2, h3⟩
  simp only [prepareMultistart, h, bind, Except.bind]
  rfl

/-- C49 fails with `n_start = 1` when a component has equal bounds: the range of the draw is empty. -/
theorem C49_refuted_equal_bounds (rng : Rng) (theta0 : List ℝ) (b : ℝ) :
    prepareMultistart rng 1 theta0 [(b, b)] = .error .other := by
  simp [prepareMultistart, otherStarts, genRange, bind, Except.bind]

/-- C49, the first start is not moved between the bounds. -/
theorem C49_refuted_guess_in_bounds (rng : Rng) :
    ∃ rows, prepareMultistart rng 0 [100] [(1, 10)] = .ok rows ∧
      ¬ ∀ row ∈ rows.1, Spec.WithinBounds row rows.2 := by
  refine ⟨_, rfl, ?_⟩
  simp only [List.map_cons, List.map_nil, List.mem_singleton, forall_eq, Spec.WithinBounds,
    List.forall₂_cons, List.Forall₂.nil, and_true, not_and, not_le]
  intro _
  exact log10_lt (by norm_num) (by norm_num)

/-- A generator for the examples. -/
noncomputable def exRng : Rng where
  unit := fun _ => 1 / 2
  first := fun _ _ => ⟨fun _ _ => 1 / 2, fun _ => Equiv.refl _⟩
  others := fun _ _ => []

theorem exRng_uniform : UniformRng exRng := by
  refine ⟨fun _ => by norm_num [exRng], fun ns nx => ?_⟩
  simp only [UniformCall, exRng, List.mem_singleton, forall_eq]
  intro _ _; norm_num

/-- Case of `C49_starts_partial`. -/
example : ∃ rows, prepareMultistart exRng 3 [1 / 10, 2] [(1 / 100, 10), (1, 1)] =
        .ok ([1 / 10, 2].map (Real.logb 10) :: rows,
          [((1 : ℝ) / 100, (10 : ℝ)), (1, 1)].map fun b => (Real.logb 10 b.1, Real.logb 10 b.2)) ∧
      rows.length = 3 ∧ ∀ row ∈ rows, Spec.WithinBounds row
        ([((1 : ℝ) / 100, (10 : ℝ)), (1, 1)].map fun b => (Real.logb 10 b.1, Real.logb 10 b.2)) :=
  C49_starts_partial exRng exRng_uniform 3 _ _ rfl (by norm_num) (by norm_num)

/-! ## C48 -/

theorem assign_map {β : Type} (f : α → β) (ps : List (ℕ × α)) : ∀ x : List α,
    Coego.assign (x.map f) (ps.map fun p => (p.1, f p.2)) = (Coego.assign x ps).map (List.map f) := by
  induction ps with
  | nil => intro x; rfl
  | cons p ps ih =>
    intro x
    simp only [List.map_cons, Coego.assign, List.length_map]
    split_ifs
    · rw [← List.map_set]; exact ih _
    · rfl

theorem assign_ok_lt (ps : List (ℕ × α)) : ∀ x y : List α, Coego.assign x ps = .ok y →
    ∀ p ∈ ps, p.1 < x.length := by
  induction ps with
  | nil => simp
  | cons p ps ih =>
    intro x y h q hq
    simp only [Coego.assign] at h
    split_ifs at h with hp
    rcases List.mem_cons.1 hq with rfl | hq
    · exact hp
    · simpa using ih _ _ h q hq

theorem assign_outside (ps : List (ℕ × α)) : ∀ x y : List α, Coego.assign x ps = .ok y →
    y.length = x.length ∧ ∀ i, i ∉ ps.map Prod.fst → y[i]? = x[i]? := by
  induction ps with
  | nil => intro x y h; simp only [Coego.assign, Except.ok.injEq] at h; subst h; simp
  | cons p ps ih =>
    intro x y h
    simp only [Coego.assign] at h
    split_ifs at h with hp
    obtain ⟨h1, h2⟩ := ih _ _ h
    refine ⟨by simpa using h1, fun i hi => ?_⟩
    simp only [List.map_cons, List.mem_cons, not_or] at hi
    rw [h2 i hi.2, List.getElem?_set_ne (Ne.symm hi.1)]

theorem assign_self (x : List α) (ps : List (ℕ × α)) (h : ∀ p ∈ ps, x[p.1]? = some p.2) :
    Coego.assign x ps = .ok x := by
  induction ps with
  | nil => rfl
  | cons p ps ih =>
    have hp := h p (by simp)
    obtain ⟨hlt, hv⟩ := List.getElem?_eq_some_iff.1 hp
    simp only [Coego.assign, if_pos hlt]
    rw [← hv, List.set_getElem_self]
    exact ih fun q hq => h q (by simp [hq])

theorem allSome_map (l : List α) : allSome (l.map some) = some l := by
  induction l with
  | nil => rfl
  | cons a l ih => simp [allSome, ih]

/-- At real numbers the function minimized is the negative likelihood of the hyperparameters where the active
components are the powers of ten of these numbers. -/
theorem objective_real (nll : List ℝ → Flt) (theta0 : List ℝ) (active : List ℕ) (x : List ℝ) (v : Flt) :
    objective nll theta0 active (x.map some) = .ok v ↔
      ∃ y, Coego.assign theta0 (active.zip (x.map pow10)) = .ok y ∧ v = nll y := by
  have hz : active.zip ((x.map some).map (Option.map pow10)) =
      (active.zip (x.map pow10)).map fun p => (p.1, some p.2) := by
    rw [List.map_map, show (Option.map pow10 ∘ some : ℝ → Option ℝ) = some ∘ pow10 from rfl,
      ← List.map_map, List.zip_map_right]
    rfl
  unfold objective
  rw [hz, assign_map]
  cases h : Coego.assign theta0 (active.zip (x.map pow10)) with
  | error e => simp [Except.map, bind, Except.bind]
  | ok y => simp [Except.map, bind, Except.bind, allSome_map, eq_comm]

theorem assign_exists (ps : List (ℕ × α)) : ∀ x : List α, (∀ p ∈ ps, p.1 < x.length) →
    ∃ y, Coego.assign x ps = .ok y := by
  induction ps with
  | nil => intro x _; exact ⟨x, rfl⟩
  | cons p ps ih =>
    intro x h
    simp only [Coego.assign, if_pos (h p (by simp))]
    exact ih _ fun q hq => by rw [List.length_set]; exact h q (by simp [hq])

/-- The function minimized never panics if the active components exist. -/
theorem objective_total (nll : List ℝ → Flt) (theta0 : List ℝ) (active : List ℕ)
    (h : ∀ i ∈ active, i < theta0.length) (x : List (Option ℝ)) :
    ∃ v, objective nll theta0 active x = .ok v := by
  obtain ⟨y, hy⟩ := assign_exists (active.zip (x.map (Option.map pow10))) (theta0.map some) fun p hp => by
    rw [List.length_map]; exact h _ (List.of_mem_zip hp).1
  unfold objective
  simp only [hy, bind, Except.bind]
  cases allSome y with
  | none => exact ⟨_, rfl⟩
  | some t => exact ⟨_, rfl⟩

theorem optimizeActive_ok {env : Env} {dim nStart maxEval : ℕ} {theta0 : List ℝ} {bounds : List (ℝ × ℝ)}
    {active : List ℕ} {r : List ℝ}
    (h : optimizeActive env dim nStart maxEval theta0 bounds active = .ok r) :
    ∃ bs init ms limit, expand dim bounds = .ok bs ∧ select theta0 active = .ok init ∧
      prepareMultistart env.rng nStart init (activeBounds bs active) = .ok ms ∧
      evalLimit init.length maxEval = .ok limit ∧
      r = ((env.split (ms.1.map fun x0 => optimizeParams env.opt (objective env.nll theta0 active) x0 ms.2
        limit)).reduce (List.replicate init.length 1)).2.map pow10 := by
  simp only [optimizeActive, bind_ok, Except.ok.injEq] at h
  obtain ⟨bs, h1, init, h2, ms, h3, limit, h4, h5⟩ := h
  exact ⟨bs, init, ms, limit, h1, h2, h3, h4, h5.symm⟩

theorem assignRow_length {n : ℕ} {l r : List α} (h : assignRow n l = .ok r) : r.length = n := by
  unfold assignRow at h
  split_ifs at h with h1
  · simp only [Except.ok.injEq] at h; subst h; exact h1
  · split at h
    · simp only [Except.ok.injEq] at h; subst h; simp
    · simp at h

theorem prepare_ok {rng : Rng} {nStart : ℕ} {theta0 : List ℝ} {bounds : List (ℝ × ℝ)}
    {ms : List (List ℝ) × List (ℝ × ℝ)} (h : prepareMultistart rng nStart theta0 bounds = .ok ms) :
    (∃ rows, ms.1 = theta0.map log10 :: rows) ∧ ms.2 = bounds.map (fun b => (log10 b.1, log10 b.2)) ∧
      ∀ row ∈ ms.1, row.length = theta0.length := by
  simp only [prepareMultistart, bind_ok, Except.ok.injEq] at h
  obtain ⟨rows, h, rfl⟩ := h
  refine ⟨⟨rows, rfl⟩, rfl, ?_⟩
  intro row hrow
  rcases List.mem_cons.1 hrow with rfl | hrow
  · simp
  match nStart with
  | 0 => simp only [otherStarts, Except.ok.injEq] at h; subst h; simp at hrow
  | 1 =>
    simp only [otherStarts, bind_ok, Except.ok.injEq] at h
    obtain ⟨vals, _, row', h, rfl⟩ := h
    simp only [List.mem_singleton] at hrow
    subst hrow
    exact assignRow_length h
  | k + 2 =>
    simp only [otherStarts, bind_ok] at h
    obtain ⟨seeds, _, h⟩ := h
    rw [mapM_ok] at h
    obtain ⟨s, _, hs⟩ := exists_left_of_forall₂ h hrow
    exact assignRow_length hs

theorem optValue_lt {o : Option Flt} (h : Spec.cost (optValue o) < ⊤) :
    ∃ v, o = some v ∧ optValue o = v := by
  match o with
  | none => simp [optValue, cost_pinf] at h
  | some .nan => simp [optValue, cost_pinf] at h
  | some .ninf => exact ⟨_, rfl, rfl⟩
  | some (.fin q) => exact ⟨_, rfl, rfl⟩
  | some .pinf => exact ⟨_, rfl, rfl⟩

theorem cost_optValue (v : Flt) : Spec.cost (optValue (some v)) = Spec.cost v := by
  cases v <;> simp [optValue, Spec.cost, Spec.toE]

theorem orderOk_nodup {bounds : List (ℝ × ℝ)} {active : List ℕ} (h : Spec.OrderOk bounds active) :
    active.Nodup := h.elim (fun h => h.imp fun h => h.ne) fun h => h.1

/-- The bounds of the active components are in the order of the active list, or are all the same. -/
theorem activeBounds_order {bounds bs : List (ℝ × ℝ)} {dim : ℕ} {active : List ℕ}
    (hb : expand dim bounds = .ok bs) (hs : Spec.OrderOk bounds active) (ha : ∀ i ∈ active, i < bs.length) :
    Spec.pickAt bs active = (activeBounds bs active).map some := by
  rcases hs with hs | ⟨hnd, hsame⟩
  · exact activeBounds_sorted bs active hs ha
  · have hb' := expand_ok.1 hb
    have hmem : ∀ b ∈ bs, b ∈ bounds := by
      intro b hbm
      obtain ⟨i, hi⟩ := List.getElem?_of_mem hbm
      have hlt := (List.getElem?_eq_some_iff.1 hi).1
      rw [hb'.2.2 i (by omega)] at hi
      unfold Spec.perComponent at hi
      split_ifs at hi <;> exact List.mem_of_getElem? hi
    have hperm := C29_same_components_partial bs active active
      ⟨[], by simp, hnd, ha, by simp⟩
    have hlen := hperm.length_eq
    apply List.ext_getElem
    · rw [pickAt_length, List.length_map] at hlen
      rw [pickAt_length, List.length_map, ← hlen]; rfl
    · intro k h1 h2
      have hk : k < active.length := by simpa [Spec.pickAt] using h1
      have hi := ha _ (List.getElem_mem hk)
      simp only [Spec.pickAt, List.getElem_map, List.getElem?_eq_getElem hi, Option.some.injEq]
      exact hsame _ (hmem _ (List.getElem_mem hi)) _
        (hmem _ (activeBounds_subset _ _ _ (List.getElem_mem _)))

/-- The selected result, for an optimizer that does not fail. -/
theorem optimizeActive_selected {env : Env} {dim nStart maxEval : ℕ} {theta0 : List ℝ}
    {bounds : List (ℝ × ℝ)} {active : List ℕ} {r : List ℝ} (hopt : Spec.IsMinimizer env.opt)
    (hsplit : ∀ l, (env.split l).items = l) (hnf : Spec.NeverFails env.opt)
    (hth : theta0.length = dim) (hpos : ∀ b ∈ bounds, 0 < b.1 ∧ b.1 ≤ b.2) (hs : Spec.OrderOk bounds active)
    (h : optimizeActive env dim nStart maxEval theta0 bounds active = .ok r) :
    ∃ bs init ms, expand dim bounds = .ok bs ∧ select theta0 active = .ok init ∧
      prepareMultistart env.rng nStart init (activeBounds bs active) = .ok ms ∧
      ((r = List.replicate init.length 10 ∧
          ∀ x0 ∈ ms.1, ∃ y, Spec.cost (env.nll y) = ⊤ ∧
            (Spec.WithinBounds x0 ms.2 → ∀ v0, objective env.nll theta0 active (x0.map some) = .ok v0 →
              Spec.cost v0 = ⊤)) ∨
        (Spec.WithinBounds r (activeBounds bs active) ∧ ∃ y,
          Coego.assign theta0 (active.zip r) = .ok y ∧ Spec.cost (env.nll y) < ⊤ ∧
          ∀ x0 ∈ ms.1, Spec.WithinBounds x0 ms.2 →
            ∀ v0, objective env.nll theta0 active (x0.map some) = .ok v0 → Spec.cost (env.nll y) ≤ Spec.cost v0)) := by
  obtain ⟨bs, init, ms, limit, h1, h2, h3, _, hr⟩ := optimizeActive_ok h
  obtain ⟨⟨rows, hrows⟩, hms2, hlen⟩ := prepare_ok h3
  have hb := expand_ok.1 h1
  have hsel := select_ok.1 h2
  have hil : init.length = active.length := by
    have := congrArg List.length hsel; rw [pickAt_length, List.length_map] at this; exact this.symm
  have hact : ∀ i ∈ active, i < bs.length := by
    intro i hi
    have : theta0[i]? ∈ Spec.pickAt theta0 active := List.mem_map_of_mem (f := fun i => theta0[i]?) hi
    rw [hsel, List.mem_map] at this
    obtain ⟨v, _, hv⟩ := this
    have := (List.getElem?_eq_some_iff.1 hv.symm).1
    omega
  have hab := activeBounds_order h1 hs hact
  have habl : (activeBounds bs active).length = active.length := by
    have := congrArg List.length hab; rw [pickAt_length, List.length_map] at this; exact this.symm
  have hpos' : ∀ b ∈ activeBounds bs active, 0 < b.1 ∧ b.1 ≤ b.2 := by
    intro b hb'
    obtain ⟨i, hi⟩ := List.getElem?_of_mem (activeBounds_subset _ _ b hb')
    have hlt := (List.getElem?_eq_some_iff.1 hi).1
    rw [hb.2.2 i (by omega)] at hi
    unfold Spec.perComponent at hi
    split_ifs at hi
    · exact hpos b (List.mem_of_getElem? hi)
    · exact hpos b (List.mem_of_getElem? hi)
  refine ⟨bs, init, ms, h1, h2, h3, ?_⟩
  set F := objective env.nll theta0 active with hF
  have hsel30 := C30_reduction_selects_first_minimum (List.replicate init.length (1 : ℝ))
    (env.split (ms.1.map fun x0 => optimizeParams env.opt F x0 ms.2 limit))
  rw [hsplit] at hsel30
  set res := (env.split (ms.1.map fun x0 => optimizeParams env.opt F x0 ms.2 limit)).reduce
    (List.replicate init.length (1 : ℝ)) with hres
  have hval : ∀ x0 ∈ ms.1, ∃ v, (env.opt F x0 ms.2 limit).1 = some v := fun x0 _ =>
    Option.ne_none_iff_exists'.1 (hnf F (objective_total _ _ _ fun i hi => by
      rw [hth, ← hb.2.1]; exact hact i hi) _ _ _)
  rcases hsel30 with ⟨hall, hd⟩ | ⟨k, hk, hlt, hmin⟩
  · left
    constructor
    · rw [hr, hd]; simp [pow10]
    · intro x0 hx0
      obtain ⟨v, hv⟩ := hval x0 hx0
      have hv2 := hopt.value _ _ _ _ _ hv
      obtain ⟨y, hy, rfl⟩ := (objective_real _ _ _ _ _).1 hv2
      have hc : Spec.cost (env.nll y) = ⊤ := by
        have := hall _ (List.mem_map_of_mem (f := fun x0 => optimizeParams env.opt F x0 ms.2 limit) hx0)
        simp only [optimizeParams, hv, cost_optValue] at this
        exact this
      refine ⟨y, hc, fun hw v0 hv0 => ?_⟩
      have := hopt.descent _ _ _ _ _ _ hv hw hv0
      rw [hc] at this
      exact top_le_iff.1 this
  · right
    have hmem := List.mem_of_getElem? hk
    rw [List.mem_map] at hmem
    obtain ⟨x0, hx0, he⟩ := hmem
    obtain ⟨v, hv⟩ := hval x0 hx0
    have hv2 := hopt.value _ _ _ _ _ hv
    have hpt : res.2 = (env.opt F x0 ms.2 limit).2 := by rw [← he]; rfl
    have hco : Spec.cost res.1 = Spec.cost v := by rw [← he]; simp only [optimizeParams, hv, cost_optValue]
    constructor
    · rw [hr, hpt]
      apply pow10_within hpos'
      rw [← hms2]
      apply hopt.within _ _ _ _ v hv
      · rw [hlen x0 hx0, hms2, List.length_map]; omega
      · rw [hms2]
        simp only [List.mem_map]
        rintro _ ⟨b, hb', rfl⟩
        exact log10_le (hpos' b hb').1 (hpos' b hb').2
    · rw [← hpt] at hv2
      obtain ⟨y, hy, rfl⟩ := (objective_real _ _ _ _ _).1 hv2
      refine ⟨y, by rw [hr]; exact hy, by rw [← hco]; exact hlt, ?_⟩
      intro x1 hx1 hw v0 hv0
      obtain ⟨v1, hv1⟩ := hval x1 hx1
      have hd := hopt.descent _ _ _ _ _ _ hv1 hw hv0
      have hle := selected_cost_le (d := []) (Or.inr ⟨k, hk, hlt, hmin⟩) _
        (List.mem_map_of_mem (f := fun x0 => optimizeParams env.opt F x0 ms.2 limit) hx1)
      simp only [optimizeParams, hv1, cost_optValue] at hle
      rw [hco] at hle
      exact hle.trans hd

theorem pickAt_assign {x y r : List ℝ} {active : List ℕ} (hnd : active.Nodup) (hl : r.length = active.length)
    (h : Coego.assign x (active.zip r) = .ok y) : Spec.pickAt y active = r.map some := by
  have hf : (active.zip r).map Prod.fst = active := by rw [List.map_fst_zip]; omega
  obtain ⟨y', hy, _, hin, _⟩ := assign_spec (active.zip r) x (assign_ok_lt _ _ _ h) (by rw [hf]; exact hnd)
  rw [h] at hy
  simp only [Except.ok.injEq] at hy
  subst hy
  apply List.ext_getElem
  · simp [Spec.pickAt, hl]
  · intro k h1 h2
    simp only [Spec.pickAt, List.length_map] at h1 h2
    simp only [Spec.pickAt, List.getElem_map]
    exact hin (active[k], r[k]) (List.mem_iff_getElem.2 ⟨k, by simp; omega, by simp⟩)

/-- From components and bounds in the order of the active list to each component. -/
theorem within_of_pick {bounds bs : List (ℝ × ℝ)} {dim : ℕ} {theta r : List ℝ} {active : List ℕ}
    (hb : expand dim bounds = .ok bs) (hs : Spec.OrderOk bounds active) (ha : ∀ i ∈ active, i < dim)
    (hp : Spec.pickAt theta active = r.map some) (hw : Spec.WithinBounds r (activeBounds bs active)) :
    ∀ i ∈ active, ∃ v b, theta[i]? = some v ∧ Spec.perComponent bounds i = some b ∧ b.1 ≤ v ∧ v ≤ b.2 := by
  have hb0 := hb
  have hb := expand_ok.1 hb
  have hab := activeBounds_order hb0 hs fun i hi => by rw [hb.2.1]; exact ha i hi
  intro i hi
  obtain ⟨k, hk, rfl⟩ := List.mem_iff_getElem.1 hi
  have e1 := congrArg (fun l => l[k]?) hp
  have e2 := congrArg (fun l => l[k]?) hab
  simp only [Spec.pickAt, List.getElem?_map, List.getElem?_eq_getElem hk, Option.map_some] at e1 e2
  unfold Spec.WithinBounds at hw
  rw [List.forall₂_iff_get] at hw
  have hkr : k < r.length := by
    by_contra hc
    rw [List.getElem?_eq_none (l := r) (by omega)] at e1
    simp at e1
  have e1 : theta[active[k]]? = some r[k] := by
    rw [List.getElem?_eq_getElem hkr] at e1; simpa using e1
  have hkb : k < (activeBounds bs active).length := by have := hw.1; omega
  have e2 : bs[active[k]]? = some (activeBounds bs active)[k] := by
    rw [List.getElem?_eq_getElem hkb] at e2; simpa using e2
  rw [hb.2.2 _ (ha _ hi)] at e2
  exact ⟨_, _, e1, e2, hw.2 k hkr hkb⟩

theorem allSome_none (l : List (Option ℝ)) (h : none ∈ l) : allSome l = none := by
  induction l with
  | nil => simp at h
  | cons a l ih =>
    cases a with
    | none => rfl
    | some a => simp only [List.mem_cons, reduceCtorEq, false_or] at h; simp [allSome, ih h]

/-- C48. Components which are not numbers never are better than others for the optimizer. -/
theorem C48_nan_components (nll : List ℝ → Flt) (theta0 : List ℝ) (active : List ℕ) (hn : active.Nodup)
    (ha : ∀ i ∈ active, i < theta0.length) (x : List (Option ℝ)) (hl : x.length = active.length) (hx : none ∈ x) :
    ∃ v, objective nll theta0 active x = .ok v ∧ Spec.cost v = ⊤ := by
  obtain ⟨y, hy⟩ := assign_exists (active.zip (x.map (Option.map pow10))) (theta0.map some) fun p hp => by
    rw [List.length_map]; exact ha _ (List.of_mem_zip hp).1
  suffices none ∈ y from ⟨.pinf, by simp only [objective, hy, bind, Except.bind, allSome_none y this], rfl⟩
  obtain ⟨k, hk, hxk⟩ := List.mem_iff_getElem.1 hx
  have hka : k < active.length := by omega
  have key : ∀ (ps : List (ℕ × Option ℝ)) (z w : List (Option ℝ)), Coego.assign z ps = .ok w → (ps.map Prod.fst).Nodup →
      ∀ p ∈ ps, w[p.1]? = some p.2 := by
    intro ps
    induction ps with
    | nil => simp
    | cons q ps ih =>
      intro z w h hnd p hp
      simp only [List.map_cons, List.nodup_cons] at hnd
      have hq := assign_ok_lt _ _ _ h q (by simp)
      simp only [Coego.assign, if_pos hq] at h
      rcases List.mem_cons.1 hp with rfl | hp
      · rw [(assign_outside _ _ _ h).2 _ hnd.1, List.getElem?_set_self hq]
      · exact ih _ _ h hnd.2 p hp
  have hz : (active.zip (x.map (Option.map pow10))).map Prod.fst = active := List.map_fst_zip (by simp [hl])
  have := key _ _ _ hy (by rw [hz]; exact hn) (active[k], none) (by
    rw [List.mem_iff_getElem]
    exact ⟨k, by simp [hka, hk], by simp [hxk]⟩)
  exact List.mem_of_getElem? this

/-- The second of two active components among three is not a number. -/
example (nll : List ℝ → Flt) : ∃ v, objective nll [1, 2, 3] [0, 2] [some 1, none] = .ok v ∧ Spec.cost v = ⊤ :=
  C48_nan_components nll _ _ (by decide) (by simp) _ rfl (by simp)

/-- C48. With partial tuning the components that are not active keep their initial value, whatever the optimizer
does. -/
theorem C48_inactive_unchanged (env : Env) (dim nStart maxEval : ℕ) (init : List ℝ) (bounds : List (ℝ × ℝ))
    (active : List ℕ) (theta : List ℝ)
    (h : fitTheta env dim nStart maxEval (.part init bounds active) = .ok theta) :
    Spec.SameOutside active init theta := by
  simp only [fitTheta, bind_ok] at h
  obtain ⟨theta0, _, opt, _, h⟩ := h
  obtain ⟨h1, h2⟩ := assign_outside _ _ _ h
  refine ⟨h1, fun i hi => h2 i fun hc => hi ?_⟩
  rw [List.mem_map] at hc
  obtain ⟨p, hp, rfl⟩ := hc
  exact (List.of_mem_zip hp).1

/-- C48. With fixed tuning, theta is the given value as it is. -/
theorem C48_fixed (env : Env) (dim nStart maxEval : ℕ) (init theta : List ℝ) :
    fitTheta env dim nStart maxEval (.fixed init) = .ok theta ↔
      theta = init ∧ (init.length = 1 ∨ init.length = dim) := by
  simp only [fitTheta, bind_ok, Except.ok.injEq]
  constructor
  · rintro ⟨r, h1, rfl⟩
    exact ⟨rfl, (expand_ok.1 h1).1⟩
  · rintro ⟨rfl, h⟩
    obtain ⟨r, hr⟩ := expand_exists h
    exact ⟨r, hr, rfl⟩

/-- C48. With full tuning, a scalar initial value or a scalar bound is broadcast to all components. -/
theorem C48_full_broadcast (env : Env) (dim nStart maxEval : ℕ) (v : ℝ) (b : ℝ × ℝ) (init : List ℝ)
    (bounds : List (ℝ × ℝ)) :
    fitTheta env dim nStart maxEval (.full [v] bounds) =
      fitTheta env dim nStart maxEval (.full (List.replicate dim v) bounds) ∧
    fitTheta env dim nStart maxEval (.full init [b]) =
      fitTheta env dim nStart maxEval (.full init (List.replicate dim b)) := by
  have key : ∀ {β : Type} (w : β), expand dim [w] = expand dim (List.replicate dim w) := by
    intro β w
    unfold expand
    split
    · rename_i u hu
      simp only [List.cons.injEq, and_true] at hu
      subst hu
      split
      · rename_i l u' hu'
        have : dim = 1 := by simpa using congrArg List.length hu'
        subst this
        simpa using hu'
      · simp
    · rename_i h; exact absurd rfl (h w)
  constructor
  · simp only [fitTheta, key]
  · simp only [fitTheta, optimizeActive, key]

/-- C48, part. If the likelihood can be computed for all hyperparameters and the optimizer is a minimizer that
does not fail, then the active components end between the bounds declared for them, for a list of active
components in increasing order, or in any order if the bounds are the same for all components. Missing: other
orders (`C48_refuted_unsorted_active`), failures
(`C48_refuted_all_failures`). -/
theorem C48_active_within_bounds_partial (env : Env) (hopt : Spec.IsMinimizer env.opt)
    (hsplit : ∀ l, (env.split l).items = l) (hnf : Spec.NeverFails env.opt)
    (hnll : ∀ t, Spec.cost (env.nll t) < ⊤) (dim nStart maxEval : ℕ) (init : List ℝ) (bounds : List (ℝ × ℝ))
    (hpos : ∀ b ∈ bounds, 0 < b.1 ∧ b.1 ≤ b.2) (active : List ℕ) (hs : Spec.OrderOk bounds active)
    (theta : List ℝ) (h : fitTheta env dim nStart maxEval (.part init bounds active) = .ok theta) :
    ∀ i ∈ active, ∃ v b, theta[i]? = some v ∧ Spec.perComponent bounds i = some b ∧ b.1 ≤ v ∧ v ≤ b.2 := by
  simp only [fitTheta, bind_ok] at h
  obtain ⟨theta0, h0, r, hr, h⟩ := h
  have hl0 := (expand_ok.1 h0).2.1
  obtain ⟨bs, init', ms, hb, hsel, hms, ⟨_, hx⟩ | ⟨hw, _⟩⟩ :=
    optimizeActive_selected hopt hsplit hnf hl0 hpos hs hr
  · obtain ⟨⟨rows, hrows⟩, _, _⟩ := prepare_ok hms
    obtain ⟨y, hy, _⟩ := hx (init'.map log10) (by rw [hrows]; simp)
    exact absurd (hnll y) (by rw [hy]; exact lt_irrefl _)
  · have hsel := select_ok.1 hsel
    have hact : ∀ i ∈ active, i < dim := by
      intro i hi
      have : theta0[i]? ∈ Spec.pickAt theta0 active := List.mem_map_of_mem (f := fun i => theta0[i]?) hi
      rw [hsel, List.mem_map] at this
      obtain ⟨v, _, hv⟩ := this
      have := (List.getElem?_eq_some_iff.1 hv.symm).1
      omega
    have hbl := (expand_ok.1 hb).2.1
    have hab := activeBounds_order hb hs fun i hi => by rw [hbl]; exact hact i hi
    have hrl : r.length = active.length := by
      have := congrArg List.length hab
      rw [pickAt_length, List.length_map] at this
      rw [hw.length_eq, this]
    exact within_of_pick hb hs hact (pickAt_assign (orderOk_nodup hs) hrl h) hw

/-- C48, part. The same with full tuning: all components end between their bounds. -/
theorem C48_full_within_bounds_partial (env : Env) (hopt : Spec.IsMinimizer env.opt)
    (hsplit : ∀ l, (env.split l).items = l) (hnf : Spec.NeverFails env.opt)
    (hnll : ∀ t, Spec.cost (env.nll t) < ⊤) (dim nStart maxEval : ℕ) (init : List ℝ) (bounds : List (ℝ × ℝ))
    (hpos : ∀ b ∈ bounds, 0 < b.1 ∧ b.1 ≤ b.2) (theta : List ℝ)
    (h : fitTheta env dim nStart maxEval (.full init bounds) = .ok theta) :
    theta.length = dim ∧
    ∀ i < dim, ∃ v b, theta[i]? = some v ∧ Spec.perComponent bounds i = some b ∧ b.1 ≤ v ∧ v ≤ b.2 := by
  simp only [fitTheta, bind_ok] at h
  obtain ⟨theta0, h0, hr⟩ := h
  have hl0 := (expand_ok.1 h0).2.1
  obtain ⟨bs, init', ms, hb, hsel, hms, ⟨_, hx⟩ | ⟨hw, _⟩⟩ :=
    optimizeActive_selected hopt hsplit hnf hl0 hpos (.inl List.pairwise_lt_range) hr
  · obtain ⟨⟨rows, hrows⟩, _, _⟩ := prepare_ok hms
    obtain ⟨y, hy, _⟩ := hx (init'.map log10) (by rw [hrows]; simp)
    exact absurd (hnll y) (by rw [hy]; exact lt_irrefl _)
  · have hbl := (expand_ok.1 hb).2.1
    have hl : theta.length = dim := by
      rw [hw.length_eq, ← hbl, activeBounds_range]
    refine ⟨hl, fun i hi => ?_⟩
    refine within_of_pick hb (.inl List.pairwise_lt_range) (fun i hi => List.mem_range.1 hi) ?_ hw i
      (List.mem_range.2 hi)
    rw [← hl]
    unfold Spec.pickAt
    apply List.ext_getElem
    · simp
    · intro i h1 h2; simp at h1 h2; simp [h1]

/-! ### The fit does not panic -/

theorem optimizeActive_returns (env : Env) (hu : UniformRng env.rng) (dim nStart maxEval : ℕ) (theta0 : List ℝ)
    (bounds : List (ℝ × ℝ)) (active : List ℕ) (hth : theta0.length = dim)
    (hbl : bounds.length = 1 ∨ bounds.length = dim) (hpos : ∀ b ∈ bounds, 0 < b.1 ∧ b.1 < b.2)
    (hnd : active.Nodup) (ha : ∀ i ∈ active, i < dim) (hm : 25 ≤ maxEval) :
    ∃ r, optimizeActive env dim nStart maxEval theta0 bounds active = .ok r := by
  obtain ⟨bs, hb⟩ := expand_exists (dim := dim) hbl
  obtain ⟨init, hi⟩ := select_exists (l := theta0) (is := active) fun i hi => by rw [hth]; exact ha i hi
  have hb' := expand_ok.1 hb
  have hil : init.length = active.length := by
    have := congrArg List.length (select_ok.1 hi); rw [pickAt_length, List.length_map] at this; exact this.symm
  have habl : (activeBounds bs active).length = active.length := by
    have := (C29_same_components_partial bs active active
      ⟨[], by simp, hnd, fun i hi => by rw [hb'.2.1]; exact ha i hi, by simp⟩).length_eq
    rw [pickAt_length, List.length_map] at this
    exact this
  have hpos' : ∀ b ∈ activeBounds bs active, 0 < b.1 ∧ b.1 < b.2 := by
    intro b hbm
    obtain ⟨i, hi⟩ := List.getElem?_of_mem (activeBounds_subset _ _ b hbm)
    have hlt := (List.getElem?_eq_some_iff.1 hi).1
    rw [hb'.2.2 i (by omega)] at hi
    unfold Spec.perComponent at hi
    split_ifs at hi <;> exact hpos b (List.mem_of_getElem? hi)
  obtain ⟨rows, hr, _⟩ := C49_starts_partial env.rng hu nStart init (activeBounds bs active) (by omega)
    (fun b hb => ⟨(hpos' b hb).1, (hpos' b hb).2.le⟩) (fun _ b hb => (hpos' b hb).2)
  have he : evalLimit init.length maxEval = .ok (max minEval (min (10 * init.length) maxEval)) := if_pos hm
  simp only [optimizeActive, hb, hi, hr, he, bind, Except.bind]
  exact ⟨_, rfl⟩

/-- C48. A fit with full tuning, lengths equal to one or to the dimension and non empty bounds does not panic. -/
theorem C48_full_returns (env : Env) (hu : UniformRng env.rng) (dim nStart maxEval : ℕ) (init : List ℝ)
    (bounds : List (ℝ × ℝ)) (hil : init.length = 1 ∨ init.length = dim)
    (hbl : bounds.length = 1 ∨ bounds.length = dim) (hpos : ∀ b ∈ bounds, 0 < b.1 ∧ b.1 < b.2)
    (hm : 25 ≤ maxEval) : ∃ theta, fitTheta env dim nStart maxEval (.full init bounds) = .ok theta := by
  obtain ⟨theta0, h0⟩ := expand_exists (dim := dim) hil
  obtain ⟨r, hr⟩ := optimizeActive_returns env hu dim nStart maxEval theta0 bounds (List.range dim)
    (expand_ok.1 h0).2.1 hbl hpos List.nodup_range (fun i hi => List.mem_range.1 hi) hm
  exact ⟨r, by simp only [fitTheta, h0, bind, Except.bind]; exact hr⟩

/-- C48, part. The same with partial tuning; the initial value has to have one component per dimension
(`C48_refuted_partial_scalar_panics`). -/
theorem C48_partial_tuning_returns_partial (env : Env) (hu : UniformRng env.rng) (dim nStart maxEval : ℕ)
    (init : List ℝ) (bounds : List (ℝ × ℝ)) (hil : init.length = dim)
    (hbl : bounds.length = 1 ∨ bounds.length = dim) (hpos : ∀ b ∈ bounds, 0 < b.1 ∧ b.1 < b.2)
    (active : List ℕ) (hnd : active.Nodup) (ha : ∀ i ∈ active, i < dim) (hm : 25 ≤ maxEval) :
    ∃ theta, fitTheta env dim nStart maxEval (.part init bounds active) = .ok theta := by
  obtain ⟨theta0, h0⟩ := expand_exists (dim := dim) (Or.inr hil)
  obtain ⟨r, hr⟩ := optimizeActive_returns env hu dim nStart maxEval theta0 bounds active
    (expand_ok.1 h0).2.1 hbl hpos hnd ha hm
  obtain ⟨y, hy⟩ := assign_exists (active.zip r) init fun p hp => by
    rw [hil]; exact ha _ (List.of_mem_zip hp).1
  exact ⟨y, by simp only [fitTheta, h0, hr, bind, Except.bind]; exact hy⟩

/-! ### C89 -/

theorem pick_within {bounds bs : List (ℝ × ℝ)} {dim : ℕ} {theta r : List ℝ} {active : List ℕ}
    (hb : expand dim bounds = .ok bs) (hs : Spec.OrderOk bounds active) (ha : ∀ i ∈ active, i < dim)
    (hp : Spec.pickAt theta active = r.map some)
    (hw : ∀ i ∈ active, ∃ v b, theta[i]? = some v ∧ Spec.perComponent bounds i = some b ∧ b.1 ≤ v ∧ v ≤ b.2) :
    Spec.WithinBounds r (activeBounds bs active) := by
  have hb0 := hb
  have hb := expand_ok.1 hb
  have hab := activeBounds_order hb0 hs fun i hi => by rw [hb.2.1]; exact ha i hi
  have l1 := congrArg List.length hp
  have l2 := congrArg List.length hab
  rw [pickAt_length, List.length_map] at l1 l2
  unfold Spec.WithinBounds
  rw [List.forall₂_iff_get]
  refine ⟨by omega, ?_⟩
  intro k h1 h2
  have hk : k < active.length := by omega
  obtain ⟨v, b, hv, hbv, hw⟩ := hw active[k] (List.getElem_mem hk)
  have e1 := congrArg (fun l => l[k]?) hp
  have e2 := congrArg (fun l => l[k]?) hab
  simp only [Spec.pickAt, List.getElem?_map, List.getElem?_eq_getElem hk, List.getElem?_eq_getElem h1,
    List.getElem?_eq_getElem h2, Option.map_some, Option.some.injEq] at e1 e2
  rw [hb.2.2 _ (ha _ (List.getElem_mem hk)), hbv, Option.some.injEq] at e2
  rw [hv, Option.some.injEq] at e1
  simp only [List.get_eq_getElem, ← e1, ← e2]
  exact hw

theorem optimizeActive_not_worse {env : Env} {dim nStart maxEval : ℕ} {theta0 : List ℝ}
    {bounds : List (ℝ × ℝ)} {active : List ℕ} {r y : List ℝ} (hopt : Spec.IsMinimizer env.opt)
    (hsplit : ∀ l, (env.split l).items = l) (hnf : Spec.NeverFails env.opt)
    (hth : theta0.length = dim) (hpos : ∀ b ∈ bounds, 0 < b.1 ∧ b.1 ≤ b.2) (hs : Spec.OrderOk bounds active)
    (ha : ∀ i ∈ active, i < dim)
    (hin : ∀ i ∈ active, ∃ v b, theta0[i]? = some v ∧ Spec.perComponent bounds i = some b ∧ b.1 ≤ v ∧ v ≤ b.2)
    (h : optimizeActive env dim nStart maxEval theta0 bounds active = .ok r)
    (hy : Coego.assign theta0 (active.zip r) = .ok y) :
    Spec.cost (env.nll y) ≤ Spec.cost (env.nll theta0) := by
  obtain ⟨bs, init, ms, hb, hsel, hms, hcase⟩ := optimizeActive_selected hopt hsplit hnf hth hpos hs h
  obtain ⟨⟨rows, hrows⟩, hms2, _⟩ := prepare_ok hms
  have hb' := expand_ok.1 hb
  have hpk := select_ok.1 hsel
  have hw := pick_within hb hs ha hpk hin
  have hpos' : ∀ b ∈ activeBounds bs active, 0 < b.1 := by
    intro b hbm
    obtain ⟨i, hi⟩ := List.getElem?_of_mem (activeBounds_subset _ _ b hbm)
    have hlt := (List.getElem?_eq_some_iff.1 hi).1
    rw [hb'.2.2 i (by omega)] at hi
    unfold Spec.perComponent at hi
    split_ifs at hi <;> exact (hpos b (List.mem_of_getElem? hi)).1
  have hwl : Spec.WithinBounds (init.map log10) ms.2 := by rw [hms2]; exact log10_within hpos' hw
  have hip : ∀ v ∈ init, 0 < v := by
    intro v hv
    obtain ⟨k, hk, rfl⟩ := List.mem_iff_getElem.1 hv
    unfold Spec.WithinBounds at hw
    rw [List.forall₂_iff_get] at hw
    have h1 := (hw.2 k hk (by have := hw.1; omega)).1
    exact lt_of_lt_of_le (hpos' _ (List.getElem_mem _)) h1
  have hobj : objective env.nll theta0 active ((init.map log10).map some) = .ok (env.nll theta0) := by
    rw [objective_real]
    refine ⟨theta0, ?_, rfl⟩
    have : (init.map log10).map pow10 = init := by
      rw [List.map_map]
      conv_rhs => rw [← List.map_id init]
      apply List.map_congr_left
      intro v hv
      exact pow10_log10 (hip v hv)
    rw [this]
    apply assign_self
    intro p hp
    obtain ⟨k, hk, rfl⟩ := List.mem_iff_getElem.1 hp
    rw [List.length_zip] at hk
    have e := congrArg (fun l => l[k]?) hpk
    simp only [Spec.pickAt, List.getElem?_map, List.getElem?_eq_getElem (show k < active.length by omega),
      List.getElem?_eq_getElem (show k < init.length by omega), Option.map_some, Option.some.injEq] at e
    simpa using e
  have hmem : init.map log10 ∈ ms.1 := by rw [hrows]; simp
  rcases hcase with ⟨_, hx⟩ | ⟨_, y', hy', _, hx⟩
  · obtain ⟨_, _, h3⟩ := hx _ hmem
    rw [h3 hwl _ hobj]
    exact le_top
  · rw [hy] at hy'
    simp only [Except.ok.injEq] at hy'
    subst hy'
    exact hx _ hmem hwl _ hobj

/-- C89, part. With partial tuning from an initial value whose active components are between their bounds, the
fitted hyperparameters are at least as likely as the initial ones. The active components are in increasing order,
or in any order if the bounds are the same for all. Missing: other orders, failures of the optimizer. -/
theorem C89_partial_tuning_not_worse_partial (env : Env) (hopt : Spec.IsMinimizer env.opt)
    (hsplit : ∀ l, (env.split l).items = l) (hnf : Spec.NeverFails env.opt)
    (dim nStart maxEval : ℕ) (init : List ℝ) (hil : init.length = dim) (bounds : List (ℝ × ℝ))
    (hpos : ∀ b ∈ bounds, 0 < b.1 ∧ b.1 ≤ b.2) (active : List ℕ) (hs : Spec.OrderOk bounds active)
    (ha : ∀ i ∈ active, i < dim)
    (hin : ∀ i ∈ active, ∃ v b, init[i]? = some v ∧ Spec.perComponent bounds i = some b ∧ b.1 ≤ v ∧ v ≤ b.2)
    (theta : List ℝ) (h : fitTheta env dim nStart maxEval (.part init bounds active) = .ok theta) :
    Spec.cost (env.nll theta) ≤ Spec.cost (env.nll init) := by
  simp only [fitTheta, bind_ok] at h
  obtain ⟨theta0, h0, r, hr, h⟩ := h
  have h0' := expand_ok.1 h0
  have : theta0 = init := by
    apply List.ext_getElem?
    intro i
    rcases lt_or_ge i dim with hi | hi
    · rw [h0'.2.2 i hi]
      unfold Spec.perComponent
      split_ifs with h1
      · congr 1; omega
      · rfl
    · rw [List.getElem?_eq_none (by omega), List.getElem?_eq_none (by omega)]
  subst this
  exact optimizeActive_not_worse hopt hsplit hnf h0'.2.1 hpos hs ha hin hr h

/-- C89. The same with full tuning: `theta0` is the initial value, broadcast if it is a scalar. -/
theorem C89_full_tuning_not_worse_partial (env : Env) (hopt : Spec.IsMinimizer env.opt)
    (hsplit : ∀ l, (env.split l).items = l) (hnf : Spec.NeverFails env.opt)
    (dim nStart maxEval : ℕ) (init : List ℝ) (bounds : List (ℝ × ℝ))
    (hpos : ∀ b ∈ bounds, 0 < b.1 ∧ b.1 ≤ b.2)
    (hin : ∀ i < dim, ∃ v b, Spec.perComponent init i = some v ∧ Spec.perComponent bounds i = some b ∧
      b.1 ≤ v ∧ v ≤ b.2)
    (theta : List ℝ) (h : fitTheta env dim nStart maxEval (.full init bounds) = .ok theta) :
    ∃ theta0, theta0.length = dim ∧ (∀ i < dim, theta0[i]? = Spec.perComponent init i) ∧
      Spec.cost (env.nll theta) ≤ Spec.cost (env.nll theta0) := by
  simp only [fitTheta, bind_ok] at h
  obtain ⟨theta0, h0, hr⟩ := h
  have h0' := expand_ok.1 h0
  have hl : theta.length = dim := by
    obtain ⟨bs, init', ms, hb, hsel, _, ⟨rfl, _⟩ | ⟨hw, _⟩⟩ :=
      optimizeActive_selected hopt hsplit hnf h0'.2.1 hpos (.inl List.pairwise_lt_range) hr
    · have := congrArg List.length (select_ok.1 hsel)
      rw [pickAt_length, List.length_map, List.length_range] at this
      rw [List.length_replicate, this]
    · have hbl := (expand_ok.1 hb).2.1
      rw [hw.length_eq, ← hbl, activeBounds_range]
  refine ⟨theta0, h0'.2.1, h0'.2.2, ?_⟩
  refine optimizeActive_not_worse hopt hsplit hnf h0'.2.1 hpos (.inl List.pairwise_lt_range)
    (fun i hi => List.mem_range.1 hi) (fun i hi => ?_) hr ?_
  · rw [h0'.2.2 i (List.mem_range.1 hi)]; exact hin i (List.mem_range.1 hi)
  · obtain ⟨y, hy⟩ := assign_exists ((List.range dim).zip theta) theta0 fun p hp => by
      rw [h0'.2.1]; exact List.mem_range.1 (List.of_mem_zip hp).1
    rw [hy]
    have hyl := (assign_outside _ _ _ hy).1
    have hpk := pickAt_assign List.nodup_range (by simp [hl]) hy
    have : y = theta := by
      apply List.ext_getElem?
      intro i
      rcases lt_or_ge i dim with hi | hi
      · have e := congrArg (fun l => l[i]?) hpk
        simp only [Spec.pickAt, List.getElem?_map, List.getElem?_range hi, Option.map_some] at e
        rw [List.getElem?_eq_getElem (by omega : i < theta.length), Option.map_some, Option.some.injEq] at e
        rw [e, List.getElem?_eq_getElem (by omega : i < theta.length)]
      · rw [List.getElem?_eq_none (by omega), List.getElem?_eq_none (by omega)]
    rw [this]

/-! ### A minimizer, and the cases where C48 fails -/

/-- The point of the box nearest to the start. -/
noncomputable def clampTo (x : List ℝ) (bs : List (ℝ × ℝ)) : List ℝ :=
  List.zipWith (fun v b => max b.1 (min v b.2)) x bs

/-- A minimizer that evaluates the function once, at the point of the box nearest to the start. -/
noncomputable def clampOpt : Optimizer := fun f x0 bs _ =>
  (match f ((clampTo x0 bs).map some) with
    | .ok v => some v
    | .error _ => none, clampTo x0 bs)

theorem clampOpt_some {f : List (Option ℝ) → Except Panic Flt} {x0 : List ℝ} {bs : List (ℝ × ℝ)} {n : ℕ} {v : Flt}
    (h : (clampOpt f x0 bs n).1 = some v) : f ((clampTo x0 bs).map some) = .ok v := by
  unfold clampOpt at h
  cases hf : f ((clampTo x0 bs).map some) with
  | error e => simp [hf] at h
  | ok w => simpa [hf] using h

theorem clampTo_within (x : List ℝ) (bs : List (ℝ × ℝ)) (hl : x.length = bs.length)
    (hb : ∀ b ∈ bs, b.1 ≤ b.2) : Spec.WithinBounds (clampTo x bs) bs := by
  induction x generalizing bs with
  | nil => cases bs with
    | nil => exact .nil
    | cons b bs => simp at hl
  | cons v x ih => cases bs with
    | nil => simp at hl
    | cons b bs =>
      refine .cons ⟨le_max_left _ _, ?_⟩ (ih bs (by simpa using hl) fun b hb' => hb b (by simp [hb']))
      exact max_le (hb b (by simp)) (min_le_right _ _)

theorem clampTo_self (x : List ℝ) (bs : List (ℝ × ℝ)) (h : Spec.WithinBounds x bs) : clampTo x bs = x := by
  unfold Spec.WithinBounds at h
  induction h with
  | nil => rfl
  | cons hab _ ih =>
    simp only [clampTo, List.zipWith_cons_cons] at ih ⊢
    rw [ih, min_eq_left hab.2, max_eq_right hab.1]

theorem clampOpt_isMinimizer : Spec.IsMinimizer clampOpt where
  within := fun f x0 bs n v _ hl hb => clampTo_within x0 bs hl hb
  value := fun f x0 bs n v h => clampOpt_some h
  descent := fun f x0 bs n v v0 h hw h0 => by
    have := clampOpt_some h
    rw [clampTo_self x0 bs hw, h0] at this
    simp only [Except.ok.injEq] at this
    rw [this]

theorem clampOpt_neverFails : Spec.NeverFails clampOpt := by
  intro f hf x0 bs n
  obtain ⟨v, hv⟩ := hf ((clampTo x0 bs).map some)
  simp [clampOpt, hv]

/-- An environment with this minimizer. -/
noncomputable def exEnv (nll : List ℝ → Flt) : Env := ⟨nll, clampOpt, exRng, .task⟩

/-- Result of the only optimization when there is no multistart. -/
theorem exEnv_optimizeActive (nll : List ℝ → Flt) (dim : ℕ) (theta0 : List ℝ) (bounds bs : List (ℝ × ℝ))
    (active : List ℕ) (init y : List ℝ) (hb : expand dim bounds = .ok bs) (hi : select theta0 active = .ok init)
    (hy : Coego.assign theta0 (active.zip ((clampTo (init.map log10)
      ((activeBounds bs active).map fun b => (log10 b.1, log10 b.2))).map pow10)) = .ok y) :
    optimizeActive (exEnv nll) dim 0 1000 theta0 bounds active = .ok (if Flt.lt (nll y) .pinf then
      (clampTo (init.map log10) ((activeBounds bs active).map fun b => (log10 b.1, log10 b.2))).map pow10
      else List.replicate init.length 10) := by
  have ho := (objective_real nll theta0 active (clampTo (init.map log10)
      ((activeBounds bs active).map fun b => (log10 b.1, log10 b.2))) (nll y)).2 ⟨y, hy, rfl⟩
  have he : evalLimit init.length 1000 = .ok (max minEval (min (10 * init.length) 1000)) := rfl
  have h10 : pow10 1 = 10 := by simp [pow10]
  simp only [optimizeActive, hb, hi, he, prepareMultistart, otherStarts, bind, Except.bind, exEnv,
    List.map_cons, List.map_nil, Coego.Split.reduce, List.foldl_cons, List.foldl_nil, Coego.pick,
    optimizeParams, clampOpt, ho]
  cases hn : nll y with
  | nan => simp [optValue, Flt.lt, Flt.cmp, h10]
  | ninf => simp [optValue, Flt.lt, Flt.cmp]
  | fin q => simp [optValue, Flt.lt, Flt.cmp]
  | pinf => simp [optValue, Flt.lt, Flt.cmp, h10]

theorem cost_fin_lt (q : ℚ) : Spec.cost (.fin q) < ⊤ := by
  rw [cost_of_ne (by simp)]; exact EReal.coe_lt_top _

theorem pow10_zero : pow10 0 = 1 := by simp [pow10]
theorem log10_one : log10 1 = 0 := by simp [log10]

/-- C48 fails for active components that are not in increasing order: with the active list `[1, 0]`, each of the
two components is optimized between the bounds of the other one. -/
theorem C48_refuted_unsorted_active :
    ∃ env : Env, Spec.IsMinimizer env.opt ∧ Spec.NeverFails env.opt ∧ (∀ l, (env.split l).items = l) ∧
      (∀ t, Spec.cost (env.nll t) < ⊤) ∧
      fitTheta env 2 0 1000 (.part [1, 100] [(1, 1), (100, 100)] [1, 0]) = .ok [100, 1] := by
  refine ⟨exEnv fun _ => .fin 0, clampOpt_isMinimizer, clampOpt_neverFails, fun l => rfl, fun t => ?_, ?_⟩
  · simp [exEnv, Spec.cost, Spec.toE]
  · have hlt : (0 : ℝ) < log10 100 := by
      rw [← log10_one]; exact log10_lt (by norm_num) (by norm_num)
    have hc : clampTo [log10 100, log10 1] [(log10 1, log10 1), (log10 100, log10 100)] = [log10 1, log10 100] := by
      rw [log10_one]
      simp [clampTo, hlt.le]
    have hp : [log10 1, log10 100].map pow10 = [1, 100] := by
      simp only [List.map_cons, List.map_nil, pow10_log10 (show (0 : ℝ) < 1 by norm_num),
        pow10_log10 (show (0 : ℝ) < 100 by norm_num)]
    have hab : activeBounds [((1 : ℝ), (1 : ℝ)), (100, 100)] [1, 0] = [(1, 1), (100, 100)] := by
      simp [activeBounds, List.range_succ]
    have key := exEnv_optimizeActive (fun _ => .fin 0) 2 [1, 100] [(1, 1), (100, 100)] [(1, 1), (100, 100)] [1, 0]
      [100, 1] [100, 1] (by simp [expand]) (by simp [select, bind, Except.bind])
      (by rw [hab]; simp only [List.map_cons, List.map_nil]; rw [hc, hp]; simp [Coego.assign])
    rw [hab] at key
    simp only [List.map_cons, List.map_nil] at key
    rw [hc, hp] at key
    have hx : expand 2 [(1 : ℝ), 100] = .ok [1, 100] := by simp [expand]
    simp only [fitTheta, hx, bind, Except.bind, key]
    simp [Flt.lt, Flt.cmp, Coego.assign]

/-- C89 fails for active components that are not in increasing order: an initial value within its bounds, with both
components active, is replaced by a less likely one, as each component is moved between the bounds of the other. -/
theorem C89_refuted_unsorted_active :
    ∃ env : Env, Spec.IsMinimizer env.opt ∧ Spec.NeverFails env.opt ∧ (∀ l, (env.split l).items = l) ∧
      ∃ theta, fitTheta env 2 0 1000 (.part [1, 100] [(1, 1), (100, 100)] [1, 0]) = .ok theta ∧
        Spec.cost (env.nll [1, 100]) < Spec.cost (env.nll theta) := by
  classical
  set nll : List ℝ → Flt := fun t => if t = [1, 100] then .fin 0 else .fin 1 with hnll
  have h1 : nll [1, 100] = .fin 0 := if_pos rfl
  have h2 : nll [100, 1] = .fin 1 := if_neg (by norm_num)
  refine ⟨exEnv nll, clampOpt_isMinimizer, clampOpt_neverFails, fun l => rfl, [100, 1], ?_, ?_⟩
  · have hlt : (0 : ℝ) < log10 100 := by
      rw [← log10_one]; exact log10_lt (by norm_num) (by norm_num)
    have hc : clampTo [log10 100, log10 1] [(log10 1, log10 1), (log10 100, log10 100)] = [log10 1, log10 100] := by
      rw [log10_one]
      simp [clampTo, hlt.le]
    have hp : [log10 1, log10 100].map pow10 = [1, 100] := by
      simp only [List.map_cons, List.map_nil, pow10_log10 (show (0 : ℝ) < 1 by norm_num),
        pow10_log10 (show (0 : ℝ) < 100 by norm_num)]
    have hab : activeBounds [((1 : ℝ), (1 : ℝ)), (100, 100)] [1, 0] = [(1, 1), (100, 100)] := by
      simp [activeBounds, List.range_succ]
    have key := exEnv_optimizeActive nll 2 [1, 100] [(1, 1), (100, 100)] [(1, 1), (100, 100)] [1, 0]
      [100, 1] [100, 1] (by simp [expand]) (by simp [select, bind, Except.bind])
      (by rw [hab]; simp only [List.map_cons, List.map_nil]; rw [hc, hp]; simp [Coego.assign])
    rw [hab] at key
    simp only [List.map_cons, List.map_nil] at key
    rw [hc, hp, h2] at key
    have hx : expand 2 [(1 : ℝ), 100] = .ok [1, 100] := by simp [expand]
    simp only [fitTheta, hx, bind, Except.bind, key]
    simp [Flt.lt, Flt.cmp, Coego.assign]
  · show Spec.cost (nll [1, 100]) < Spec.cost (nll [100, 1])
    rw [h1, h2, cost_of_ne (by simp), cost_of_ne (by simp)]
    simp [Spec.toE]

/-- C89 fails if the optimizer fails for every start: theta is `10`, which can be less likely than the initial value. -/
theorem C89_refuted_failures :
    ∃ env : Env, Spec.IsMinimizer env.opt ∧ (∀ l, (env.split l).items = l) ∧
      ∃ theta, fitTheta env 1 0 1000 (.full [1] [(1, 2)]) = .ok theta ∧
        Spec.cost (env.nll [1]) < Spec.cost (env.nll theta) := by
  classical
  set nll : List ℝ → Flt := fun t => if t = [1] then .fin 0 else .fin 1 with hnll
  refine ⟨⟨nll, fun _ x0 _ _ => (none, x0), exRng, .task⟩, ⟨fun f x0 bs n v h => by simp at h,
    fun f x0 bs n v h => by simp at h, fun f x0 bs n v v0 h => by simp at h⟩, fun l => rfl, [10], ?_, ?_⟩
  · have hx : expand 1 [(1 : ℝ)] = .ok [1] := by simp [expand]
    have hb : expand 1 [((1 : ℝ), (2 : ℝ))] = .ok [(1, 2)] := by simp [expand]
    have he : evalLimit 1 1000 = .ok (max minEval (min (10 * 1) 1000)) := rfl
    have h10 : pow10 1 = 10 := by simp [pow10]
    simp [fitTheta, hx, bind, Except.bind, optimizeActive, hb, select, prepareMultistart, otherStarts,
      Coego.Split.reduce, Coego.pick, optimizeParams, optValue, h10, he, Flt.lt, Flt.cmp]
  · have h1 : nll [1] = .fin 0 := if_pos rfl
    have h2 : nll [10] = .fin 1 := if_neg (by norm_num)
    show Spec.cost (nll [1]) < Spec.cost (nll [10])
    rw [h1, h2, cost_of_ne (by simp), cost_of_ne (by simp)]
    simp [Spec.toE]

/-- C48 fails if no optimization succeeds: theta is `10` even if it is out of the bounds. Here the likelihood is
not computable between the bounds but it is for the returned value. -/
theorem C48_refuted_all_failures :
    ∃ env : Env, Spec.IsMinimizer env.opt ∧ Spec.NeverFails env.opt ∧ (∀ l, (env.split l).items = l) ∧
      fitTheta env 1 0 1000 (.full [1] [(1, 2)]) = .ok [10] ∧ Spec.cost (env.nll [10]) < ⊤ := by
  refine ⟨exEnv fun t => if t = [1] then .pinf else .fin 0, clampOpt_isMinimizer, clampOpt_neverFails,
    fun l => rfl, ?_, ?_⟩
  · have h2 : (0 : ℝ) ≤ log10 2 := by
      rw [← log10_one]; exact (log10_lt (by norm_num) (by norm_num)).le
    have hc : (clampTo [log10 1] [(log10 1, log10 2)]).map pow10 = [1] := by
      rw [log10_one]; simp [clampTo, h2, pow10_zero]
    have hab : activeBounds [((1 : ℝ), (2 : ℝ))] [0] = [(1, 2)] := by simp [activeBounds]
    have key := exEnv_optimizeActive (fun t => if t = [1] then .pinf else .fin 0) 1 [1] [(1, 2)] [(1, 2)] [0]
      [1] [1] (by simp [expand]) (by simp [select, bind, Except.bind])
      (by rw [hab]; simp only [List.map_cons, List.map_nil] at hc ⊢; rw [hc]; simp [Coego.assign])
    rw [hab] at key
    have hx : expand 1 [(1 : ℝ)] = .ok [1] := by simp [expand]
    simp only [fitTheta, hx, bind, Except.bind, List.range_one, key]
    simp [Flt.lt, Flt.cmp]
  · have : ¬ ([(10 : ℝ)] = [1]) := by norm_num
    simp [exEnv, Spec.cost, Spec.toE]

/-- C48 fails for a scalar initial value that is fixed or partially tuned: theta has one component, whatever the
dimension. -/
theorem C48_refuted_scalar_not_broadcast (env : Env) (dim nStart maxEval : ℕ) (v : ℝ)
    (bounds : List (ℝ × ℝ)) (active : List ℕ) (theta : List ℝ) :
    (fitTheta env dim nStart maxEval (.fixed [v]) = .ok theta → theta = [v]) ∧
    (fitTheta env dim nStart maxEval (.part [v] bounds active) = .ok theta → theta.length = 1) :=
  ⟨fun h => ((C48_fixed env dim nStart maxEval [v] theta).1 h).1,
    fun h => (C48_inactive_unchanged env dim nStart maxEval [v] bounds active theta h).1⟩

/-- C48 fails for a scalar initial value with partial tuning of the second of two components: the fit panics
although the initial guess is broadcast for the optimization. -/
theorem C48_refuted_partial_scalar_panics :
    ∃ env : Env, Spec.IsMinimizer env.opt ∧ Spec.NeverFails env.opt ∧ (∀ l, (env.split l).items = l) ∧
      (∀ t, Spec.cost (env.nll t) < ⊤) ∧
      fitTheta env 2 0 1000 (.part [1] [(1, 1)] [1]) = .error .outOfBounds := by
  refine ⟨exEnv fun _ => .fin 0, clampOpt_isMinimizer, clampOpt_neverFails, fun l => rfl, fun t => ?_, ?_⟩
  · simp [exEnv, Spec.cost, Spec.toE]
  · have hc : (clampTo [log10 1] [(log10 1, log10 1)]).map pow10 = [1] := by
      rw [log10_one]; simp [clampTo, pow10_zero]
    have hab : activeBounds [((1 : ℝ), (1 : ℝ)), (1, 1)] [1] = [(1, 1)] := by
      simp [activeBounds, List.range_succ]
    have key := exEnv_optimizeActive (fun _ => .fin 0) 2 [1, 1] [(1, 1)] [(1, 1), (1, 1)] [1]
      [1] [1, 1] (by simp [expand, List.replicate]) (by simp [select, bind, Except.bind])
      (by rw [hab]; simp only [List.map_cons, List.map_nil] at hc ⊢; rw [hc]; simp [Coego.assign])
    rw [hab] at key
    simp only [List.map_cons, List.map_nil] at hc key
    rw [hc] at key
    have hx : expand 2 [(1 : ℝ)] = .ok [1, 1] := by simp [expand, List.replicate]
    simp only [fitTheta, hx, bind, Except.bind, key]
    simp [Flt.lt, Flt.cmp, Coego.assign]

/-- C48, setters: on a partial tuning, setting the initial value or the bounds makes all components active. -/
theorem C48_refuted_setters_lose_active (p : Params) (init : List ℝ) (bounds : List (ℝ × ℝ)) (active : List ℕ)
    (hp : p.tuning = .part init bounds active) (init' : List ℝ) (bounds' : List (ℝ × ℝ)) :
    (p.thetaInit init').tuning = .full init' bounds ∧ (p.thetaBounds bounds').tuning = .full init bounds' := by
  simp [Params.thetaInit, Params.thetaBounds, hp]

/-- C48, setters: otherwise they set what they say; the bounds of a fixed tuning are ignored. -/
theorem C48_setters_partial (p : Params) (init : List ℝ) (bounds : List (ℝ × ℝ))
    (hp : ∀ i b a, p.tuning ≠ .part i b a) :
    (p.thetaInit init).tuning.init = init ∧ (p.thetaInit init).tuning.bounds = p.tuning.bounds ∧
    (p.thetaBounds bounds).tuning.init = p.tuning.init ∧
    ((p.thetaBounds bounds).tuning.bounds = p.tuning.bounds.map fun _ => bounds) := by
  cases h : p.tuning with
  | fixed i => simp [Params.thetaInit, Params.thetaBounds, h, ThetaTuning.init, ThetaTuning.bounds]
  | full i b => simp [Params.thetaInit, Params.thetaBounds, h, ThetaTuning.init, ThetaTuning.bounds]
  | part i b a => exact absurd h (hp i b a)

/-- Case of `C48_active_within_bounds_partial`, `C48_inactive_unchanged` and `C89_partial_tuning_not_worse_partial`:
three components, the first and the last being active, with multistart. -/
example : ∃ theta, fitTheta (exEnv fun t => .fin (t.length : ℚ)) 3 5 100
      (.part [1, 2, 3] [(1 / 100, 10), (1, 2), (1, 4)] [0, 2]) = .ok theta ∧
    Spec.SameOutside [0, 2] [1, 2, 3] theta ∧
    ∀ i ∈ [0, 2], ∃ v b, theta[i]? = some v ∧
      Spec.perComponent [((1 : ℝ) / 100, (10 : ℝ)), (1, 2), (1, 4)] i = some b ∧ b.1 ≤ v ∧ v ≤ b.2 := by
  obtain ⟨theta, h⟩ := C48_partial_tuning_returns_partial (exEnv fun t => .fin (t.length : ℚ)) exRng_uniform 3 5 100
    [1, 2, 3] [(1 / 100, 10), (1, 2), (1, 4)] rfl (Or.inr rfl) (by norm_num) [0, 2] (by decide) (by decide)
    (by norm_num)
  exact ⟨theta, h, C48_inactive_unchanged _ _ _ _ _ _ _ _ h,
    C48_active_within_bounds_partial _ clampOpt_isMinimizer (fun l => rfl) clampOpt_neverFails
      (fun t => cost_fin_lt _) 3 5 100 _ _ (by norm_num) _ (.inl (by decide)) theta h⟩

/-- Case of `C48_full_within_bounds_partial` and `C89_full_tuning_not_worse_partial`: scalar initial value and
bounds. -/
example : ∃ theta, fitTheta (exEnv fun t => .fin (t.length : ℚ)) 3 5 100 ThetaTuning.dflt = .ok theta ∧
    theta.length = 3 := by
  have hb : ∀ b ∈ [defaultBounds], 0 < b.1 ∧ b.1 < b.2 := by norm_num [defaultBounds]
  obtain ⟨theta, h⟩ := C48_full_returns (exEnv fun t => .fin (t.length : ℚ)) exRng_uniform 3 5 100
    [defaultInit] [defaultBounds] (Or.inl rfl) (Or.inl rfl) hb (by norm_num)
  exact ⟨theta, h, (C48_full_within_bounds_partial _ clampOpt_isMinimizer (fun l => rfl) clampOpt_neverFails
      (fun t => cost_fin_lt _) 3 5 100 _ _ (fun b hb' => ⟨(hb b hb').1, (hb b hb').2.le⟩)
      theta h).1⟩

/-! ## C87 -/

/-- C87. After setting the maximum number of evaluations, one optimization is allowed at least 25 evaluations, at
most the given number (or 25), and at most ten evaluations per active component beyond the minimum; there is no
panic. -/
theorem C87_limit (p : Params) (v ncols : ℕ) :
    ∃ n, evalLimit ncols (p.setMaxEval v).maxEval = .ok n ∧ 25 ≤ n ∧ n ≤ max 25 v ∧ n ≤ max 25 (10 * ncols) := by
  refine ⟨_, if_pos (le_max_left _ _), ?_, ?_, ?_⟩ <;> simp only [Params.setMaxEval, minEval] <;> omega

/-- C87 fails for values below the minimum: the documentation says that the default maximum (1000) is used then,
the setter keeps the minimum, so that a large problem gets 25 evaluations. -/
theorem C87_refuted_small_values (p : Params) (v : ℕ) (hv : v < 25) (ncols : ℕ) :
    (p.setMaxEval v).maxEval = 25 ∧ (p.setMaxEval v).maxEval ≠ maxEvalDefault ∧
      evalLimit ncols (p.setMaxEval v).maxEval = .ok 25 := by
  have h : (p.setMaxEval v).maxEval = 25 := by simp only [Params.setMaxEval, minEval]; omega
  refine ⟨h, by rw [h]; decide, ?_⟩
  rw [h]
  simp only [evalLimit, minEval, le_refl, if_true]
  congr 1; omega

/-- C87. Values from the minimum on are kept. -/
theorem C87_kept_partial (p : Params) (v : ℕ) (hv : 25 ≤ v) : (p.setMaxEval v).maxEval = v := by
  simp only [Params.setMaxEval, minEval]; omega

/-! ## C88 -/

theorem specialBounds_factors (c1 c2 c3 : Bool) :
    widen c3 influenceM32 (widen c3 influenceM32 (widen c2 influenceAbs (widen c1 influenceSe defaultBounds))) =
      defaultBounds := by
  cases c1 <;> cases c2 <;> cases c3 <;>
    norm_num [widen, influenceSe, influenceAbs, influenceM32, defaultBounds]

/-- C88 fails: the bounds computed by the optimizer do not depend on the kernels, because the default bounds
contain all the influence factors they are combined with. -/
theorem C88_refuted_kernel_dependence (dim : ℕ) (spec spec' : CorrSpec) :
    specialBounds dim spec = specialBounds dim spec' := by
  simp only [specialBounds, specialBounds_factors]

theorem special_interval (dim : ℕ) (h : 10 ≤ dim) :
    0 < 196 / 100 * √(2 * (9 / 5 + 1) * (dim : ℝ)) ∧ 196 / 100 * √(2 * (9 / 5 + 1) * (dim : ℝ)) < 2 * dim := by
  have hd : (10 : ℝ) ≤ dim := by exact_mod_cast h
  have hs : 0 < √(2 * (9 / 5 + 1) * (dim : ℝ)) := Real.sqrt_pos.2 (by linarith)
  refine ⟨by positivity, ?_⟩
  have : √(2 * (9 / 5 + 1) * (dim : ℝ)) < 2 * dim / (196 / 100) := by
    rw [Real.sqrt_lt' (by positivity)]
    nlinarith
  rw [lt_div_iff₀ (by norm_num)] at this
  linarith

/-- C88. The computed bounds are a non empty range of positive numbers for every dimension and choice of
kernels. -/
theorem C88_special_bounds_valid (dim : ℕ) (spec : CorrSpec) :
    0 < (specialBounds dim spec).1 ∧ (specialBounds dim spec).1 < (specialBounds dim spec).2 := by
  simp only [specialBounds, specialBounds_factors]
  split_ifs with h
  · norm_num [defaultBounds]
  · have hd : 10 ≤ dim := by omega
    obtain ⟨h1, h2⟩ := special_interval dim hd
    set I := 196 / 100 * √(2 * (9 / 5 + 1) * (dim : ℝ)) with hI
    have hd' : (10 : ℝ) ≤ dim := by exact_mod_cast hd
    have hmin : 0 < √(2 * (dim : ℝ) - I) := Real.sqrt_pos.2 (by linarith)
    have hmm : √(2 * (dim : ℝ) - I) < √(2 * (dim : ℝ) + I) := Real.sqrt_lt_sqrt (by linarith) (by linarith)
    have hs : 0 < 1 / √(12 : ℝ) := by positivity
    have hmax := hmin.trans hmm
    simp only [defaultBounds]
    refine ⟨by positivity, ?_⟩
    apply one_div_lt_one_div_of_lt (by positivity)
    apply mul_lt_mul' ?_ (by norm_num) (by norm_num) (by positivity)
    exact (mul_lt_mul_of_pos_left hmm hs).le

/-- C88. In dimension below ten the default bounds are used. -/
theorem C88_low_dimension (dim : ℕ) (h : dim < 10) (spec : CorrSpec) :
    specialBounds dim spec = (1 / 100, 10) := by
  simp only [specialBounds, if_pos h, defaultBounds]

/-- C88, part. Bounds given by the user are used as they are, unless they are one pair equal to the default
bounds. Missing: that pair is replaced from dimension ten on (`C88_refuted_explicit_default`). -/
theorem C88_user_bounds_partial (tuning : ThetaTuning) (bounds : List (ℝ × ℝ)) (h : tuning.bounds = some bounds)
    (hne : bounds ≠ [(1 / 100, 10)]) (dim : ℕ) (spec : CorrSpec) : egorBounds tuning dim spec = bounds := by
  unfold egorBounds
  rw [h]
  match bounds, hne with
  | [b], hne =>
    have : b ≠ defaultBounds := fun hc => hne (by rw [hc]; rfl)
    simp [this]
  | [], _ => rfl
  | _ :: _ :: _, _ => rfl

/-- C88 fails: bounds equal to the default ones cannot be asked for from dimension ten on. -/
theorem C88_refuted_explicit_default (init : List ℝ) (dim : ℕ) (h : 10 ≤ dim) (spec : CorrSpec) :
    egorBounds (.full init [(1 / 100, 10)]) dim spec ≠ [(1 / 100, 10)] := by
  have hu : egorBounds (.full init [(1 / 100, 10)]) dim spec = [specialBounds dim spec] := by
    simp [egorBounds, ThetaTuning.bounds, defaultBounds]
  rw [hu]
  intro hc
  simp only [List.cons.injEq, and_true] at hc
  have h2 := congrArg Prod.snd hc
  have h1 := congrArg Prod.fst hc
  simp only [specialBounds, specialBounds_factors, if_neg (show ¬ dim < 10 by omega)] at h1 h2
  simp only [defaultBounds] at h1 h2
  obtain ⟨i1, i2⟩ := special_interval dim h
  set I := 196 / 100 * √(2 * (9 / 5 + 1) * (dim : ℝ)) with hI
  have hd' : (10 : ℝ) ≤ dim := by exact_mod_cast h
  have hmin : 0 < √(2 * (dim : ℝ) - I) := Real.sqrt_pos.2 (by linarith)
  have hmm : √(2 * (dim : ℝ) - I) < √(2 * (dim : ℝ) + I) := Real.sqrt_lt_sqrt (by linarith) (by linarith)
  have hs : 0 < 1 / √(12 : ℝ) := by positivity
  have hmax := hmin.trans hmm
  -- `s rmax = 10` and `s rmin = 10`
  have e1 : 1 / √(12 : ℝ) * √(2 * (dim : ℝ) + I) = 10 := by
    rw [div_eq_div_iff (by positivity) (by norm_num)] at h1; linarith
  have e2 : 1 / √(12 : ℝ) * √(2 * (dim : ℝ) - I) = 10 := by
    rw [div_eq_iff (by positivity)] at h2; linarith
  have := mul_lt_mul_of_pos_left hmm hs
  rw [e1, e2] at this
  exact lt_irrefl _ this

/-- C88 fails for a fixed tuning: when the surrogates are built with clustering (at the start of the optimization),
or when the hyperparameters are to be optimized, the tuning given to the experts is not fixed. -/
theorem C88_refuted_fixed_not_fixed (theta : List ℝ) (dim : ℕ) (spec : CorrSpec) (opt coego : Bool)
    (active : List ℕ) (init : List ℝ) :
    egorTuning (.fixed theta) dim spec true opt coego active init =
      .part init [specialBounds dim spec] (active.filter (· < init.length)) ∧
    egorTuning (.fixed theta) dim spec false true false active init = .full init [specialBounds dim spec] := by
  simp [egorTuning, egorBounds, ThetaTuning.bounds, Coego.strip]

/-- C88 fails with an automatic number of clusters: the tuning given by the user is not used by the surrogates
built with clustering. -/
theorem C88_refuted_auto_ignores_tuning (user : ThetaTuning) (dim : ℕ) (spec : CorrSpec) (opt coego : Bool)
    (active : List ℕ) (init : List ℝ) :
    egorTuningAny true user dim spec true opt coego active init = .full [1 / 10] [(1 / 100, 10)] := rfl

/-- C88. With an automatic number of clusters, surrogates built without clustering are tuned as with a given number:
fixed hyperparameters when they are not to be optimized, otherwise all components with the bounds given by the user. -/
theorem C88_automatic (user : ThetaTuning) (bounds : List (ℝ × ℝ)) (h : user.bounds = some bounds)
    (hne : bounds ≠ [(1 / 100, 10)]) (dim : ℕ) (spec : CorrSpec) (auto coego : Bool) (active : List ℕ)
    (init : List ℝ) :
    egorTuningAny auto user dim spec false false coego active init = .fixed init ∧
    egorTuningAny auto user dim spec false true false active init = .full init bounds := by
  simp [egorTuningAny, egorTuning, C88_user_bounds_partial user bounds h hne]

/-- C88. Without cooperation the first surrogate is tuned on all components from the initial value given by the
user, a scalar being broadcast. -/
theorem C88_first_tuning (user : ThetaTuning) (dim : ℕ) (spec : CorrSpec) (opt : Bool) (init : List ℝ)
    (h : egorInit user dim = .ok init) :
    egorTuning user dim spec true opt false (List.range dim) init =
      .part init (egorBounds user dim spec) (List.range dim) ∧
    ∀ i < dim, init[i]? = Spec.perComponent user.init i := by
  have hl := assignRow_length h
  constructor
  · simp only [egorTuning, if_true, Coego.strip, hl]
    congr 1
    rw [List.filter_eq_self]
    intro i hi
    simpa using hi
  · unfold egorInit assignRow at h
    intro i hi
    split_ifs at h with h1
    · simp only [Except.ok.injEq] at h
      subst h
      unfold Spec.perComponent
      split_ifs with h2
      · congr 1; omega
      · rfl
    · split at h
      · rename_i v hv
        simp only [Except.ok.injEq] at h
        subst h
        simp [hv, Spec.perComponent, hi]
      · simp at h

/-- C88. Cooperation keeps the initial value and the bounds, and restricts the active components to those of the
group that exist. -/
theorem C88_cooperation (active : List ℕ) (init : List ℝ) (bounds : List (ℝ × ℝ)) :
    partialTuning active (.full init bounds) = .part init bounds (active.filter (· < init.length)) := rfl

/-- Case of `C88_user_bounds_partial` and `C88_first_tuning`. -/
example (spec : CorrSpec) : egorBounds (.full [1] [(1, 2), (3, 4)]) 2 spec = [(1, 2), (3, 4)] ∧
    egorInit (.full [1] [(1, 2), (3, 4)]) 2 = .ok [1, 1] :=
  ⟨C88_user_bounds_partial _ _ rfl (by simp) 2 spec, by simp [egorInit, assignRow, ThetaTuning.init, List.replicate]⟩

end Verif.Props
