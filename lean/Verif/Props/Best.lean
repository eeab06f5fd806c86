import Verif.Lemmas.Best

/-!
# C11, C12, C14: best result selection
-/

set_option autoImplicit false

namespace Verif.Props

open Verif Spec FindResult

/-- Evaluated data: `y` has one objective column then output constraints, `c` the function constraints;
there is one (finite) tolerance per constraint and every row is comparable. -/
structure EvalData (tol : List ℚ) (y c : Mat Flt) : Prop where
  rows_eq : y.rows.length = c.rows.length
  y_wf : y.WF
  c_wf : c.WF
  obj : 1 ≤ y.ncols
  tols : y.ncols + c.ncols = tol.length + 1
  valid : ∀ r ∈ List.zipWith (· ++ ·) y.rows c.rows, Valid tol.length r

/-- **C11**. The index returned by `find_best_result_index` is the first index minimizing the rank
(feasible first, by objective; then by sum of violations); the search never panics. -/
theorem C11_best_is_lexicographic_optimum (tol : List ℚ) (y c : Mat Flt) (h : EvalData tol y c)
    (hne : y.rows ≠ []) :
    ∃ i, findBest y c (tol.map .fin) = .ok i ∧
      IsFirstMin ((List.zipWith (· ++ ·) y.rows c.rows).map (rank tol)) i := by
  have hrows : List.zipWith (· ++ ·) y.rows c.rows ≠ [] := by
    have h1 := h.rows_eq
    intro hz
    have := congrArg List.length hz
    simp only [List.length_zipWith, List.length_nil] at this
    have : y.rows.length = 0 := by omega
    exact hne (List.eq_nil_of_length_eq_zero this)
  by_cases hcstr : y.ncols > 1 ∨ c.ncols > 0
  · obtain ⟨mi, p, h1, h2, h3⟩ := findBest_constrained tol _ hrows h.valid
    refine ⟨_, ?_, h3⟩
    unfold findBest
    rw [if_pos hcstr, hcat_eq h.rows_eq]
    simp only [bind, Except.bind, allRows]
    rw [h1]
    simp only [h2]
    split_ifs <;> rfl
  · have hy : y.ncols = 1 := by have := h.obj; omega
    have hc : c.ncols = 0 := by omega
    have ht : tol = [] := by
      have := h.tols
      rw [hy, hc] at this
      exact List.eq_nil_of_length_eq_zero (by omega)
    subst ht
    have hzip : List.zipWith (· ++ ·) y.rows c.rows = y.rows := by
      have hcr : ∀ r ∈ c.rows, r = [] := fun r hr =>
        List.eq_nil_of_length_eq_zero (by rw [h.c_wf r hr, hc])
      apply List.ext_getElem
      · simp [h.rows_eq]
      · intro i h1 h2
        simp only [List.getElem_zipWith]
        rw [hcr _ (List.getElem_mem _), List.append_nil]
    have hv := h.valid
    rw [hzip] at hv ⊢
    obtain ⟨k, hk, hmin⟩ := argmin_spec (y.rows.map fun r => r.headD .nan) (by simpa using hne) (by
      intro e he
      obtain ⟨r, hr, rfl⟩ := List.mem_map.1 he
      obtain ⟨o, cs, rfl, _, ho, _⟩ := hv r hr
      simpa using ho)
    refine ⟨k, ?_, ?_⟩
    · unfold findBest
      rw [if_neg hcstr, if_neg (by omega), hk]
    · have hr : ∀ r ∈ y.rows, rank [] r = toLex (0, toE (r.headD .nan)) := by
        intro r hr
        obtain ⟨o, cs, rfl, hl, _⟩ := hv r hr
        have : cs = [] := by simpa using hl
        subst this
        have : Feasible [] [] := List.Forall₂.nil
        simp [rank, this]
      obtain ⟨g1, g2, g3⟩ := hmin
      have g1' : k < y.rows.length := by simpa using g1
      refine ⟨by simpa using g1', ?_, ?_⟩
      · intro x hx
        obtain ⟨r, hr', rfl⟩ := List.mem_map.1 hx
        simp only [List.getElem_map]
        rw [hr _ (List.getElem_mem _), hr _ hr', Prod.Lex.toLex_le_toLex]
        right
        refine ⟨rfl, ?_⟩
        have := g2 (toE (r.headD .nan)) (by simp; exact ⟨r, hr', rfl⟩)
        simpa using this
      · intro j hj
        have := g3 j hj
        simp only [List.getElem_map] at this ⊢
        rw [hr _ (List.getElem_mem _), hr _ (List.getElem_mem _), Prod.Lex.toLex_lt_toLex]
        exact Or.inr ⟨rfl, this⟩

/-- Three evaluations, one output constraint, one function constraint, the middle one best. -/
example : EvalData [1/10, 0]
    ⟨2, [[.fin 1, .fin 5], [.fin 3, .fin (1/20)], [.fin 4, .ninf]]⟩
    ⟨1, [[.fin 0], [.fin (-1)], [.fin 0]]⟩ := by
  refine ⟨rfl, ?_, ?_, by decide, rfl, ?_⟩
  · intro r hr; simp at hr; rcases hr with rfl | rfl | rfl <;> rfl
  · intro r hr; simp at hr; rcases hr with rfl | rfl | rfl <;> rfl
  · intro r hr
    simp only [List.zipWith, List.mem_cons, List.not_mem_nil, or_false] at hr
    rcases hr with rfl | rfl | rfl <;> exact ⟨_, _, rfl, rfl, by simp, by simp, by simp⟩

example : findBest ⟨2, [[.fin 1, .fin 5], [.fin 3, .fin (1/20)], [.fin 4, .ninf]]⟩
    ⟨1, [[.fin 0], [.fin (-1)], [.fin 0]]⟩ ([1/10, 0].map .fin) = .ok 1 := by decide +kernel

/-- **C11** (feasibility). `is_feasible` decides whether every constraint is below its tolerance. -/
theorem C11_is_feasible_iff (tol : List ℚ) (y c : List Flt) (h : Valid tol.length (y ++ c)) :
    ∃ b, isFeasible y c (tol.map .fin) = .ok b ∧ (b = true ↔ Feasible tol (y ++ c).tail) := by
  obtain ⟨o, cs, hoc, hl, _, _, hn⟩ := h
  unfold isFeasible
  simp only [hoc, List.tail_cons]
  by_cases hlen : (o :: cs).length > 1
  · rw [if_pos hlen]
    simp only [cstrSum]
    rw [cstrSumLoop_eq _ _ _ (by simp [hl])]
    simp only [bind, Except.bind]
    exact ⟨_, rfl, (csum_facts tol cs hl hn).2.2.1⟩
  · rw [if_neg hlen]
    refine ⟨true, rfl, ?_⟩
    have : cs = [] := by
      cases cs with
      | nil => rfl
      | cons => simp at hlen
    subst this
    have : tol = [] := List.eq_nil_of_length_eq_zero (by simpa using hl.symm)
    subst this
    simp [Feasible]

/-- Concatenation of rows (`concatenate![Axis(0), a, b]`). -/
def vcat (a b : Mat Flt) : Mat Flt := ⟨a.ncols, a.rows ++ b.rows⟩

/-- Best index maintained along a history of batches, as `ego_step` and `trego_step` do. -/
def incremental (tol : List Flt) (i : ℕ) (y c : Mat Flt) :
    List (Mat Flt × Mat Flt) → Except Panic ℕ
  | [] => .ok i
  | b :: bs => do
    let i' ← findBestFrom i y.rows.length (vcat y b.1) (vcat c b.2) tol
    incremental tol i' (vcat y b.1) (vcat c b.2) bs

/-- One incremental update from the first minimum of the old rows gives the first minimum of all rows. -/
theorem findBestFrom_firstMin (tol : List ℚ) (y c yb cb : Mat Flt) (i : ℕ)
    (hl : y.rows.length = c.rows.length) (hlb : yb.rows.length = cb.rows.length)
    (hv : ∀ r ∈ List.zipWith (· ++ ·) (vcat y yb).rows (vcat c cb).rows, Valid tol.length r)
    (hi : IsFirstMin ((List.zipWith (· ++ ·) y.rows c.rows).map (rank tol)) i) :
    ∃ i', findBestFrom i y.rows.length (vcat y yb) (vcat c cb) (tol.map .fin) = .ok i' ∧
      IsFirstMin ((List.zipWith (· ++ ·) (vcat y yb).rows (vcat c cb).rows).map (rank tol)) i' := by
  set R := List.zipWith (· ++ ·) y.rows c.rows with hR
  set B := List.zipWith (· ++ ·) yb.rows cb.rows with hB
  have hall : List.zipWith (· ++ ·) (vcat y yb).rows (vcat c cb).rows = R ++ B := by
    simp only [vcat, hR, hB]
    rw [List.zipWith_append hl]
  rw [hall] at hv ⊢
  have hRlen : R.length = y.rows.length := by simp [hR, hl]
  obtain ⟨hlt, hmin, hfirst⟩ := hi
  have hlt' : i < R.length := by simpa using hlt
  have hdrop : (R ++ B).drop y.rows.length = B := by rw [← hRlen]; simp
  have hcur : (R ++ B)[i]? = some R[i] := by
    rw [List.getElem?_append_left hlt']; simp [hlt']
  have hmem : R[i] ∈ R ++ B := List.mem_append_left _ (List.getElem_mem hlt')
  obtain ⟨m, hm, hcase⟩ := minFold_spec tol B (none, R[i]) 0 (hv _ hmem)
    (fun r hr => hv r (List.mem_append_right _ hr))
  have hlen2 : (vcat y yb).rows.length = (vcat c cb).rows.length := by simp [vcat, hl, hlb]
  have hrun : findBestFrom i y.rows.length (vcat y yb) (vcat c cb) (tol.map .fin)
      = match m.1 with
        | none => .ok i
        | some k => .ok (y.rows.length + k) := by
    unfold findBestFrom
    rw [hcat_eq hlen2]
    simp only [bind, Except.bind, allRows, hall, hdrop, hcur, hm]
    rw [if_neg (by simp [hRlen])]
    cases m.1 <;> rfl
  rw [hrun]
  rcases hcase with ⟨rfl, hge⟩ | ⟨j, hj, rfl, hlt2, hle, hfst⟩
  · refine ⟨i, rfl, by simp; omega, ?_, ?_⟩
    · intro x hx
      obtain ⟨r, hr, rfl⟩ := List.mem_map.1 hx
      simp only [List.map_append, List.getElem_append_left hlt, List.getElem_map]
      rcases List.mem_append.1 hr with hr | hr
      · simpa using hmin (rank tol r) (List.mem_map.2 ⟨r, hr, rfl⟩)
      · exact hge r hr
    · intro k hk
      simp only [List.map_append]
      rw [List.getElem_append_left hlt, List.getElem_append_left (by omega)]
      exact hfirst k hk
  · refine ⟨y.rows.length + j, by simp, by simp [hRlen]; omega, ?_, ?_⟩
    · intro x hx
      obtain ⟨r, hr, rfl⟩ := List.mem_map.1 hx
      simp only [List.getElem_map]
      rw [List.getElem_append_right (by omega)]
      simp only [← hRlen, Nat.add_sub_cancel_left]
      rcases List.mem_append.1 hr with hr | hr
      · refine le_trans hlt2.le ?_
        simpa using hmin (rank tol r) (List.mem_map.2 ⟨r, hr, rfl⟩)
      · exact hle r hr
    · intro k hk
      simp only [List.getElem_map]
      rw [List.getElem_append_right (by omega)]
      simp only [← hRlen, Nat.add_sub_cancel_left]
      by_cases hkR : k < R.length
      · rw [List.getElem_append_left hkR]
        refine lt_of_lt_of_le hlt2 ?_
        simpa using hmin (rank tol R[k]) (List.mem_map.2 ⟨_, List.getElem_mem hkR, rfl⟩)
      · rw [List.getElem_append_right (by omega)]
        exact hfst (k - R.length) (by omega)

/-- All the data accumulated along a history. -/
def accumulate (y c : Mat Flt) : List (Mat Flt × Mat Flt) → Mat Flt × Mat Flt
  | [] => (y, c)
  | b :: bs => accumulate (vcat y b.1) (vcat c b.2) bs

theorem accumulate_rows (y c : Mat Flt) (bs : List (Mat Flt × Mat Flt)) :
    (accumulate y c bs).1 = ⟨y.ncols, y.rows ++ (bs.map (·.1.rows)).flatten⟩ ∧
    (accumulate y c bs).2 = ⟨c.ncols, c.rows ++ (bs.map (·.2.rows)).flatten⟩ := by
  induction bs generalizing y c with
  | nil => simp [accumulate]
  | cons b bs ih => simp [accumulate, ih, vcat]

/-- **C12**. Along any history of batches, the best index maintained incrementally from the best index
of the initial data is the index found by searching all the data at once. -/
theorem C12_incremental_eq_batch (tol : List ℚ) (y c : Mat Flt) (bs : List (Mat Flt × Mat Flt))
    (hne : y.rows ≠ []) (hyc : y.rows.length = c.rows.length)
    (hb : ∀ b ∈ bs, b.1.rows.length = b.2.rows.length)
    (h : EvalData tol ⟨y.ncols, y.rows ++ (bs.map (·.1.rows)).flatten⟩
      ⟨c.ncols, c.rows ++ (bs.map (·.2.rows)).flatten⟩) :
    ∃ i, findBest ⟨y.ncols, y.rows ++ (bs.map (·.1.rows)).flatten⟩
          ⟨c.ncols, c.rows ++ (bs.map (·.2.rows)).flatten⟩ (tol.map .fin) = .ok i ∧
      (findBest y c (tol.map .fin) >>= fun i0 => incremental (tol.map .fin) i0 y c bs) = .ok i := by
  -- valid initial data
  have hval0 : ∀ r ∈ List.zipWith (· ++ ·) y.rows c.rows, Valid tol.length r := by
    intro r hr
    apply h.valid
    simp only
    rw [List.zipWith_append hyc]
    exact List.mem_append_left _ hr
  have h0 : EvalData tol y c :=
    ⟨hyc, fun r hr => h.y_wf r (List.mem_append_left _ hr),
      fun r hr => h.c_wf r (List.mem_append_left _ hr), h.obj, h.tols, hval0⟩
  obtain ⟨i0, hi0, hfm0⟩ := C11_best_is_lexicographic_optimum tol y c h0 hne
  obtain ⟨iA, hiA, hfmA⟩ := C11_best_is_lexicographic_optimum tol _ _ h (by simp [hne])
  refine ⟨iA, hiA, ?_⟩
  rw [hi0]
  simp only [bind, Except.bind]
  -- generalize the history
  have key : ∀ (bs : List (Mat Flt × Mat Flt)) (y c : Mat Flt) (i0 : ℕ),
      y.rows.length = c.rows.length →
      (∀ b ∈ bs, b.1.rows.length = b.2.rows.length) →
      (∀ r ∈ List.zipWith (· ++ ·) (y.rows ++ (bs.map (·.1.rows)).flatten)
        (c.rows ++ (bs.map (·.2.rows)).flatten), Valid tol.length r) →
      IsFirstMin ((List.zipWith (· ++ ·) y.rows c.rows).map (rank tol)) i0 →
      ∃ i, incremental (tol.map .fin) i0 y c bs = .ok i ∧
        IsFirstMin ((List.zipWith (· ++ ·) (y.rows ++ (bs.map (·.1.rows)).flatten)
          (c.rows ++ (bs.map (·.2.rows)).flatten)).map (rank tol)) i := by
    intro bs
    induction bs with
    | nil => intro y c i0 _ _ _ hi; exact ⟨i0, rfl, by simpa using hi⟩
    | cons b bs ih =>
      intro y c i0 hl hb hv hi
      have hlb := hb b (by simp)
      have hl2 : (vcat y b.1).rows.length = (vcat c b.2).rows.length := by simp [vcat, hl, hlb]
      obtain ⟨i1, h1, h1m⟩ := findBestFrom_firstMin tol y c b.1 b.2 i0 hl hlb (by
        intro r hr
        apply hv
        simp only [List.map_cons, List.flatten_cons, ← List.append_assoc]
        rw [List.zipWith_append (by simpa [vcat] using hl2)]
        exact List.mem_append_left _ (by simpa [vcat] using hr)) hi
      obtain ⟨i2, h2, h2m⟩ := ih (vcat y b.1) (vcat c b.2) i1 hl2
        (fun x hx => hb x (by simp [hx]))
        (by simpa [vcat] using hv) h1m
      refine ⟨i2, ?_, by simpa [vcat] using h2m⟩
      simp only [incremental, h1, bind, Except.bind, h2]
  obtain ⟨i, hi, hm⟩ := key bs y c i0 hyc hb h.valid hfm0
  rw [hi, IsFirstMin.unique hm hfmA]

/-- A history with two batches, the last one empty, the best point coming from the first batch. -/
example : (findBest ⟨2, [[.fin 1, .fin 5]]⟩ ⟨0, [[]]⟩ ([0].map .fin) >>= fun i0 =>
      incremental ([0].map .fin) i0 ⟨2, [[.fin 1, .fin 5]]⟩ ⟨0, [[]]⟩
        [(⟨2, [[.fin 2, .fin 0], [.fin 2, .fin (-1)]]⟩, ⟨0, [[], []]⟩), (⟨2, []⟩, ⟨0, []⟩)])
      = .ok 1 := by decide +kernel

/-! ## C14: NaN -/

/-- **C14** (partial: batch search, NaN objectives). With constraints, if some evaluation is feasible with
an objective below `+inf`, the selected evaluation is feasible and its objective is not NaN, whatever
the number of NaN objectives. Constraint values must not be NaN (see the counterexample below). -/
theorem C14_nan_objective_never_best_partial (tol : List ℚ) (y c : Mat Flt)
    (hcstr : y.ncols > 1 ∨ c.ncols > 0)
    (hrows : y.rows.length = c.rows.length)
    (hlen : ∀ r ∈ List.zipWith (· ++ ·) y.rows c.rows, ∃ o cs, r = o :: cs ∧
      cs.length = tol.length ∧ ∀ x ∈ cs, x ≠ .nan)
    (hgood : ∃ r ∈ List.zipWith (· ++ ·) y.rows c.rows, Feasible tol r.tail ∧
      r.headD .nan ≠ .nan ∧ r.headD .nan ≠ .pinf) :
    ∃ i r, findBest y c (tol.map .fin) = .ok i ∧
      (List.zipWith (· ++ ·) y.rows c.rows)[i]? = some r ∧
      Feasible tol r.tail ∧ r.headD .nan ≠ .nan := by
  set rows := List.zipWith (· ++ ·) y.rows c.rows with hR
  set f := fun r : List Flt => (csumZip .zero (r.drop 1) (tol.map .fin), r.headD .nan) with hf
  have facts : ∀ r ∈ rows, (f r).1 ≠ .nan ∧ toE (f r).1 = violation tol r.tail ∧
      (Flt.feq (f r).1 .zero = true ↔ Feasible tol r.tail) ∧
      (Flt.gt (f r).1 .zero = true ↔ ¬ Feasible tol r.tail) := by
    intro r hr
    obtain ⟨o, cs, rfl, hl, hn⟩ := hlen r hr
    exact csum_facts tol cs hl hn
  obtain ⟨g, hg, hgF, hgn, hgp⟩ := hgood
  have hne : rows ≠ [] := List.ne_nil_of_mem hg
  obtain ⟨mi, hmi, hmin, hall, _⟩ := argmin_spec ((rows.map f).map Prod.fst) (by simpa using hne)
    (by
      intro e he
      simp only [List.map_map, List.mem_map, Function.comp] at he
      obtain ⟨r, hr, rfl⟩ := he
      exact (facts r hr).1)
  have hlt : mi < rows.length := by simpa using hmin
  have hmem : rows[mi] ∈ rows := List.getElem_mem hlt
  have hlen' : ∀ r ∈ rows, r.tail.length = tol.length := by
    intro r hr
    obtain ⟨o, cs, rfl, hl, _⟩ := hlen r hr
    exact hl
  have hmF : Feasible tol rows[mi].tail := by
    have := hall (toE (f g).1) (by simp; exact ⟨g, hg, rfl⟩)
    simp only [List.getElem_map] at this
    rw [(facts _ hmem).2.1, (facts _ hg).2.1,
      (violation_eq_zero_iff _ _ (hlen' _ hg)).2 hgF] at this
    exact (violation_eq_zero_iff _ _ (hlen' _ hmem)).1 (le_antisymm this (violation_nonneg _ _))
  have hnot : ¬ Flt.gt (f rows[mi]).1 .zero = true := fun h => ((facts _ hmem).2.2.2.1 h) hmF
  have hrun : findBest y c (tol.map .fin) = .ok (scanFeasible .pinf 0 0 (rows.map f)) := by
    unfold findBest
    rw [if_pos hcstr, hcat_eq hrows]
    simp only [bind, Except.bind, allRows, ← hR]
    rw [show (List.map (fun r : List Flt =>
      (csumZip .zero (r.drop 1) (tol.map .fin), r.headD .nan)) rows) = rows.map f from rfl, hmi]
    simp only [List.getElem?_map, List.getElem?_eq_getElem hlt, Option.map_some]
    rw [if_neg hnot]
  rcases scanFeasible_spec (rows.map f) .pinf 0 0 (by simp) with ⟨_, h2⟩ | ⟨j, hj, h1, h2, _⟩
  · exfalso
    have := h2 (f g) (by simp; exact ⟨g, hg, rfl⟩) ⟨(facts _ hg).2.2.1.2 hgF, hgn⟩
    revert hgn hgp this
    simp only [hf]
    cases g.headD .nan <;> simp [toE]
  · have hj' : j < rows.length := by simpa using hj
    simp only [List.getElem_map] at h2
    refine ⟨j, rows[j], by rw [hrun, h1, zero_add], by simp [hj'], ?_, h2.2⟩
    exact (facts _ (List.getElem_mem hj')).2.2.1.1 h2.1

/-- **C14** (partial: incremental update). If no constraint value is NaN and the current best is feasible
with a comparable objective, an incremental update either panics or selects an evaluation whose
objective is not NaN. -/
theorem C14_incremental_never_selects_nan_partial (tol : List ℚ) (rs : List (List Flt)) (b : List Flt)
    (hb : ∃ o cs, b = o :: cs ∧ o ≠ .nan ∧ cs.length = tol.length ∧ (∀ x ∈ cs, x ≠ .nan) ∧
      Feasible tol cs)
    (hrs : ∀ r ∈ rs, ∃ o cs, r = o :: cs ∧ cs.length = tol.length ∧ ∀ x ∈ cs, x ≠ .nan)
    (k : Option ℕ) (i : ℕ) (m : Option ℕ × List Flt)
    (hm : minFold (tol.map .fin) (k, b) i rs = .ok m) :
    m.2.headD .nan ≠ .nan ∧ Feasible tol m.2.tail := by
  induction rs generalizing b k i with
  | nil =>
    obtain ⟨o, cs, rfl, h1, _, _, h2⟩ := hb
    simp only [minFold, Except.ok.injEq] at hm
    subst hm
    exact ⟨h1, h2⟩
  | cons r rs ih =>
    have hrs' : ∀ r ∈ rs, ∃ o cs, r = o :: cs ∧ cs.length = tol.length ∧ ∀ x ∈ cs, x ≠ .nan :=
      fun x hx => hrs x (by simp [hx])
    have hb' := hb
    obtain ⟨o1, c1, rfl, h1, l1, n1, f1⟩ := hb
    obtain ⟨o2, c2, rfl, l2, n2⟩ := hrs r (by simp)
    by_cases h2 : o2 = .nan
    · -- NaN objective: either the row is infeasible (never selected) or the comparison panics
      subst h2
      by_cases f2 : Feasible tol c2
      · exfalso
        have herr : cstrMin (o1 :: c1) (Flt.nan :: c2) (tol.map .fin) = .error .undefinedOrder := by
          have hobj : objCmp (o1 :: c1) (Flt.nan :: c2) = .error .undefinedOrder := by
            cases o1 <;> simp [objCmp, Flt.cmp]
          unfold cstrMin
          by_cases hlen : (o1 :: c1).length > 1
          · rw [if_pos hlen]
            simp only [cstrSum]
            rw [cstrSumLoop_eq _ _ _ (by simp [l1]), cstrSumLoop_eq _ _ _ (by simp [l2])]
            simp only [bind, Except.bind]
            have g1 : Flt.gt (csumZip .zero c1 (tol.map .fin)) .zero = false := by
              rw [Bool.eq_false_iff]; intro h; exact ((csum_facts tol c1 l1 n1).2.2.2.1 h) f1
            rw [g1, (csum_facts tol c1 l1 n1).2.2.1.2 f1, (csum_facts tol c2 l2 n2).2.2.1.2 f2]
            simpa using hobj
          · rw [if_neg hlen]; exact hobj
        simp [minFold, herr, bind, Except.bind] at hm
      · have hlt : cstrMin (o1 :: c1) (Flt.nan :: c2) (tol.map .fin) = .ok .lt := by
          have hlen : (o1 :: c1).length > 1 := by
            cases c1 with
            | nil =>
              exfalso
              have ht : tol = [] := List.eq_nil_of_length_eq_zero (by simpa using l1.symm)
              subst ht
              have hc2 : c2 = [] := List.eq_nil_of_length_eq_zero (by simpa using l2)
              subst hc2
              exact f2 List.Forall₂.nil
            | cons => simp
          unfold cstrMin
          rw [if_pos hlen]
          simp only [cstrSum]
          rw [cstrSumLoop_eq _ _ _ (by simp [l1]), cstrSumLoop_eq _ _ _ (by simp [l2])]
          simp only [bind, Except.bind]
          have g1 : Flt.gt (csumZip .zero c1 (tol.map .fin)) .zero = false := by
            rw [Bool.eq_false_iff]; intro h; exact ((csum_facts tol c1 l1 n1).2.2.2.1 h) f1
          have g2 : Flt.feq (csumZip .zero c2 (tol.map .fin)) .zero = false := by
            rw [Bool.eq_false_iff]; intro h; exact f2 ((csum_facts tol c2 l2 n2).2.2.1.1 h)
          rw [g1, g2, (csum_facts tol c1 l1 n1).2.2.1.2 f1]
          simp
        simp only [minFold, hlt, bind, Except.bind] at hm
        exact ih _ hb' hrs' _ _ hm
    · obtain ⟨o, ho, hog⟩ := cstrMin_spec tol h1 h2 l1 l2 n1 n2
      simp only [minFold, ho, bind, Except.bind] at hm
      by_cases hgt : o = .gt
      · subst hgt
        have hlt := hog.1 rfl
        have f2 : Feasible tol c2 := by
          by_contra f2
          simp only [rank, List.tail_cons, f1, f2, if_true, if_false,
            Prod.Lex.toLex_lt_toLex] at hlt
          simp at hlt
        exact ih _ ⟨o2, c2, rfl, h2, l2, n2, f2⟩ hrs' _ _ hm
      · have : minFold (tol.map .fin) (k, o1 :: c1) (i + 1) rs = .ok m := by
          cases o <;> simp_all
        exact ih _ hb' hrs' _ _ this

/-- **C14 counterexample**: an evaluation whose constraint is NaN counts as feasible and is selected as the
best result although a valid feasible evaluation exists: the property fails for NaN constraints, both in
the batch search and in the incremental one, and `is_feasible` reports it feasible. -/
theorem C14_refuted_nan_constraint :
    findBest ⟨2, [[.fin 1, .fin (-1)], [.fin 0, .nan]]⟩ ⟨0, [[], []]⟩ ([0].map .fin) = .ok 1 ∧
    findBestFrom 0 1 ⟨2, [[.fin 1, .fin (-1)], [.fin 0, .nan]]⟩ ⟨0, [[], []]⟩ ([0].map .fin) = .ok 1 ∧
    isFeasible [.fin 0, .nan] [] ([0].map .fin) = .ok true := by
  decide +kernel

/-- **C11/C14 counterexample**: when the only feasible evaluation has an infinite objective, index 0 is
returned although that evaluation is infeasible; this is why `Valid` excludes `+inf` objectives. -/
theorem C14_refuted_infinite_objective :
    findBest ⟨2, [[.fin 1, .fin 5], [.pinf, .fin (-1)]]⟩ ⟨0, [[], []]⟩ ([0].map .fin) = .ok 0 ∧
    isFeasible [.fin 1, .fin 5] [] ([0].map .fin) = .ok false ∧
    isFeasible [.pinf, .fin (-1)] [] ([0].map .fin) = .ok true := by
  decide +kernel

/-- Without constraints a NaN objective makes the search panic instead of being selected. -/
theorem C14_unconstrained_nan_panics :
    findBest ⟨1, [[.fin 1], [.nan]]⟩ ⟨0, [[], []]⟩ [] = .error .undefinedOrder := by decide +kernel

/-- Sums of violations are never NaN, whatever the constraints and tolerances. -/
theorem csumZip_nonNeg (cs tol : List Flt) : ∀ acc, NonNeg acc → NonNeg (csumZip acc cs tol) := by
  induction cs generalizing tol with
  | nil => intro acc h; simpa [csumZip] using h
  | cons c cs ih =>
    intro acc h
    cases tol with
    | nil => simpa [csumZip] using h
    | cons t ts =>
      unfold csumZip
      split_ifs with hg
      · refine ih ts _ (add_nonNeg h ?_).1
        cases c <;> cases t <;> simp_all [Flt.gt, Flt.cmp, Flt.sub, Flt.neg, Flt.add, Flt.abs, NonNeg]
      · exact ih ts _ h

theorem scanFeasible_lt (ps : List (Flt × Flt)) (best : Flt) (bi i n : ℕ) (hb : bi < n)
    (hi : i + ps.length ≤ n) : scanFeasible best bi i ps < n := by
  induction ps generalizing best bi i with
  | nil => simpa [scanFeasible] using hb
  | cons p ps ih =>
    obtain ⟨s, o⟩ := p
    simp only [List.length_cons] at hi
    unfold scanFeasible
    split_ifs
    · exact ih _ _ _ (by omega) (by omega)
    · exact ih _ _ _ hb (by omega)

theorem argminLoop_nan (es : List Flt) (h : Flt.nan ∈ es) : ∀ cur ci i,
    argminLoop cur ci i es = .error .undefinedOrder := by
  induction es with
  | nil => simp at h
  | cons e es ih =>
    intro cur ci i
    unfold argminLoop
    rcases List.mem_cons.1 h with rfl | h
    · simp [Flt.cmp]
    · split
      · rfl
      · exact ih h _ _ _
      · exact ih h _ _ _

/-- **C11**. The search panics on non empty data exactly when there is no constraint and some objective is NaN:
with constraints, whatever the values (NaN included) and the tolerances, it gives the index of an evaluation. In
particular the branch of the code which sorts the evaluations is never used. -/
theorem C11_no_panic_iff (tol : List Flt) (y c : Mat Flt) (hl : y.rows.length = c.rows.length)
    (hobj : 1 ≤ y.ncols) (hne : y.rows ≠ []) :
    (∃ i < y.rows.length, findBest y c tol = .ok i) ↔
      (1 < y.ncols ∨ 0 < c.ncols ∨ ∀ r ∈ y.rows, r.headD .nan ≠ .nan) := by
  have hpos : 0 < y.rows.length := List.length_pos_iff.2 hne
  by_cases hcstr : y.ncols > 1 ∨ c.ncols > 0
  · have hR : (allRows y c).length = y.rows.length := by simp [allRows, hl]
    refine ⟨fun _ => by tauto, fun _ => ?_⟩
    unfold findBest
    rw [if_pos hcstr, hcat_eq hl]
    simp only [bind, Except.bind]
    set cobj := (allRows y c).map fun r => (csumZip .zero (r.drop 1) tol, r.headD .nan) with hco
    have hclen : cobj.length = y.rows.length := by simp [hco, hR]
    obtain ⟨k, hk, hmin⟩ := argmin_spec (cobj.map Prod.fst)
      (by intro h0; have := congrArg List.length h0; simp [hclen] at this; exact hne this)
      (by
        intro e he
        obtain ⟨p, hp, rfl⟩ := List.mem_map.1 he
        obtain ⟨r, hr, rfl⟩ := List.mem_map.1 hp
        exact (csumZip_nonNeg _ _ _ (by simp [Flt.zero, NonNeg])).ne_nan)
    have hk' : k < cobj.length := by
      have := hmin.1
      simpa using this
    rw [hk]
    simp only [List.getElem?_eq_getElem hk']
    split_ifs
    · exact ⟨k, by omega, rfl⟩
    · exact ⟨_, scanFeasible_lt cobj _ 0 0 _ hpos (by omega), rfl⟩
  · unfold findBest
    rw [if_neg hcstr, if_neg (by omega)]
    constructor
    · rintro ⟨i, _, h⟩
      refine Or.inr (Or.inr fun r hr hn => ?_)
      have hmem : Flt.nan ∈ y.rows.map fun r => r.headD .nan := List.mem_map.2 ⟨r, hr, hn⟩
      revert h hmem
      generalize (y.rows.map fun r => r.headD .nan) = l
      intro h hmem
      cases l with
      | nil => simp at hmem
      | cons e es => rw [argmin, argminLoop_nan _ hmem] at h; cases h
    · intro h
      have h' : ∀ r ∈ y.rows, r.headD .nan ≠ .nan := by
        rcases h with h | h | h
        · exact absurd (Or.inl h) hcstr
        · exact absurd (Or.inr h) hcstr
        · exact h
      obtain ⟨k, hk, hmin⟩ := argmin_spec (y.rows.map fun r => r.headD .nan) (by simpa using hne)
        (by
          intro e he
          obtain ⟨r, hr, rfl⟩ := List.mem_map.1 he
          exact h' r hr)
      exact ⟨k, by simpa using hmin.1, hk⟩

/-- Rows with NaN and infinite values. -/
example : ∃ i < 2, findBest ⟨2, [[.nan, .pinf], [.fin 0, .nan]]⟩ ⟨0, [[], []]⟩ [.nan] = .ok i :=
  (C11_no_panic_iff [.nan] ⟨2, [[.nan, .pinf], [.fin 0, .nan]]⟩ ⟨0, [[], []]⟩ rfl (by norm_num) (by simp)).2
    (Or.inl (by norm_num))

end Verif.Props
