import Verif.Props.Doe

/-!
# C02 and C06 in the sampled space

`sample` maps designs of the unit cube to the bounds: strata and grids are those of the bounds.
-/

set_option autoImplicit false
set_option linter.unusedSectionVars false

namespace Verif.Props

open Verif Doe

variable {ns nx : ℕ}

/-- C02. In every dimension, each of the `ns` equal strata between the bounds holds exactly one sample of a Latin
hypercube. -/
theorem C02_latin_in_space_partial (lower upper : Fin nx → ℝ) (hb : ∀ j, lower j < upper j) (call : LhsCall ns nx)
    (hu : UniformCall call) (x : Design ns nx) (h : lhsSample call = .ok x) (j : Fin nx) (k : Fin ns) :
    ∃! i, lower j + (upper j - lower j) * k / ns ≤ sample lower upper x i j ∧
      sample lower upper x i j < lower j + (upper j - lower j) * (k + 1) / ns := by
  have hw : 0 < upper j - lower j := sub_pos.2 (hb j)
  have key : ∀ i, (lower j + (upper j - lower j) * k / ns ≤ sample lower upper x i j ∧
      sample lower upper x i j < lower j + (upper j - lower j) * (k + 1) / ns) ↔
      ((k : ℝ) / ns ≤ x i j ∧ x i j < ((k : ℝ) + 1) / ns) := by
    intro i
    simp only [sample, mul_div_assoc]
    rw [mul_comm (x i j), add_comm (lower j), add_comm (lower j), add_le_add_iff_right, add_lt_add_iff_right,
      mul_le_mul_iff_right₀ hw, mul_lt_mul_iff_right₀ hw]
  simp only [key]
  exact C02_latin_partial call hu x h j k

/-- C01. Random samples are the draws rescaled to the bounds: relative positions between the bounds are the draws. -/
theorem C01_random_positions (lower upper : Fin nx → ℝ) (hb : ∀ j, lower j < upper j) (rnd : Design ns nx) (i : Fin ns)
    (j : Fin nx) : (sample lower upper (randomSample rnd) i j - lower j) / (upper j - lower j) = rnd i j := by
  have hw : upper j - lower j ≠ 0 := (sub_pos.2 (hb j)).ne'
  simp only [sample, randomSample, add_sub_cancel_right]
  exact mul_div_cancel_right₀ _ hw

section FullFactorial

variable {K : Type} [Field K] [LinearOrder K] [IsStrictOrderedRing K] [FloorRing K]

/-- The point of the grid between the bounds with levels `ds`: level `d` of a factor with `n` levels is at
`d / (n - 1)` of the way from the lower to the upper bound. -/
def GridPoint (levels ds : List ℕ) (bounds : List (K × K)) (row : List K) : Prop :=
  List.Forall₂ (fun d n => d < n) ds levels ∧
    row = List.zipWith (fun (b : K × K) v => b.1 + (b.2 - b.1) * v) bounds (List.zipWith (Spec.gridValue K) levels ds)

theorem sampleRow_eq (bounds : List (K × K)) (row : List K) :
    sampleRow bounds row = List.zipWith (fun (b : K × K) v => b.1 + (b.2 - b.1) * v) bounds row := by
  rw [sampleRow, List.zipWith_comm]
  congr 1
  funext b v
  ring

theorem sampleRow_inj (bounds : List (K × K)) (hb : ∀ b ∈ bounds, b.1 < b.2) : ∀ r r' : List K, r.length = bounds.length →
    r'.length = bounds.length → sampleRow bounds r = sampleRow bounds r' → r = r' := by
  induction bounds with
  | nil =>
    intro r r' h h' _
    rw [List.length_eq_zero_iff.1 h, List.length_eq_zero_iff.1 h']
  | cons b bounds ih =>
    intro r r' h h' he
    cases r with
    | nil => simp at h
    | cons a r =>
      cases r' with
      | nil => simp at h'
      | cons a' r' =>
        simp only [sampleRow, List.zipWith_cons_cons, List.cons.injEq] at he
        have hw : b.2 - b.1 ≠ 0 := (sub_pos.2 (hb b (by simp))).ne'
        have h1 : a = a' := mul_right_cancel₀ hw (by linarith [he.1])
        rw [h1, ih (fun c hc => hb c (by simp [hc])) r r' (by simpa using h) (by simpa using h') he.2]

/-- C06. The samples of the full factorial design are distinct points of a grid between the bounds, as many as asked; if
their number is the size of the grid, they are all its points. -/
theorem C06_full_factorial_in_space (bounds : List (K × K)) (hx : bounds ≠ []) (hb : ∀ b ∈ bounds, b.1 < b.2) (ns : ℕ) :
    ∃ (t : ℕ) (rows : List (List K)), fullFactorial K bounds.length ns = .ok rows ∧
      (rows.map (sampleRow bounds)).length = ns ∧ (rows.map (sampleRow bounds)).Nodup ∧
      (∀ p ∈ rows.map (sampleRow bounds), ∃ ds, GridPoint (Spec.levelsAfter bounds.length t) ds bounds p) ∧
      ns ≤ (Spec.levelsAfter bounds.length t).prod ∧ (∀ u < t, (Spec.levelsAfter bounds.length u).prod < ns) ∧
      (ns = (Spec.levelsAfter bounds.length t).prod → ∀ ds p, GridPoint (Spec.levelsAfter bounds.length t) ds bounds p →
        p ∈ rows.map (sampleRow bounds)) := by
  obtain ⟨t, rows, h1, h2, h3, h4, h5, h6, h7⟩ := C06_full_factorial (K := K) bounds.length ns (List.length_pos_iff.mpr hx)
  have hlen : ∀ row ∈ rows, row.length = bounds.length := by
    intro row hrow
    obtain ⟨ds, hds, rfl⟩ := h4 row hrow
    rw [(zipWith_grid_mem (K := K) _ _ hds).1, levelsAfter_length]
  refine ⟨t, rows, h1, by simpa using h2, ?_, ?_, h5, h6, ?_⟩
  · rw [List.nodup_map_iff_inj_on h3]
    exact fun a ha b hb' he => sampleRow_inj bounds hb a b (hlen a ha) (hlen b hb') he
  · intro p hp
    obtain ⟨row, hrow, rfl⟩ := List.mem_map.1 hp
    obtain ⟨ds, hds, rfl⟩ := h4 row hrow
    exact ⟨ds, hds, sampleRow_eq bounds _⟩
  · rintro hns ds p ⟨hds, rfl⟩
    rw [← sampleRow_eq]
    exact List.mem_map.2 ⟨_, h7 hns ds _ ⟨hds, rfl⟩, rfl⟩

end FullFactorial

/-- Case: 2 × 2 points between the bounds `[1, 3]` and `[-1, 0]`. -/
example : (fullFactorial ℚ 2 4).map (fun rows => rows.map (sampleRow [(1, 3), (-1, 0)])) =
    .ok [[1, -1], [1, 0], [3, -1], [3, 0]] := by decide +kernel

end Verif.Props
