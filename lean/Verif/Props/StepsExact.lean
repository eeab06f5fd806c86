import Verif.Props.Steps

/-!
# C69, C70: exact conditions
-/

set_option autoImplicit false

namespace Verif.Props

open Verif Steps Doe

variable {n d : ℕ}

/-! ## C69 -/

/-- **C69**, exact condition. The points proposed by local steps are in the local area for every optimizer which honours
its bounds if and only if the local area is the whole design space. -/
theorem C69_iff (lims : Fin d → ℝ × ℝ) (dist : ℝ × ℝ) (best : Fin d → ℝ) (z : Design n d) (hn : 0 < n)
    (hz : Spec.InUnit z) (h0 : 0 ≤ dist.1) (h1 : 0 ≤ dist.2) (hb : ∀ j, (lims j).1 ≤ best j ∧ best j ≤ (lims j).2) :
    (∀ opt : (Fin d → ℝ × ℝ) → (Fin d → ℝ) → Flt × (Fin d → ℝ),
      (∀ b s, (∀ j, (b j).1 ≤ s j ∧ s j ≤ (b j).2) → ∀ j, (b j).1 ≤ (opt b s).2 j ∧ (opt b s).2 j ≤ (b j).2) →
      ∀ j, best j - dist.1 ≤ (localStep opt lims dist best z).2 j ∧
        (localStep opt lims dist best z).2 j ≤ best j + dist.2) ↔
    ∀ j, best j - dist.1 ≤ (lims j).1 ∧ (lims j).2 ≤ best j + dist.2 := by
  have hconst : ∀ y : Fin d → ℝ, (localStep (fun _ _ => (.fin 0, y)) lims dist best z).2 = y := by
    intro y
    have : ∀ l : List (Flt × (Fin d → ℝ)), l ≠ [] → (∀ p ∈ l, p = (.fin 0, y)) →
        l.foldl Coego.pick (Flt.pinf, best) = (.fin 0, y) := by
      intro l hl h
      cases l with
      | nil => exact absurd rfl hl
      | cons p l =>
        rw [h p (by simp), List.foldl_cons]
        have e : Coego.pick (Flt.pinf, best) (.fin 0, y) = (.fin 0, y) := by simp [Coego.pick, Flt.lt, Flt.cmp]
        rw [e]
        have h' : ∀ q ∈ l, q = (.fin 0, y) := fun q hq => h q (List.mem_cons_of_mem _ hq)
        clear h hl e
        induction l with
        | nil => rfl
        | cons q l ih =>
          rw [List.foldl_cons, h' q (by simp)]
          have e : Coego.pick ((.fin 0, y) : Flt × (Fin d → ℝ)) (.fin 0, y) = (.fin 0, y) := by
            simp [Coego.pick]
          rw [e]
          exact ih fun q hq => h' q (List.mem_cons_of_mem _ hq)
    rw [localStep, this]
    · intro h
      have := congrArg List.length h
      simp at this
      omega
    · intro p hp
      obtain ⟨i, hi⟩ := List.mem_ofFn' .. |>.mp hp
      exact hi.symm
  constructor
  · intro h j
    -- optimizers which answer a corner of the design space wherever it is within their bounds
    have key : ∀ y : Fin d → ℝ, (∀ j, (lims j).1 ≤ y j ∧ y j ≤ (lims j).2) →
        best j - dist.1 ≤ y j ∧ y j ≤ best j + dist.2 := by
      intro y hy
      have := h (fun b s => (.fin 0, fun j => max (b j).1 (min (b j).2 (y j)))) (by
        intro b s hs j
        have := (hs j).1.trans (hs j).2
        exact ⟨le_max_left _ _, max_le this (min_le_left _ _)⟩) j
      have e : localStep (fun b s => (.fin 0, fun j => max (b j).1 (min (b j).2 (y j)))) lims dist best z =
          localStep (fun _ _ => (.fin 0, y)) lims dist best z := by
        unfold localStep
        have e' : (fun j => max (lims j).1 (min (lims j).2 (y j))) = y := by
          funext j
          rw [min_eq_right (hy j).2, max_eq_right (hy j).1]
        simp only [e']
      rw [e, hconst] at this
      exact this
    exact ⟨(key (fun j => (lims j).1) fun j => ⟨le_rfl, (hb j).1.trans (hb j).2⟩).1,
      (key (fun j => (lims j).2) fun j => ⟨(hb j).1.trans (hb j).2, le_rfl⟩).2⟩
  · intro h opt hopt j
    have := (C69_start_in_local_box_partial opt lims dist best z hz h0 h1 hb hopt).1 j
    exact ⟨(h j).1.trans this.1, this.2.trans (h j).2⟩

/-- The local area of half-width 1 in a space of width 2. -/
example (opt : (Fin 1 → ℝ × ℝ) → (Fin 1 → ℝ) → Flt × (Fin 1 → ℝ))
    (hopt : ∀ b s, (∀ j, (b j).1 ≤ s j ∧ s j ≤ (b j).2) → ∀ j, (b j).1 ≤ (opt b s).2 j ∧ (opt b s).2 j ≤ (b j).2) :
    ∀ j, (0 : ℝ) - 1 ≤ (localStep opt (fun _ => (-1, 1)) (1, 1) (fun _ => 0) (fun (_ : Fin 2) _ => 1 / 2)).2 j ∧
      (localStep opt (fun _ => (-1, 1)) (1, 1) (fun _ => 0) (fun (_ : Fin 2) _ => 1 / 2)).2 j ≤ 0 + 1 :=
  (C69_iff (fun _ => (-1, 1)) (1, 1) (fun _ => 0) (fun (_ : Fin 2) _ => 1 / 2) (by norm_num)
    (fun _ _ => by norm_num) (by norm_num) (by norm_num) fun _ => by norm_num).2 (fun _ => by norm_num) opt hopt

/-! ## C70 -/

/-- Decisions along iterations which all add `q` points to `n` initial ones: reclustering when the number of points is a
multiple of 10. -/
theorem C70_constant_batches (m : Option ℕ) (q N : ℕ) (hq : 0 < q) : ∀ added prev, prev < added →
    reclusterings (.auto m) added prev (List.replicate N q) =
      .ok ((List.range N).map fun i => decide (10 ∣ added + i * q)) := by
  induction N with
  | zero => intro a p _; rfl
  | succ N ih =>
    intro a p h
    obtain ⟨b, hb, hiff⟩ := C33_recluster (.auto m) a p h.le
    have hb' : b = decide (10 ∣ a) := by
      rw [Bool.eq_iff_iff, hiff, decide_eq_true_iff]
      constructor
      · rintro ⟨_, ⟨k, _, hk⟩, _⟩
        exact ⟨k, hk⟩
      · rintro ⟨k, hk⟩
        exact ⟨⟨m, rfl⟩, ⟨k, by omega, hk⟩, h⟩
    simp only [List.replicate_succ, reclusterings, hb, ih (a + q) a (by omega), bind, Except.bind, List.range_succ_eq_map,
      List.map_cons, List.map_map, hb']
    congr 2
    · simp
    · refine List.map_congr_left fun i _ => ?_
      simp only [Function.comp, Nat.succ_eq_add_one]
      congr 2
      ring

theorem ten_dvd_iff (a q : ℕ) : (∃ i, i < 10 ∧ 10 ∣ a + i * q) ↔ Nat.gcd q 10 ∣ a := by
  have hfin : ∀ a' q' : Fin 10, (∃ i : Fin 10, (a'.val + i.val * q'.val) % 10 = 0) ↔ a'.val % Nat.gcd q'.val 10 = 0 := by
    decide
  have h := hfin ⟨a % 10, Nat.mod_lt _ (by norm_num)⟩ ⟨q % 10, Nat.mod_lt _ (by norm_num)⟩
  simp only at h
  have hg : Nat.gcd (q % 10) 10 = Nat.gcd q 10 := by
    rw [Nat.gcd_comm q 10, Nat.gcd_rec 10 q]
  have hm : ∀ i, (a % 10 + i * (q % 10)) % 10 = (a + i * q) % 10 := fun i => by
    simp [Nat.add_mod, Nat.mul_mod]
  rw [hg, ← Nat.dvd_iff_mod_eq_zero, Nat.dvd_mod_iff (Nat.gcd_dvd_right q 10)] at h
  rw [← h]
  constructor
  · rintro ⟨i, hi, hd⟩
    exact ⟨⟨i, hi⟩, by rw [hm]; exact Nat.mod_eq_zero_of_dvd hd⟩
  · rintro ⟨i, hi⟩
    rw [hm] at hi
    exact ⟨i, i.2, Nat.dvd_of_mod_eq_zero hi⟩

/-- **C70**, exact condition. If all iterations add `q` points to `added` ones, an automatic reclustering is decided during
the first ten iterations, or ever, if and only if the number of initial points is a multiple of the greatest common
divisor of `q` and 10. -/
theorem C70_batches_iff (m : Option ℕ) (q added prev : ℕ) (hq : 0 < q) (hp : prev < added) :
    ((∃ bs, reclusterings (.auto m) added prev (List.replicate 10 q) = .ok bs ∧ true ∈ bs) ↔ Nat.gcd q 10 ∣ added) ∧
    ((∃ N bs, reclusterings (.auto m) added prev (List.replicate N q) = .ok bs ∧ true ∈ bs) ↔ Nat.gcd q 10 ∣ added) := by
  have key : ∀ N, (∃ bs, reclusterings (.auto m) added prev (List.replicate N q) = .ok bs ∧ true ∈ bs) ↔
      ∃ i, i < N ∧ 10 ∣ added + i * q := by
    intro N
    rw [C70_constant_batches m q N hq added prev hp]
    simp
  have h10 := (key 10).trans (ten_dvd_iff added q)
  refine ⟨h10, ⟨?_, fun h => ⟨10, h10.2 h⟩⟩⟩
  rintro ⟨N, h⟩
  obtain ⟨i, _, hi⟩ := (key N).1 h
  exact (Nat.dvd_add_left (dvd_mul_of_dvd_right (Nat.gcd_dvd_left q 10) i)).1 ((Nat.gcd_dvd_right q 10).trans hi)

/-- With batches of 5 points reclustering needs a number of initial points which is a multiple of 5. -/
example : ¬ ∃ N bs, reclusterings (.auto none) 8 0 (List.replicate N 5) = .ok bs ∧ true ∈ bs := by
  rw [(C70_batches_iff none 5 8 0 (by norm_num) (by norm_num)).2]
  decide

end Verif.Props
