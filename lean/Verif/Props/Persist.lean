import Verif.Model.Persist
import Verif.Lemmas.Best
import Verif.Lemmas.Run

/-!
# Properties of the files of a run (C23-C25)
-/

set_option autoImplicit false

namespace Verif.Props

open Verif Verif.Persist

/-! ## Warm start -/

theorem zipWith_take {a b : List (List Flt)} {k : ℕ} (h : ∀ r ∈ a, r.length = k) (hl : a.length = b.length) :
    (List.zipWith (· ++ ·) a b).map (·.take k) = a ∧ (List.zipWith (· ++ ·) a b).map (·.drop k) = b := by
  induction a generalizing b with
  | nil => cases b <;> simp_all
  | cons r a ih =>
    cases b with
    | nil => simp at hl
    | cons s b =>
      have hr := h r (by simp)
      obtain ⟨h1, h2⟩ := ih (fun r' hr' => h r' (by simp [hr'])) (by simpa using hl)
      simp only [List.zipWith_cons_cons, List.map_cons, h1, h2]
      subst hr
      simp

theorem zipWith_nil_right {a b : List (List Flt)} (h : ∀ r ∈ b, r.length = 0) (hl : a.length = b.length) :
    List.zipWith (· ++ ·) a b = a := by
  induction a generalizing b with
  | nil => simp
  | cons r a ih =>
    cases b with
    | nil => simp at hl
    | cons s b =>
      have hs := h s (by simp)
      rw [List.zipWith_cons_cons, ih (fun r' hr' => h r' (by simp [hr'])) (by simpa using hl),
        List.length_eq_zero_iff.mp hs, List.append_nil]

theorem splitCols_hcat (x y : Mat Flt) (hx : x.WF) (hl : x.rows.length = y.rows.length) :
    splitCols x.ncols ⟨x.ncols + y.ncols, List.zipWith (· ++ ·) x.rows y.rows⟩ = .ok (x, y) := by
  obtain ⟨h1, h2⟩ := zipWith_take hx hl
  simp [splitCols, h1, h2]

/-- Start of a run with a file which holds `x` and `y`. -/
theorem startRun_read {eval : Mat Flt → Mat Flt} {given : Option (Mat Flt)} {fresh : Mat Flt} {dir : Dir}
    (x y : Mat Flt) (hx : x.WF) (hy : 1 ≤ y.ncols) (hl : x.rows.length = y.rows.length)
    (hr : readDoe true dir = some ⟨x.ncols + y.ncols, List.zipWith (· ++ ·) x.rows y.rows⟩) :
    startRun x.ncols eval given fresh true dir = .ok ((x, y),
      { dir with initial := some ⟨x.ncols + y.ncols, List.zipWith (· ++ ·) x.rows y.rows⟩ }) := by
  have h : startData x.ncols eval given fresh (readDoe true dir) = .ok (x, y) := by
    rw [hr]
    simp only [startData, Option.some_or]
    rw [if_neg (by omega), splitCols_hcat x y hx hl]
  simp only [startRun, h, bind, Except.bind, Mat.hcat, if_pos hl]

/-- C23 (part). Without function constraints, a restart with warm start after any number of iterations, whatever the
directory contained before, restores exactly the inputs and outputs of the last iteration. The full claim fails
with function constraints: see `C23_refuted_function_constraints`. -/
theorem C23_no_function_constraint_partial (x y c : Mat Flt) (hx : x.WF) (hy : 1 ≤ y.ncols) (hc : c.ncols = 0)
    (hcw : c.WF) (hl : x.rows.length = y.rows.length) (hlc : x.rows.length = c.rows.length) (dir : Dir)
    (eval : Mat Flt → Mat Flt) (given : Option (Mat Flt)) (fresh : Mat Flt) :
    ∃ dir' dir'', saveIter dir x y c = .ok dir' ∧
      startRun x.ncols eval given fresh true dir' = .ok ((x, y), dir'') ∧ dir''.doe = dir'.doe := by
  have hz : (List.zipWith (· ++ ·) x.rows y.rows).length = c.rows.length := by
    rw [List.length_zipWith, ← hl, min_self, hlc]
  refine ⟨⟨some ⟨x.ncols + y.ncols, List.zipWith (· ++ ·) x.rows y.rows⟩, dir.initial⟩, _, ?_,
    startRun_read x y hx hy hl (by simp [readDoe]), rfl⟩
  simp only [saveIter, Mat.hcat, if_pos hl, bind, Except.bind, if_pos hz, hc, add_zero]
  rw [zipWith_nil_right (by rw [Mat.WF, hc] at hcw; exact hcw) hz]

/-- C23 (part). A run interrupted before the end of its first iteration, in a directory without earlier iterations,
is restored exactly, with or without function constraints. -/
theorem C23_initial_design_partial (x y : Mat Flt) (hx : x.WF) (hy : 1 ≤ y.ncols)
    (hl : x.rows.length = y.rows.length) (dir dir' : Dir) (hd : dir.doe = none) (warm : Bool)
    (eval eval' : Mat Flt → Mat Flt) (given given' : Option (Mat Flt)) (fresh fresh' : Mat Flt)
    (hrun : startRun x.ncols eval given fresh warm dir = .ok ((x, y), dir')) :
    ∃ dir'', startRun x.ncols eval' given' fresh' true dir' = .ok ((x, y), dir'') := by
  have hi : dir' = { dir with initial := some ⟨x.ncols + y.ncols, List.zipWith (· ++ ·) x.rows y.rows⟩ } := by
    unfold startRun at hrun
    simp only [bind_ok] at hrun
    obtain ⟨xy, _, file, hf, he⟩ := hrun
    simp only [Except.ok.injEq, Prod.mk.injEq] at he
    obtain ⟨he1, he2⟩ := he
    rw [he1] at hf
    simp only [Mat.hcat, if_pos hl, Except.ok.injEq] at hf
    rw [← he2, ← hf]
  exact ⟨_, startRun_read x y hx hy hl (by rw [hi]; simp [readDoe, hd])⟩

/-- Case: one input, objective and one constraint as outputs. -/
example :
    (saveIter ⟨none, none⟩ ⟨1, [[.fin 1], [.fin 2]]⟩ ⟨2, [[.fin 5, .fin 0], [.pinf, .fin 7]]⟩ ⟨0, [[], []]⟩ >>= fun d =>
      startRun 1 (fun m => m) none ⟨1, []⟩ true d >>= fun r => .ok r.1) =
    .ok (⟨1, [[.fin 1], [.fin 2]]⟩, ⟨2, [[.fin 5, .fin 0], [.pinf, .fin 7]]⟩) := by decide +kernel

/-- C23 fails with function constraints, for all data: the outputs restored after an iteration hold the values of the
function constraints as additional columns, and the first point added afterwards cannot be stored. -/
theorem C23_refuted_function_constraints (x y c : Mat Flt) (hx : x.WF) (hc : 1 ≤ c.ncols)
    (hl : x.rows.length = y.rows.length) (hlc : x.rows.length = c.rows.length) (dir : Dir)
    (eval : Mat Flt → Mat Flt) (given : Option (Mat Flt)) (fresh : Mat Flt) :
    ∃ dir' y' dir'', saveIter dir x y c = .ok dir' ∧
      startRun x.ncols eval given fresh true dir' = .ok ((x, y'), dir'') ∧ y' ≠ y ∧
      y'.ncols = y.ncols + c.ncols ∧
      ∀ row : List Flt, row.length = y.ncols → Run.pushRow y' row = .error .shape := by
  set y' : Mat Flt := ⟨y.ncols + c.ncols, List.zipWith (· ++ ·) y.rows c.rows⟩ with hy'
  have hz : (List.zipWith (· ++ ·) x.rows y.rows).length = c.rows.length := by
    rw [List.length_zipWith, ← hl, min_self, hlc]
  have hly : x.rows.length = y'.rows.length := by
    rw [hy']; simp only [List.length_zipWith, ← hl, ← hlc, min_self]
  have hassoc : ∀ a b d : List (List Flt), List.zipWith (· ++ ·) (List.zipWith (· ++ ·) a b) d =
      List.zipWith (· ++ ·) a (List.zipWith (· ++ ·) b d) := by
    intro a
    induction a with
    | nil => intro b d; simp
    | cons r a ih =>
      intro b d
      cases b with
      | nil => simp
      | cons s b => cases d with
        | nil => simp
        | cons t d => simp [ih]
  refine ⟨⟨some ⟨x.ncols + y'.ncols, List.zipWith (· ++ ·) x.rows y'.rows⟩, dir.initial⟩, y', _, ?_,
    startRun_read x y' hx (by rw [hy']; simp only; omega) hly (by simp [readDoe]), ?_, rfl, ?_⟩
  · simp only [saveIter, Mat.hcat, if_pos hl, bind, Except.bind, if_pos hz]
    rw [hassoc, hy', add_assoc]
  · intro he
    have := congrArg Mat.ncols he
    rw [hy'] at this; simp only at this; omega
  · intro row hrow
    rw [Run.pushRow, if_neg]
    rw [hy']; simp only; omega

/-- C23 fails in a directory used before: a run interrupted before the end of its first iteration is not restored,
the design of the older run is. -/
theorem C23_refuted_older_run :
    ∃ (dir dir' : Dir) (x y : Mat Flt) (eval : Mat Flt → Mat Flt),
      startRun 1 eval none x false dir = .ok ((x, y), dir') ∧
      (startRun 1 eval none x true dir').map (fun r => r.1) ≠ .ok (x, y) := by
  refine ⟨⟨some ⟨2, [[.fin 1, .fin 1]]⟩, none⟩, _, ⟨1, [[.fin 7]]⟩, ⟨1, [[.fin 7]]⟩, fun m => m, rfl, ?_⟩
  decide +kernel

/-! ## Hot start -/

theorem decFloats_prefix (parse : ℚ → ℚ) (fs : List Flt) : ∀ l : List Tok, l <+: fs.map encFloat ++ [.close] →
    l ≠ fs.map encFloat ++ [.close] → decFloats parse l = none := by
  induction fs with
  | nil =>
    intro l h hne
    cases l with
    | nil => rfl
    | cons a l =>
      exfalso; apply hne
      simp only [List.map_nil, List.nil_append] at h ⊢
      rw [List.cons_prefix_cons] at h
      rw [h.1, List.prefix_nil.mp h.2]
  | cons f fs ih =>
    intro l h hne
    cases l with
    | nil => rfl
    | cons a l =>
      simp only [List.map_cons, List.cons_append] at h hne
      rw [List.cons_prefix_cons] at h
      obtain ⟨rfl, h⟩ := h
      have := ih l h fun he => hne (by rw [he])
      cases f <;> simp [encFloat, decFloats, this]

theorem decode_prefix (parse : ℚ → ℚ) (c : Ckpt) (l : List Tok) (h : l <+: encode c) (hne : l ≠ encode c) : decode parse l = none := by
  cases l with
  | nil => rfl
  | cons a l =>
    unfold encode at h hne
    rw [List.cons_prefix_cons] at h
    obtain ⟨rfl, h⟩ := h
    simp only [decode]
    rw [decFloats_prefix parse c.floats l h fun he => hne (by rw [he])]
    rfl

/-- A finite number. -/
def IsFin (f : Flt) : Prop := ∃ q, f = .fin q

/-- The numbers read for the numbers of a checkpoint. -/
def readBack (parse : ℚ → ℚ) (c : Ckpt) : Ckpt := ⟨c.maxIters, c.floats.map fun f => match f with
  | .fin q => .fin (parse q)
  | f => f⟩

theorem decode_encode (parse : ℚ → ℚ) (c : Ckpt) (h : ∀ f ∈ c.floats, IsFin f) :
    decode parse (encode c) = some (readBack parse c) := by
  have key : ∀ fs : List Flt, (∀ f ∈ fs, IsFin f) → decFloats parse (fs.map encFloat ++ [.close]) =
      some (fs.map fun f => match f with | .fin q => .fin (parse q) | f => f) := by
    intro fs
    induction fs with
    | nil => intro _; rfl
    | cons f fs ih =>
      intro h
      obtain ⟨q, rfl⟩ := h f (by simp)
      simp only [List.map_cons, encFloat, List.cons_append, decFloats, ih fun f' hf' => h f' (by simp [hf'])]
      rfl
  simp only [encode, decode, key c.floats h]
  rfl

theorem decode_not_finite (parse : ℚ → ℚ) (c : Ckpt) (h : ∃ f ∈ c.floats, ¬ IsFin f) : decode parse (encode c) = none := by
  have key : ∀ fs : List Flt, (∃ f ∈ fs, ¬ IsFin f) → decFloats parse (fs.map encFloat ++ [.close]) = none := by
    intro fs
    induction fs with
    | nil => rintro ⟨f, hf, _⟩; simp at hf
    | cons f fs ih =>
      rintro ⟨g, hg, hn⟩
      rcases List.mem_cons.mp hg with rfl | hg
      · cases g with
        | fin q => exact absurd ⟨q, rfl⟩ hn
        | _ => simp [encFloat, decFloats]
      · have := ih ⟨g, hg, hn⟩
        cases f <;> simp [encFloat, decFloats, this]
  simp only [encode, decode, key c.floats h]
  rfl

/-- C24 (part). Whatever the moment of the crash, the next start never loads a wrong state: it finds the previous
checkpoint, or the new one, or fails. The full claim (it never fails) does not hold: see
`C24_refuted_truncated_file`. -/
theorem C24_never_wrong_state_partial (parse : ℚ → ℚ) (mode : Mode) (d : Disk) (c : Ckpt) (d' : Disk)
    (hd : d' ∈ saveStates d c) :
    load parse mode d' = load parse mode d ∨ load parse mode d' = load parse mode (save d c) ∨ load parse mode d' = .error .badText := by
  rcases List.mem_cons.mp hd with rfl | hd
  · exact Or.inl rfl
  · right
    obtain ⟨l, hl, rfl⟩ := List.mem_map.mp hd
    rw [List.mem_inits] at hl
    by_cases he : l = encode c
    · left; rw [he]; rfl
    · right
      simp only [load, decode_prefix parse c l hl he]

/-- C24 fails: for any previous checkpoint and any new one, a crash after the creation of the file and before the end of
the writing leaves a file which cannot be loaded; the previous checkpoint is lost. -/
theorem C24_refuted_truncated_file (parse : ℚ → ℚ) (mode : Mode) (d : Disk) (c : Ckpt) (n : ℕ) (hn : n < (encode c).length) :
    some ((encode c).take n) ∈ saveStates d c ∧ load parse mode (some ((encode c).take n)) = .error .badText := by
  constructor
  · refine List.mem_cons_of_mem _ (List.mem_map_of_mem ?_)
    rw [List.mem_inits]; exact List.take_prefix _ _
  · have : decode parse ((encode c).take n) = none := by
      refine decode_prefix parse c _ (List.take_prefix _ _) fun he => ?_
      have := congrArg List.length he
      rw [List.length_take] at this; omega
    simp only [load, this]

/-- Case: crash right after the creation of the file, a valid checkpoint being there before. -/
example : load id .enabled (some (encode ⟨10, [.fin 1]⟩)) = .ok (some ⟨10, [.fin 1]⟩) ∧
    some [] ∈ saveStates (some (encode ⟨10, [.fin 1]⟩)) ⟨10, [.fin 2]⟩ ∧ load id .enabled (some []) = .error .badText := by
  refine ⟨by decide +kernel, by decide +kernel, by decide +kernel⟩

theorem ofOption_ne (n : ℕ) : Mode.ofOption (some n) ≠ .disabled := by
  simp only [Mode.ofOption]; split_ifs <;> simp

theorem load_save (parse : ℚ → ℚ) (c : Ckpt) (hc : ∀ f ∈ c.floats, IsFin f) (d : Disk) (request : Option ℕ) :
    loadAtStart parse (.ofOption request) (saveInRun (.ofOption request) d c) =
      match request with
      | none => .ok none
      | some n => .ok (some ⟨c.maxIters + n, (readBack parse c).floats⟩) := by
  cases request with
  | none => simp [loadAtStart, Mode.ofOption]
  | some n =>
    rcases Nat.eq_zero_or_pos n with rfl | hn
    · simp [loadAtStart, saveInRun, Mode.ofOption, save, load, decode_encode parse c hc, extend, readBack]
    · have : n ≠ 0 := by omega
      simp [loadAtStart, saveInRun, Mode.ofOption, this, save, load, decode_encode parse c hc, extend, readBack]

theorem readBack_eq_iff (parse : ℚ → ℚ) (c : Ckpt) (hc : ∀ f ∈ c.floats, IsFin f) :
    (readBack parse c).floats = c.floats ↔ ∀ q, Flt.fin q ∈ c.floats → parse q = q := by
  have key : ∀ fs : List Flt, (∀ f ∈ fs, IsFin f) → ((fs.map fun f => match f with | .fin q => .fin (parse q) | f => f) = fs ↔
      ∀ q, Flt.fin q ∈ fs → parse q = q) := by
    intro fs
    induction fs with
    | nil => intro _; simp
    | cons f fs ih =>
      intro h
      obtain ⟨q, rfl⟩ := h f (by simp)
      rw [List.map_cons, List.cons.injEq, ih fun f hf => h f (by simp [hf])]
      simp only [Flt.fin.injEq, List.mem_cons]
      exact ⟨fun h q' hq' => hq'.elim (fun e => e ▸ h.1) (h.2 q'), fun h => ⟨h q (.inl rfl), fun q' hq' => h q' (.inr hq')⟩⟩
  exact key c.floats hc

/-- C25 (part). If all the numbers of the state are finite and read back exactly, loading after a save gives the saved
state, with the maximum number of iterations increased by exactly the requested extension. The full claim fails for
states with a number which is not finite: see `C25_refuted_not_finite`. -/
theorem C25_round_trip_partial (parse : ℚ → ℚ) (c : Ckpt) (hc : ∀ f ∈ c.floats, ∃ q, f = .fin q ∧ parse q = q) (d : Disk)
    (request : Option ℕ) :
    loadAtStart parse (.ofOption request) (saveInRun (.ofOption request) d c) =
      match request with
      | none => .ok none
      | some n => .ok (some ⟨c.maxIters + n, c.floats⟩) := by
  have e := load_save parse c (fun f hf => (hc f hf).imp fun q h => h.1) d request
  rw [show (readBack parse c).floats = c.floats from (readBack_eq_iff parse c fun f hf =>
    (hc f hf).imp fun q h => h.1).2 fun q hq => by obtain ⟨q', h1, h2⟩ := hc _ hq; cases h1; exact h2] at e
  exact e

/-- C25 (part). A state is loaded as it was saved if and only if all its numbers are finite and read back exactly. -/
theorem C25_exact_iff (parse : ℚ → ℚ) (c : Ckpt) (d : Disk) (n : ℕ) :
    loadAtStart parse (.ofOption (some n)) (saveInRun (.ofOption (some n)) d c) = .ok (some ⟨c.maxIters + n, c.floats⟩) ↔
      ∀ f ∈ c.floats, ∃ q, f = .fin q ∧ parse q = q := by
  refine ⟨fun h => ?_, fun h => C25_round_trip_partial parse c h d (some n)⟩
  by_cases hf : ∀ f ∈ c.floats, IsFin f
  · rw [load_save parse c hf d (some n)] at h
    simp only [Except.ok.injEq, Option.some.injEq, Ckpt.mk.injEq, true_and] at h
    intro f hm
    obtain ⟨q, rfl⟩ := hf f hm
    exact ⟨q, rfl, (readBack_eq_iff parse c hf).1 h q hm⟩
  · push Not at hf
    rw [loadAtStart, saveInRun, if_pos (ofOption_ne n), if_pos (ofOption_ne n), save, load, decode_not_finite parse c hf] at h
    cases h

/-- C25 (part). When hot start is disabled nothing is loaded and the file is left as it is; without file nothing is
loaded. -/
theorem C25_disabled_partial (parse : ℚ → ℚ) (c : Ckpt) (d : Disk) (mode : Mode) :
    loadAtStart parse (.ofOption none) d = .ok none ∧ saveInRun (.ofOption none) d c = d ∧
      loadAtStart parse mode none = .ok none := by
  refine ⟨by simp [loadAtStart, Mode.ofOption], by simp [saveInRun, Mode.ofOption], ?_⟩
  unfold loadAtStart; split_ifs <;> rfl

/-- C25 (part). Over `k` restarts with an extension of `n` iterations each, the maximum number of iterations grows by
`k * n`. -/
theorem C25_repeated_extension_partial (parse : ℚ → ℚ) (n k : ℕ) (c : Ckpt) (hc : ∀ f ∈ c.floats, IsFin f) (step : Ckpt → Ckpt)
    (hstep : ∀ c, (∀ f ∈ c.floats, IsFin f) → ∀ f ∈ (step c).floats, IsFin f)
    (hm : ∀ c, (step c).maxIters = c.maxIters) :
    ∃ c', restarts parse (.ofOption (some n)) step k (save none c) = .ok (save none c') ∧
      c'.maxIters = c.maxIters + k * n := by
  induction k generalizing c with
  | zero => exact ⟨c, rfl, by simp⟩
  | succ k ih =>
    have h1 := load_save parse c hc none (some n)
    have h2 : saveInRun (.ofOption (some n)) none c = save none c := by
      rw [saveInRun, if_pos (ofOption_ne n)]
    simp only [h2] at h1
    have hc' : ∀ f ∈ (step ⟨c.maxIters + n, (readBack parse c).floats⟩).floats, IsFin f := hstep _ fun f hf => by
      obtain ⟨g, hg, rfl⟩ := List.mem_map.1 hf
      obtain ⟨q, rfl⟩ := hc g hg
      exact ⟨parse q, rfl⟩
    obtain ⟨c', h3, h4⟩ := ih _ hc'
    refine ⟨c', ?_, by rw [h4, hm]; simp only; ring⟩
    simp only [restarts, h1]
    have h5 : ∀ c0 : Ckpt, saveInRun (.ofOption (some n)) (save none c) c0 = save none c0 := by
      intro c0; rw [saveInRun, if_pos (ofOption_ne n)]; rfl
    rw [h5]; exact h3

example : restarts id (.ofOption (some 5)) id 3 (save none ⟨20, [.fin 1, .fin 2]⟩) =
    .ok (save none ⟨35, [.fin 1, .fin 2]⟩) := by decide +kernel

/-- C25 fails: a state holding a number which is not finite (for instance the NaN stored for a constraint scaled by
zero, `C21_refuted_zero_constraint`) is saved without error but cannot be loaded. -/
theorem C25_refuted_not_finite (parse : ℚ → ℚ) (c : Ckpt) (h : ∃ f ∈ c.floats, ¬ IsFin f) (d : Disk) (n : ℕ) :
    loadAtStart parse (.ofOption (some n)) (saveInRun (.ofOption (some n)) d c) = .error .badText := by
  have hne := ofOption_ne n
  simp [loadAtStart, saveInRun, hne, save, load, decode_not_finite parse c h]

example : ∃ f ∈ (⟨10, [.fin 1, .nan]⟩ : Ckpt).floats, ¬ IsFin f := ⟨.nan, by simp, by rintro ⟨q, hq⟩; cases hq⟩

end Verif.Props
