import Verif.Spec.Metrics
import Verif.Lemmas.Run
import Verif.Lemmas.Gauss
import Verif.Props.Moe

/-!
# Quality metrics: C61, C84
-/

set_option autoImplicit false

namespace Verif.Props

open Verif Metrics Spec MeasureTheory ProbabilityTheory

variable {X : Type}

/-! ## Folds -/

/-- **C61.** Cross validation needs at least two folds and as many rows as folds, otherwise it panics. -/
theorem C61_fold_ok_iff (rows : List (X × ℝ)) (k : ℕ) :
    (∃ l, fold rows k = .ok l) ↔ 2 ≤ k ∧ k ≤ rows.length := by
  unfold fold
  by_cases h0 : k = 0
  · rw [if_pos h0]; simp [h0]
  rw [if_neg h0]
  simp only
  have hpos : 0 < k := Nat.pos_of_ne_zero h0
  by_cases h1 : rows.length / k = 0
  · rw [if_pos h1]
    have : rows.length < k := by
      rcases (Nat.div_eq_zero_iff).1 h1 with h | h
      · exact absurd h h0
      · exact h
    simp
    omega
  · rw [if_neg h1]
    have hle : k ≤ rows.length := by
      by_contra hc
      exact h1 (Nat.div_eq_of_lt (by omega))
    by_cases h2 : k = 1
    · rw [if_pos h2]
      simp
      omega
    · rw [if_neg h2]
      simp
      omega

theorem fold_eq (rows : List (X × ℝ)) (k : ℕ) (h2 : 2 ≤ k) (hk : k ≤ rows.length) :
    fold rows k = .ok ((List.range k).map fun i =>
      (others rows (rows.length / k) i, chunk rows (rows.length / k) i)) := by
  unfold fold
  have h1 : rows.length / k ≠ 0 := (Nat.div_pos hk (by omega)).ne'
  rw [if_neg (by omega)]
  simp only
  rw [if_neg h1, if_neg (by omega)]
  rfl

theorem chunks_flatten (rows : List (X × ℝ)) (s k : ℕ) :
    ((List.range k).map (chunk rows s)).flatten = rows.take (k * s) := by
  induction k with
  | zero => simp
  | succ k ih =>
    rw [List.range_succ, List.map_append, List.flatten_append, ih]
    simp only [List.map_cons, List.map_nil, List.flatten_cons, List.flatten_nil, List.append_nil, chunk]
    rw [Nat.succ_mul, List.take_add]

/-- **C61.** Each fold together with the rows its model is trained on is the set of all rows; folds put together are
the rows, except the last `n % k` ones which are never validated; all rows are validated when the number of folds
divides the number of rows. -/
theorem C61_folds (rows : List (X × ℝ)) (k : ℕ) (h2 : 2 ≤ k) (hk : k ≤ rows.length) :
    ∃ l, fold rows k = .ok l ∧ l.length = k ∧ (∀ f ∈ l, (f.1 ++ f.2).Perm rows) ∧
      (l.map Prod.snd).flatten = rows.take (rows.length - rows.length % k) ∧
      (k ∣ rows.length → (l.map Prod.snd).flatten = rows) := by
  refine ⟨_, fold_eq rows k h2 hk, by simp, ?_, ?_⟩
  · intro f hf
    obtain ⟨i, _, rfl⟩ := List.mem_map.1 hf
    simp only [others, chunk]
    have e1 : rows.drop (i * (rows.length / k)) =
        (rows.drop (i * (rows.length / k))).take (rows.length / k) ++ rows.drop ((i + 1) * (rows.length / k)) := by
      conv_lhs => rw [← List.take_append_drop (rows.length / k) (rows.drop (i * (rows.length / k)))]
      rw [List.drop_drop, Nat.succ_mul]
    conv_rhs => rw [← List.take_append_drop (i * (rows.length / k)) rows, e1]
    rw [List.append_assoc]
    exact List.Perm.append_left _ List.perm_append_comm
  · rw [List.map_map]
    have e : (Prod.snd ∘ fun i => (others rows (rows.length / k) i, chunk rows (rows.length / k) i)) =
        chunk rows (rows.length / k) := rfl
    rw [e, chunks_flatten]
    have h3 : k * (rows.length / k) = rows.length - rows.length % k := by
      have := Nat.div_add_mod rows.length k
      omega
    refine ⟨by rw [h3], fun hd => ?_⟩
    rw [Nat.mul_div_cancel' hd, List.take_length]

/-- **C61.** Leave-one-out: the model validated on row `i` is trained on all other rows. -/
theorem C61_leave_one_out (rows : List (X × ℝ)) (i : ℕ) (hi : i < rows.length) :
    chunk rows (rows.length / rows.length) i = [rows[i]] ∧
      others rows (rows.length / rows.length) i = rows.eraseIdx i := by
  have h1 : rows.length / rows.length = 1 := Nat.div_self (by omega)
  rw [h1]
  constructor
  · unfold chunk
    rw [mul_one, List.drop_eq_getElem_cons hi]
    rfl
  · unfold others
    rw [mul_one, mul_one, List.eraseIdx_eq_take_drop_succ]

/-! ## Q2 -/

theorem models_eq {fit : List (X × ℝ) → Option (Fitted X)} {rows : List (X × ℝ)} {k : ℕ} {M : ℕ → Fitted X}
    (h : CrossModels fit rows k M) :
    (fold rows k >>= fun folds => folds.mapM (withModel fit)) =
      .ok ((List.range k).map fun i => (M i, chunk rows (rows.length / k) i)) := by
  rw [fold_eq rows k h.two h.le, bind_ok]
  refine ⟨_, rfl, ?_⟩
  rw [mapM_ok, List.forall₂_map_left_iff, List.forall₂_map_right_iff]
  rw [List.forall₂_same]
  intro i hi
  simp only [withModel, fitted, h.fit i (List.mem_range.1 hi), bind, Except.bind]

theorem foldl_range {β : Type} (k : ℕ) (g : ℕ → β) (f : β → ℝ) :
    ((List.range k).map g).foldl (fun acc b => acc + f b) 0 = ∑ i ∈ Finset.range k, f (g i) := by
  induction k with
  | zero => simp
  | succ k ih =>
    rw [List.range_succ, List.map_append, List.foldl_append, ih, Finset.sum_range_succ]
    simp

theorem mean_eq (rows : List (X × ℝ)) (h : rows ≠ []) : mean rows = .ok (meanOutput rows) := by
  rw [mean, if_neg h]
  rfl

/-- **C61.** The predictive coefficient is `1 - PRESS / TSS` on the validated rows, each predicted by the model
trained without its fold; it is not a number (or infinite) when all validated outputs are equal to the mean. -/
theorem C61_q2_value (fit : List (X × ℝ) → Option (Fitted X)) (rows : List (X × ℝ)) (k : ℕ) (M : ℕ → Fitted X)
    (h : CrossModels fit rows k M) :
    (sumValidated rows k (fun _ r => (r.2 - meanOutput rows) ^ 2) ≠ 0 →
      q2KScore fit rows k = .ok (some (1 - sumValidated rows k (fun i r => (r.2 - (M i).predict r.1) ^ 2) /
        sumValidated rows k (fun _ r => (r.2 - meanOutput rows) ^ 2)))) ∧
    (sumValidated rows k (fun _ r => (r.2 - meanOutput rows) ^ 2) = 0 → q2KScore fit rows k = .ok none) := by
  have hne : rows ≠ [] := by
    intro h0
    have := h.two
    have := h.le
    rw [h0] at this
    simp at this
    omega
  have key : q2KScore fit rows k = .ok (if sumValidated rows k (fun _ r => (r.2 - meanOutput rows) ^ 2) = 0 then none
      else some (1 - sumValidated rows k (fun i r => (r.2 - (M i).predict r.1) ^ 2) /
        sumValidated rows k (fun _ r => (r.2 - meanOutput rows) ^ 2))) := by
    have hm := models_eq h
    rw [fold_eq rows k h.two h.le] at hm
    simp only [bind, Except.bind] at hm
    unfold q2KScore
    simp only [mean_eq rows hne, fold_eq rows k h.two h.le, bind, Except.bind, hm]
    simp only [foldl_range, ← sq]
    rfl
  rw [key]
  exact ⟨fun h0 => by rw [if_neg h0], fun h0 => by rw [if_pos h0]⟩

theorem crossModels_loo (fit : List (X × ℝ) → Option (Fitted X)) (rows : List (X × ℝ)) (M : Fin rows.length → Fitted X)
    (h2 : 2 ≤ rows.length) (h : ∀ i : Fin rows.length, fit (rows.eraseIdx i) = some (M i)) :
    ∃ M' : ℕ → Fitted X, (∀ i : Fin rows.length, M' i = M i) ∧ CrossModels fit rows rows.length M' := by
  refine ⟨fun i => if hi : i < rows.length then M ⟨i, hi⟩ else M ⟨0, by omega⟩, fun i => by simp,
    h2, le_rfl, fun i hi => ?_⟩
  rw [(C61_leave_one_out rows i hi).2]
  simp only [dif_pos hi]
  exact h ⟨i, hi⟩

theorem sumValidated_loo (rows : List (X × ℝ)) (f : ℕ → X × ℝ → ℝ) :
    sumValidated rows rows.length f = ∑ i : Fin rows.length, f i (rows.get i) := by
  rw [sumValidated, Finset.sum_range]
  refine Finset.sum_congr rfl fun i _ => ?_
  rw [(C61_leave_one_out rows i i.2).1]
  simp

/-- **C61.** `q2_score` is leave-one-out: each output is predicted by the model trained on all other rows. -/
theorem C61_q2_leave_one_out (fit : List (X × ℝ) → Option (Fitted X)) (rows : List (X × ℝ)) (M : Fin rows.length → Fitted X)
    (h2 : 2 ≤ rows.length) (h : ∀ i : Fin rows.length, fit (rows.eraseIdx i) = some (M i)) :
    q2Score fit rows = .ok (if ∑ i : Fin rows.length, ((rows.get i).2 - meanOutput rows) ^ 2 = 0 then none
      else some (1 - (∑ i, ((rows.get i).2 - (M i).predict (rows.get i).1) ^ 2) /
        ∑ i : Fin rows.length, ((rows.get i).2 - meanOutput rows) ^ 2)) := by
  obtain ⟨M', hM, hc⟩ := crossModels_loo fit rows M h2 h
  obtain ⟨h3, h4⟩ := C61_q2_value fit rows rows.length M' hc
  rw [sumValidated_loo, sumValidated_loo] at h3
  rw [sumValidated_loo] at h4
  simp only [hM] at h3
  split_ifs with h0
  · exact h4 h0
  · exact h3 h0

/-- Case of `C61_q2_leave_one_out` and `C61_pva_leave_one_out`: the mean of the other outputs as prediction. -/
example : ∀ i : Fin 3, (fun l : List (ℕ × ℝ) => some (⟨fun _ => (l.map Prod.snd).sum / 2, fun _ => 1⟩ : Fitted ℕ))
    ([(0, 1), (1, 3), (2, 8)].eraseIdx i) = some (![⟨fun _ => 11 / 2, fun _ => 1⟩, ⟨fun _ => 9 / 2, fun _ => 1⟩,
      ⟨fun _ => 2, fun _ => 1⟩] i) := by
  intro i
  fin_cases i <;> norm_num [List.eraseIdx]

theorem sumValidated_nonneg (rows : List (X × ℝ)) (k : ℕ) (f : ℕ → X × ℝ → ℝ) (hf : ∀ i r, 0 ≤ f i r) :
    0 ≤ sumValidated rows k f := by
  unfold sumValidated
  refine Finset.sum_nonneg fun i _ => List.sum_nonneg ?_
  intro y hy
  obtain ⟨r, _, rfl⟩ := List.mem_map.1 hy
  exact hf i r

theorem list_sum_eq_zero_iff {β : Type} (l : List β) (f : β → ℝ) (hf : ∀ r, 0 ≤ f r) :
    (l.map f).sum = 0 ↔ ∀ r ∈ l, f r = 0 := by
  induction l with
  | nil => simp
  | cons a l ih =>
    rw [List.map_cons, List.sum_cons]
    have h1 := hf a
    have h2 : 0 ≤ (l.map f).sum := List.sum_nonneg fun y hy => by
      obtain ⟨r, _, rfl⟩ := List.mem_map.1 hy
      exact hf r
    rw [List.forall_mem_cons, ← ih]
    constructor
    · intro h; constructor <;> linarith
    · rintro ⟨ha, hb⟩; rw [ha, hb, add_zero]

theorem sumValidated_eq_zero_iff (rows : List (X × ℝ)) (k : ℕ) (f : ℕ → X × ℝ → ℝ) (hf : ∀ i r, 0 ≤ f i r) :
    sumValidated rows k f = 0 ↔ ∀ i < k, ∀ r ∈ chunk rows (rows.length / k) i, f i r = 0 := by
  unfold sumValidated
  rw [Finset.sum_eq_zero_iff_of_nonneg]
  · simp only [Finset.mem_range, list_sum_eq_zero_iff _ _ (hf _)]
  · intro i _
    refine List.sum_nonneg ?_
    intro y hy
    obtain ⟨r, _, rfl⟩ := List.mem_map.1 hy
    exact hf i r

/-- **C61.** When it is a number, the predictive coefficient is at most 1, and it is 1 exactly when each validated row
is predicted exactly by the model trained without its fold. -/
theorem C61_q2_range_partial (fit : List (X × ℝ) → Option (Fitted X)) (rows : List (X × ℝ)) (k : ℕ) (M : ℕ → Fitted X)
    (h : CrossModels fit rows k M) (q : ℝ) (hq : q2KScore fit rows k = .ok (some q)) :
    q ≤ 1 ∧ (q = 1 ↔ ∀ i < k, ∀ r ∈ chunk rows (rows.length / k) i, (M i).predict r.1 = r.2) := by
  obtain ⟨h1, h2⟩ := C61_q2_value fit rows k M h
  by_cases h0 : sumValidated rows k (fun _ r => (r.2 - meanOutput rows) ^ 2) = 0
  · rw [h2 h0] at hq
    simp at hq
  rw [h1 h0] at hq
  simp only [Except.ok.injEq, Option.some.injEq] at hq
  have ht := sumValidated_nonneg rows k (fun _ r => (r.2 - meanOutput rows) ^ 2) fun _ _ => sq_nonneg _
  have hp := sumValidated_nonneg rows k (fun i r => (r.2 - (M i).predict r.1) ^ 2) fun _ _ => sq_nonneg _
  have hz := sumValidated_eq_zero_iff rows k (fun i r => (r.2 - (M i).predict r.1) ^ 2) fun _ _ => sq_nonneg _
  generalize sumValidated rows k (fun i r => (r.2 - (M i).predict r.1) ^ 2) = P at *
  generalize sumValidated rows k (fun _ r => (r.2 - meanOutput rows) ^ 2) = T at *
  subst hq
  constructor
  · have := div_nonneg hp ht
    linarith
  · rw [sub_eq_self, div_eq_zero_iff, or_iff_left h0, hz]
    simp only [pow_eq_zero_iff two_ne_zero, sub_eq_zero]
    constructor
    · intro hh i hi r hr; exact (hh i hi r hr).symm
    · intro hh i hi r hr; exact (hh i hi r hr).symm

/-- **C61.** It is a number exactly when some validated output differs from the mean of the outputs. -/
theorem C61_q2_defined_iff (fit : List (X × ℝ) → Option (Fitted X)) (rows : List (X × ℝ)) (k : ℕ) (M : ℕ → Fitted X)
    (h : CrossModels fit rows k M) :
    (∃ q, q2KScore fit rows k = .ok (some q)) ↔
      ∃ i < k, ∃ r ∈ chunk rows (rows.length / k) i, r.2 ≠ meanOutput rows := by
  obtain ⟨h1, h2⟩ := C61_q2_value fit rows k M h
  have hz := sumValidated_eq_zero_iff rows k (fun _ r => (r.2 - meanOutput rows) ^ 2) fun _ _ => sq_nonneg _
  by_cases h0 : sumValidated rows k (fun _ r => (r.2 - meanOutput rows) ^ 2) = 0
  · rw [h2 h0]
    constructor
    · rintro ⟨q, hq⟩; simp at hq
    · rintro ⟨i, hi, r, hr, hne⟩
      have := hz.1 h0 i hi r hr
      exact absurd (sub_eq_zero.1 (pow_eq_zero_iff two_ne_zero |>.1 this)) hne
  · refine ⟨fun _ => ?_, fun _ => ⟨_, h1 h0⟩⟩
    by_contra hcon
    push Not at hcon
    refine h0 (hz.2 fun i hi r hr => ?_)
    rw [hcon i hi r hr, sub_self]
    norm_num

/-- **C61 refuted.** Constant outputs, perfectly predicted: the coefficient is not a number. -/
theorem C61_refuted_constant (rows : List (X × ℝ)) (c : ℝ) (hc : ∀ r ∈ rows, r.2 = c) (k : ℕ) (h2 : 2 ≤ k)
    (hk : k ≤ rows.length) (v : X → ℝ) :
    q2KScore (fun _ => some ⟨fun _ => c, v⟩) rows k = .ok none := by
  have hM : CrossModels (fun _ => some ⟨fun _ => c, v⟩) rows k fun _ => ⟨fun _ => c, v⟩ := ⟨h2, hk, fun _ _ => rfl⟩
  refine (C61_q2_value _ rows k _ hM).2 ?_
  rw [sumValidated_eq_zero_iff _ _ _ fun _ _ => sq_nonneg _]
  intro i _ r hr
  have hm : meanOutput rows = c := by
    unfold meanOutput
    have h1 : rows.map Prod.snd = List.replicate rows.length c := by
      rw [List.eq_replicate_iff]
      refine ⟨by simp, ?_⟩
      intro b hb
      obtain ⟨r, hr, rfl⟩ := List.mem_map.1 hb
      exact hc r hr
    have hn : (rows.length : ℝ) ≠ 0 := by
      have : 0 < rows.length := by omega
      positivity
    rw [h1, List.sum_replicate, nsmul_eq_mul]
    field_simp
  have hmem : r ∈ rows := List.mem_of_mem_drop (List.mem_of_mem_take hr)
  rw [hm, hc r hmem, sub_self]
  norm_num

/-- Case: a cross validation of the model which predicts the mean of the training outputs, for two rows. -/
example : CrossModels (X := ℝ) (fun t => some ⟨fun _ => meanOutput t, fun _ => 1⟩) [(0, 0), (1, 1)] 2
    (fun i => ⟨fun _ => meanOutput (others [((0 : ℝ), (0 : ℝ)), (1, 1)] 1 i), fun _ => 1⟩) :=
  ⟨by norm_num, by norm_num, fun _ _ => rfl⟩

/-! ## Predictive variance adequacy -/

/-- **C61.** The predictive variance adequacy is at least 0, and 0 exactly when the mean of the squared errors divided
by the variances is one. -/
theorem C61_pva (fit : List (X × ℝ) → Option (Fitted X)) (rows : List (X × ℝ)) (k : ℕ) (M : ℕ → Fitted X)
    (h : CrossModels fit rows k M) (q : ℝ) (hq : pvaKScore fit rows k = .ok (some q)) :
    0 ≤ q ∧ (q = 0 ↔ sumValidated rows k (fun i r => (r.2 - (M i).predict r.1) ^ 2 / (M i).var r.1) =
      (k * (rows.length / k) : ℕ)) := by
  have hm := models_eq h
  rw [fold_eq rows k h.two h.le] at hm
  simp only [bind, Except.bind] at hm
  unfold pvaKScore at hq
  simp only [fold_eq rows k h.two h.le, bind, Except.bind, hm] at hq
  simp only [foldl_range, ← sq] at hq
  have hn : ∀ K ≤ k, ((List.range K).map fun i => (M i, chunk rows (rows.length / k) i)).foldl
      (fun acc f => acc + f.2.length) 0 = K * (rows.length / k) := by
    intro K hK
    induction K with
    | zero => simp
    | succ K ih =>
      rw [List.range_succ, List.map_append, List.foldl_append, ih (by omega)]
      simp only [List.map_cons, List.map_nil, List.foldl_cons, List.foldl_nil, chunk, List.length_take, List.length_drop]
      have h1 : (K + 1) * (rows.length / k) ≤ rows.length :=
        le_trans (Nat.mul_le_mul_right _ hK) (Nat.mul_div_le _ _)
      rw [Nat.succ_mul] at h1 ⊢
      omega
  rw [hn k le_rfl] at hq
  have hpos : 0 < k * (rows.length / k) :=
    Nat.mul_pos (by have := h.two; omega) (Nat.div_pos h.le (by have := h.two; omega))
  have hposr : (0 : ℝ) < (k * (rows.length / k) : ℕ) := by exact_mod_cast hpos
  simp only [Except.ok.injEq] at hq
  have hs : (∑ i ∈ Finset.range k, ((chunk rows (rows.length / k) i).map fun r =>
      (r.2 - (M i).predict r.1) ^ 2 / (M i).var r.1).sum) =
      sumValidated rows k (fun i r => (r.2 - (M i).predict r.1) ^ 2 / (M i).var r.1) := rfl
  rw [hs] at hq
  generalize sumValidated rows k (fun i r => (r.2 - (M i).predict r.1) ^ 2 / (M i).var r.1) = S at *
  generalize ((k * (rows.length / k) : ℕ) : ℝ) = N at *
  split_ifs at hq with hc
  simp only [Option.some.injEq] at hq
  subst hq
  refine ⟨abs_nonneg _, ?_⟩
  rw [abs_eq_zero, Real.log_eq_zero]
  have h2 := hc.2
  constructor
  · rintro (h0 | h0 | h0)
    · rw [h0] at h2; exact absurd h2 (lt_irrefl _)
    · rwa [div_eq_one_iff_eq hposr.ne'] at h0
    · rw [h0] at h2; norm_num at h2
  · intro he
    right; left
    rw [he, div_self hposr.ne']

open Classical in
/-- **C61.** The predictive variance adequacy is the absolute value of the logarithm of the mean, on the validated rows,
of the squared errors divided by the variances predicted without their folds. -/
theorem C61_pva_value (fit : List (X × ℝ) → Option (Fitted X)) (rows : List (X × ℝ)) (k : ℕ) (M : ℕ → Fitted X)
    (h : CrossModels fit rows k M) :
    pvaKScore fit rows k = .ok (if (∀ i < k, ∀ r ∈ chunk rows (rows.length / k) i, (M i).var r.1 ≠ 0) ∧
        0 < sumValidated rows k (fun i r => (r.2 - (M i).predict r.1) ^ 2 / (M i).var r.1) / (k * (rows.length / k) : ℕ)
      then some |Real.log (sumValidated rows k (fun i r => (r.2 - (M i).predict r.1) ^ 2 / (M i).var r.1) /
        (k * (rows.length / k) : ℕ))| else none) := by
  have hm := models_eq h
  rw [fold_eq rows k h.two h.le] at hm
  simp only [bind, Except.bind] at hm
  unfold pvaKScore
  simp only [fold_eq rows k h.two h.le, bind, Except.bind, hm]
  simp only [foldl_range, ← sq]
  have hn : ∀ K ≤ k, ((List.range K).map fun i => (M i, chunk rows (rows.length / k) i)).foldl
      (fun acc f => acc + f.2.length) 0 = K * (rows.length / k) := by
    intro K hK
    induction K with
    | zero => simp
    | succ K ih =>
      rw [List.range_succ, List.map_append, List.foldl_append, ih (by omega)]
      simp only [List.map_cons, List.map_nil, List.foldl_cons, List.foldl_nil, chunk, List.length_take, List.length_drop]
      have h1 : (K + 1) * (rows.length / k) ≤ rows.length :=
        le_trans (Nat.mul_le_mul_right _ hK) (Nat.mul_div_le _ _)
      rw [Nat.succ_mul] at h1 ⊢
      omega
  rw [hn k le_rfl]
  have hall : (((List.range k).map fun i => (M i, chunk rows (rows.length / k) i)).all fun f =>
      f.2.all fun r => decide (f.1.var r.1 ≠ 0)) = true ↔
      ∀ i < k, ∀ r ∈ chunk rows (rows.length / k) i, (M i).var r.1 ≠ 0 := by
    simp [List.all_eq_true]
  simp only [hall]
  rfl

open Classical in
/-- **C61.** `pva_score` is leave-one-out: each output is compared with the mean and the variance of the model trained
on all other rows. -/
theorem C61_pva_leave_one_out (fit : List (X × ℝ) → Option (Fitted X)) (rows : List (X × ℝ))
    (M : Fin rows.length → Fitted X) (h2 : 2 ≤ rows.length)
    (h : ∀ i : Fin rows.length, fit (rows.eraseIdx i) = some (M i)) :
    pvaScore fit rows = .ok (if (∀ i, (M i).var (rows.get i).1 ≠ 0) ∧
        0 < (∑ i, ((rows.get i).2 - (M i).predict (rows.get i).1) ^ 2 / (M i).var (rows.get i).1) / rows.length
      then some |Real.log ((∑ i, ((rows.get i).2 - (M i).predict (rows.get i).1) ^ 2 / (M i).var (rows.get i).1) /
        rows.length)| else none) := by
  obtain ⟨M', hM, hc⟩ := crossModels_loo fit rows M h2 h
  rw [pvaScore, C61_pva_value fit rows rows.length M' hc, sumValidated_loo rows]
  simp only [hM, Nat.div_self (show 0 < rows.length by omega), mul_one]
  have hall : (∀ i < rows.length, ∀ r ∈ chunk rows 1 i, (M' i).var r.1 ≠ 0) ↔ ∀ i, (M i).var (rows.get i).1 ≠ 0 := by
    constructor
    · intro H i
      have h3 := (C61_leave_one_out rows i i.2).1
      rw [Nat.div_self (show 0 < rows.length by omega)] at h3
      have := H i i.2 (rows.get i) (by rw [h3]; simp)
      rwa [hM] at this
    · intro H i hi r hr
      have h3 := (C61_leave_one_out rows i hi).1
      rw [Nat.div_self (show 0 < rows.length by omega)] at h3
      rw [h3, List.mem_singleton] at hr
      rw [hr, hM ⟨i, hi⟩]
      exact H ⟨i, hi⟩
  simp only [hall]

/-! ## Coverage -/

theorem quantile_mono {ppf : ℝ → ℝ} (hp : IsQuantile ppf) {p p' : ℝ} (h0 : 0 < p) (h1 : p' < 1) (hlt : p ≤ p') :
    ppf p ≤ ppf p' := by
  rcases eq_or_lt_of_le hlt with rfl | hlt
  · exact le_refl _
  by_contra hcon
  have h2 : (gaussianReal 0 1).real (Set.Iic (ppf p')) ≤ (gaussianReal 0 1).real (Set.Iic (ppf p)) :=
    measureReal_mono (Set.Iic_subset_Iic.2 (not_le.1 hcon).le)
  rw [hp p h0 (hlt.trans h1), hp p' (h0.trans hlt) h1] at h2
  linarith

/-- **C61.** Empirical coverages are between 0 and 1. -/
theorem C61_coverage_range (ppf : ℝ → ℝ) (m : Fitted X) (valid : List (X × ℝ)) (a : ℝ) :
    0 ≤ coverage ppf m valid a ∧ coverage ppf m valid a ≤ 1 := by
  unfold coverage
  simp only
  refine ⟨by positivity, ?_⟩
  apply div_le_one_of_le₀ _ (by positivity)
  exact_mod_cast List.countP_le_length

/-- **C61.** Empirical coverages are monotone: a larger confidence `1 - a` gives a larger coverage. -/
theorem C61_coverage_mono (ppf : ℝ → ℝ) (hp : IsQuantile ppf) (m : Fitted X) (valid : List (X × ℝ)) (a a' : ℝ)
    (h0 : 0 < a) (h1 : a' < 2) (h : a ≤ a') : coverage ppf m valid a' ≤ coverage ppf m valid a := by
  have hq : ppf (1 - a' / 2) ≤ ppf (1 - a / 2) := quantile_mono hp (by linarith) (by linarith) (by linarith)
  unfold coverage
  simp only
  apply div_le_div_of_nonneg_right _ (by positivity)
  have : (valid.countP fun r => decide (m.predict r.1 - √(m.var r.1) * ppf (1 - a' / 2) ≤ r.2 ∧
      r.2 ≤ m.predict r.1 + √(m.var r.1) * ppf (1 - a' / 2))) ≤
      valid.countP fun r => decide (m.predict r.1 - √(m.var r.1) * ppf (1 - a / 2) ≤ r.2 ∧
      r.2 ≤ m.predict r.1 + √(m.var r.1) * ppf (1 - a / 2)) := by
    apply List.countP_mono_left
    intro r _ hr
    simp only [decide_eq_true_eq] at hr ⊢
    have h2 := mul_le_mul_of_nonneg_left hq (Real.sqrt_nonneg (m.var r.1))
    constructor <;> linarith [hr.1, hr.2]
  exact_mod_cast this

/-- **C61.** The coverage counts the right intervals: under the predicted normal law the interval of level `a` has
probability `1 - a`. -/
theorem C61_interval_probability (ppf : ℝ → ℝ) (hp : IsQuantile ppf) (mu : ℝ) (v : NNReal) (hv : v ≠ 0) (a : ℝ)
    (h0 : 0 < a) (h1 : a < 1) :
    (gaussianReal mu v).real (Set.Icc (mu - √v * ppf (1 - a / 2)) (mu + √v * ppf (1 - a / 2))) = 1 - a := by
  have hs : 0 < √(v : ℝ) := Real.sqrt_pos.2 (by exact_mod_cast pos_iff_ne_zero.2 hv)
  have hq0 : 0 ≤ ppf (1 - a / 2) := by
    by_contra hcon
    have hneg := not_le.1 hcon
    have h2 := hp (1 - a / 2) (by linarith) (by linarith)
    set q := ppf (1 - a / 2)
    have hsym : (gaussianReal 0 1).real (Set.Iic q) = (gaussianReal 0 1).real (Set.Ici (-q)) := by
      have hmap := gaussianReal_map_neg (μ := 0) (v := 1)
      rw [neg_zero] at hmap
      conv_lhs => rw [← hmap]
      rw [map_measureReal_apply (by fun_prop) measurableSet_Iic]
      congr 1
      ext y
      simp [neg_le]
    have hdis : (gaussianReal 0 1).real (Set.Iic q) + (gaussianReal 0 1).real (Set.Ici (-q)) ≤ 1 := by
      rw [← measureReal_union _ measurableSet_Ici]
      · exact measureReal_le_one
      · rw [Set.disjoint_left]
        intro y hy hy'
        simp only [Set.mem_Iic, Set.mem_Ici] at hy hy'
        linarith
    rw [← hsym, h2] at hdis
    linarith
  have hstd : (gaussianReal mu v).real (Set.Icc (mu - √v * ppf (1 - a / 2)) (mu + √v * ppf (1 - a / 2))) =
      (gaussianReal 0 1).real (Set.Icc (-ppf (1 - a / 2)) (ppf (1 - a / 2))) := by
    rw [Gauss.gaussianReal_eq_map mu (√v) v (Real.sq_sqrt v.coe_nonneg).symm]
    rw [map_measureReal_apply (by fun_prop) measurableSet_Icc]
    congr 1
    ext y
    simp only [Set.mem_preimage, Set.mem_Icc]
    constructor
    · rintro ⟨ha, hb⟩
      constructor
      · by_contra hcon; nlinarith
      · by_contra hcon; nlinarith
    · rintro ⟨ha, hb⟩
      constructor <;> nlinarith
  rw [hstd]
  have h2 := hp (1 - a / 2) (by linarith) (by linarith)
  generalize ppf (1 - a / 2) = q at *
  have hsym : (gaussianReal 0 1).real (Set.Iio (-q)) = (gaussianReal 0 1).real (Set.Ioi q) := by
    have hmap := gaussianReal_map_neg (μ := 0) (v := 1)
    rw [neg_zero] at hmap
    conv_lhs => rw [← hmap]
    rw [map_measureReal_apply (by fun_prop) measurableSet_Iio]
    congr 1
    ext y
    simp
  have hcompl : (gaussianReal 0 1).real (Set.Ioi q) = a / 2 := by
    have := probReal_compl_eq_one_sub (μ := gaussianReal 0 1) (s := Set.Iic q) measurableSet_Iic
    rw [Set.compl_Iic, h2] at this
    linarith
  have hunion : (gaussianReal 0 1).real (Set.Iic q) =
      (gaussianReal 0 1).real (Set.Iio (-q)) + (gaussianReal 0 1).real (Set.Icc (-q) q) := by
    rw [← measureReal_union _ measurableSet_Icc]
    · congr 1
      ext y
      simp only [Set.mem_Iic, Set.mem_union, Set.mem_Iio, Set.mem_Icc]
      constructor
      · intro hy
        by_cases hyq : y < -q
        · exact Or.inl hyq
        · exact Or.inr ⟨not_lt.1 hyq, hy⟩
      · rintro (hy | hy)
        · linarith
        · exact hy.2
    · rw [Set.disjoint_left]
      intro y hy hy'
      simp only [Set.mem_Iio, Set.mem_Icc] at hy hy'
      linarith
  rw [h2, hsym, hcompl] at hunion
  linarith

/-! ## C84: integrated absolute error -/

theorem alphas_eq : alphas = levels := by
  unfold alphas levels
  refine List.map_congr_left fun i _ => ?_
  ring

theorem levels_length : levels.length = 20 := by simp [levels]

theorem levels_range (a : ℝ) (h : a ∈ levels) : 0.02 ≤ a ∧ a ≤ 0.98 := by
  unfold levels at h
  obtain ⟨i, hi, rfl⟩ := List.mem_map.1 h
  have h1 : (i : ℝ) ≤ 19 := by
    have : i < 20 := List.mem_range.1 hi
    exact_mod_cast Nat.lt_succ_iff.1 this
  have h0 : (0 : ℝ) ≤ i := by positivity
  constructor <;> linarith

theorem foldl_add_eq (l : List ℝ) (a : ℝ) : l.foldl (· + ·) a = a + l.sum := by
  induction l generalizing a with
  | nil => simp
  | cons b l ih => rw [List.foldl_cons, ih, List.sum_cons, add_assoc]

/-- **C84.** The deltas of the plot are the coverages averaged over folds; the score is the average over folds of the
coverage error of each fold. -/
theorem C84_value (ppf : ℝ → ℝ) (fit : List (X × ℝ) → Option (Fitted X)) (rows : List (X × ℝ)) (k : ℕ)
    (M : ℕ → Fitted X) (h : CrossModels fit rows k M) :
    iaeAlphaKScore ppf fit rows k = .ok
      ((∑ i ∈ Finset.range k, coverageError (coverage ppf (M i) (chunk rows (rows.length / k) i))) / k, levels,
       levels.map fun a => (∑ i ∈ Finset.range k, coverage ppf (M i) (chunk rows (rows.length / k) i) a) / k) := by
  have hm := models_eq h
  rw [fold_eq rows k h.two h.le] at hm
  simp only [bind, Except.bind] at hm
  unfold iaeAlphaKScore
  rw [alphas_eq]
  simp only [fold_eq rows k h.two h.le, bind, Except.bind, hm, List.map_map, List.length_map, List.length_range]
  have hz : ∀ K, ((List.range K).map ((fun f : Fitted X × List (X × ℝ) => iaeAlpha ppf f.1 f.2 levels) ∘ fun i =>
      (M i, chunk rows (rows.length / k) i))).foldl (fun (acc : List ℝ) i => List.zipWith (· + ·) acc i.2)
        (List.replicate 20 0) =
      levels.map fun a => ∑ i ∈ Finset.range K, coverage ppf (M i) (chunk rows (rows.length / k) i) a := by
    intro K
    induction K with
    | zero =>
      simp only [List.range_zero, List.map_nil, List.foldl_nil, Finset.range_zero, Finset.sum_empty]
      rw [List.map_const', levels_length]
    | succ K ih =>
      rw [List.range_succ, List.map_append, List.foldl_append, ih]
      simp only [List.map_cons, List.map_nil, List.foldl_cons, List.foldl_nil, Function.comp, iaeAlpha]
      rw [List.zipWith_map, List.zipWith_self]
      simp only [Finset.sum_range_succ]
  rw [hz k]
  have hf : ∀ i, ((fun f : Fitted X × List (X × ℝ) => iaeAlpha ppf f.1 f.2 levels) ∘ fun i =>
      (M i, chunk rows (rows.length / k) i)) i =
      iaeAlpha ppf (M i) (chunk rows (rows.length / k) i) levels := fun _ => rfl
  rw [foldl_range k _ Prod.fst]
  simp only [List.map_map]
  congr 3
  refine Finset.sum_congr rfl fun i _ => ?_
  simp only [Function.comp, iaeAlpha, coverageError]
  rw [foldl_add_eq, zero_add, levels_length]
  congr 2

theorem sum_map_le {l : List ℝ} {f g : ℝ → ℝ} (h : ∀ a ∈ l, f a ≤ g a) : (l.map f).sum ≤ (l.map g).sum := by
  induction l with
  | nil => simp
  | cons a l ih =>
    simp only [List.map_cons, List.sum_cons]
    have := h a (by simp)
    have := ih fun b hb => h b (by simp [hb])
    linarith

theorem sum_map_finset (l : List ℝ) (s : Finset ℕ) (f : ℕ → ℝ → ℝ) :
    (l.map fun a => ∑ i ∈ s, f i a).sum = ∑ i ∈ s, (l.map (f i)).sum := by
  induction l with
  | nil => simp
  | cons a l ih => simp only [List.map_cons, List.sum_cons, ih, Finset.sum_add_distrib]

theorem sum_map_div (l : List ℝ) (f : ℝ → ℝ) (c : ℝ) : (l.map fun a => f a / c).sum = (l.map f).sum / c := by
  induction l with
  | nil => simp
  | cons a l ih => simp only [List.map_cons, List.sum_cons, ih, add_div]

/-- **C84.** The score is at least the error of the averaged coverage. -/
theorem C84_lower_bound_partial (ppf : ℝ → ℝ) (fit : List (X × ℝ) → Option (Fitted X)) (rows : List (X × ℝ)) (k : ℕ)
    (M : ℕ → Fitted X) (h : CrossModels fit rows k M) :
    ∃ score, ∃ delta : ℝ → ℝ, iaeAlphaKScore ppf fit rows k = .ok (score, levels, levels.map delta) ∧
      coverageError delta ≤ score ∧ score ≤ 1 := by
  refine ⟨_, _, C84_value ppf fit rows k M h, ?_, ?_⟩
  · unfold coverageError
    have hk : (0 : ℝ) < k := by have := h.two; positivity
    rw [← Finset.sum_div, ← sum_map_finset, div_right_comm, ← sum_map_div _ _ (k : ℝ)]
    apply div_le_div_of_nonneg_right _ (by norm_num)
    apply sum_map_le
    intro a _
    rw [le_div_iff₀ hk]
    have e : (1 - a) * k = ∑ i ∈ Finset.range k, (1 - a) := by simp; ring
    calc |(∑ i ∈ Finset.range k, coverage ppf (M i) (chunk rows (rows.length / k) i) a) / k - (1 - a)| * k
        = |∑ i ∈ Finset.range k, (coverage ppf (M i) (chunk rows (rows.length / k) i) a - (1 - a))| := by
          rw [Finset.sum_sub_distrib, ← e]
          rw [← abs_of_pos hk, ← abs_mul, abs_of_pos hk]
          congr 1
          field_simp
      _ ≤ _ := Finset.abs_sum_le_sum_abs _ _
  · have hk : (0 : ℝ) < k := by have := h.two; positivity
    rw [div_le_one hk]
    calc _ ≤ ∑ i ∈ Finset.range k, (1 : ℝ) := by
          apply Finset.sum_le_sum
          intro i _
          unfold coverageError
          rw [div_le_one (by norm_num)]
          calc _ ≤ (levels.map fun _ => (1 : ℝ)).sum := by
                apply sum_map_le
                intro a ha
                have h1 := levels_range a ha
                have h2 := C61_coverage_range ppf (M i) (chunk rows (rows.length / k) i) a
                rw [abs_le]
                norm_num at h1
                constructor <;> linarith [h1.1, h1.2, h2.1, h2.2]
            _ = 20 := by rw [List.map_const', List.sum_replicate, levels_length]; norm_num
      _ = k := by simp

/-- **C84 refuted.** With leave-one-out the score is never below 0.02, however good the coverage is: it is the mean of
`c a + (1 - c) (1 - a)` where `c` is the coverage at level `a`. -/
theorem C84_refuted_leave_one_out (ppf : ℝ → ℝ) (fit : List (X × ℝ) → Option (Fitted X)) (rows : List (X × ℝ))
    (M : ℕ → Fitted X) (h : CrossModels fit rows rows.length M) :
    ∃ score, ∃ delta : ℝ → ℝ, iaeAlphaScore ppf fit rows = .ok (score, levels, levels.map delta) ∧
      score = (levels.map fun a => delta a * a + (1 - delta a) * (1 - a)).sum / 20 ∧ 0.02 ≤ score := by
  have hk : (0 : ℝ) < rows.length := by have := h.two; positivity
  refine ⟨_, _, C84_value ppf fit rows rows.length M h, ?_⟩
  have h01 : ∀ i < rows.length, ∀ a, coverage ppf (M i) (chunk rows (rows.length / rows.length) i) a = 0 ∨
      coverage ppf (M i) (chunk rows (rows.length / rows.length) i) a = 1 := by
    intro i hi a
    rw [(C61_leave_one_out rows i hi).1]
    unfold coverage
    simp only [List.length_singleton, Nat.cast_one, div_one, List.countP_singleton]
    split_ifs
    · right; simp
    · left; simp
  have habs : ∀ i < rows.length, ∀ a ∈ levels,
      |coverage ppf (M i) (chunk rows (rows.length / rows.length) i) a - (1 - a)| =
        coverage ppf (M i) (chunk rows (rows.length / rows.length) i) a * a +
        (1 - coverage ppf (M i) (chunk rows (rows.length / rows.length) i) a) * (1 - a) := by
    intro i hi a ha
    have hr := levels_range a ha
    norm_num at hr
    rcases h01 i hi a with h0 | h0
    · rw [h0, zero_sub, abs_neg, abs_of_nonneg (by linarith [hr.2])]; ring
    · rw [h0, abs_of_nonneg (by linarith [hr.1])]; ring
  have hval : (∑ i ∈ Finset.range rows.length,
        coverageError (coverage ppf (M i) (chunk rows (rows.length / rows.length) i))) / rows.length =
      (levels.map fun a => (∑ i ∈ Finset.range rows.length,
          coverage ppf (M i) (chunk rows (rows.length / rows.length) i) a) / rows.length * a +
        (1 - (∑ i ∈ Finset.range rows.length,
          coverage ppf (M i) (chunk rows (rows.length / rows.length) i) a) / rows.length) * (1 - a)).sum / 20 := by
    unfold coverageError
    rw [← Finset.sum_div, ← sum_map_finset, div_right_comm, ← sum_map_div _ _ (rows.length : ℝ)]
    congr 2
    refine List.map_congr_left fun a ha => ?_
    rw [Finset.sum_congr rfl fun i hi => habs i (Finset.mem_range.1 hi) a ha, Finset.sum_add_distrib,
      ← Finset.sum_mul, ← Finset.sum_mul, Finset.sum_sub_distrib]
    simp only [Finset.sum_const, Finset.card_range, nsmul_eq_mul, mul_one]
    field_simp
  refine ⟨hval, ?_⟩
  rw [le_div_iff₀ hk]
  calc (0.02 : ℝ) * rows.length = ∑ i ∈ Finset.range rows.length, (0.02 : ℝ) := by simp; ring
    _ ≤ _ := by
      apply Finset.sum_le_sum
      intro i hi
      unfold coverageError
      rw [le_div_iff₀ (by norm_num)]
      calc (0.02 : ℝ) * 20 = (levels.map fun _ => (0.02 : ℝ)).sum := by
            rw [List.map_const', List.sum_replicate, levels_length]; norm_num
        _ ≤ _ := by
          apply sum_map_le
          intro a ha
          rw [habs i (Finset.mem_range.1 hi) a ha]
          have hr := levels_range a ha
          norm_num at hr ⊢
          rcases h01 i (Finset.mem_range.1 hi) a with h0 | h0 <;> rw [h0] <;> linarith [hr.1, hr.2]

/-- **C84 refuted.** The score is not the error of the coverage: two rows, one always covered, the other never. -/
theorem C84_refuted_score (ppf : ℝ → ℝ) : ∃ (fit : List (ℝ × ℝ) → Option (Fitted ℝ)) (rows : List (ℝ × ℝ))
    (score : ℝ) (delta : ℝ → ℝ), iaeAlphaScore ppf fit rows = .ok (score, levels, levels.map delta) ∧
      coverageError delta < score := by
  have hM : CrossModels (X := ℝ) (fun _ => some ⟨fun _ => 0, fun _ => 0⟩) [(0, 0), (1, 1)]
      ([((0 : ℝ), (0 : ℝ)), (1, 1)] : List (ℝ × ℝ)).length (fun _ => ⟨fun _ => 0, fun _ => 0⟩) :=
    ⟨by norm_num, le_refl _, fun _ _ => rfl⟩
  have hv := C84_value ppf _ _ _ _ hM
  refine ⟨_, _, _, _, hv, ?_⟩
  have hc0 : ∀ a, coverage ppf (⟨fun _ => 0, fun _ => 0⟩ : Fitted ℝ) [(0, 0)] a = 1 := by
    intro a; simp [coverage]
  have hc1 : ∀ a, coverage ppf (⟨fun _ => 0, fun _ => 0⟩ : Fitted ℝ) [(1, 1)] a = 0 := by
    intro a
    have : ¬ ((1 : ℝ) ≤ 0) := by norm_num
    simp [coverage, this]
  have e0 : chunk [((0 : ℝ), (0 : ℝ)), (1, 1)] 1 0 = [(0, 0)] := rfl
  have e1 : chunk [((0 : ℝ), (0 : ℝ)), (1, 1)] 1 1 = [(1, 1)] := rfl
  have hl : ([((0 : ℝ), (0 : ℝ)), (1, 1)] : List (ℝ × ℝ)).length = 2 := rfl
  simp only [hl, Nat.div_self (show 0 < 2 by norm_num), Finset.sum_range_succ, Finset.sum_range_zero, zero_add, e0, e1,
    hc0, hc1, coverageError]
  have f1 : (levels.map fun a => |(1 : ℝ) - (1 - a)|).sum + (levels.map fun a => |(0 : ℝ) - (1 - a)|).sum = 20 := by
    rw [← List.sum_map_add]
    have : (levels.map fun a => |(1 : ℝ) - (1 - a)| + |(0 : ℝ) - (1 - a)|) = levels.map fun _ => (1 : ℝ) := by
      refine List.map_congr_left fun a ha => ?_
      have hr := levels_range a ha
      norm_num at hr
      rw [abs_of_nonneg (by linarith [hr.1]), abs_of_nonpos (by linarith [hr.2])]
      ring
    rw [this, List.map_const', List.sum_replicate, levels_length]
    norm_num
  have f2 : (levels.map fun a => |((1 : ℝ) + 0) / (2 : ℕ) - (1 - a)|).sum ≤ (levels.map fun _ => (0.48 : ℝ)).sum := by
    apply sum_map_le
    intro a ha
    have hr := levels_range a ha
    norm_num at hr ⊢
    rw [abs_le]
    constructor <;> linarith [hr.1, hr.2]
  have f3 : (levels.map fun _ => (0.48 : ℝ)).sum = 9.6 := by
    rw [List.map_const', List.sum_replicate, levels_length]; norm_num
  rw [f3] at f2
  rw [← add_div, f1]
  norm_num at f2 ⊢
  linarith

end Verif.Props
