import Verif.Model.Facade
import Verif.Spec.Best
import Verif.Props.MoeAuto
import Mathlib.Tactic.FieldSimp
import Mathlib.Tactic.Linarith

/-!
# Constraints seen by the optimizers of the infill criterion (C109)
-/

set_option autoImplicit false

namespace Verif.Props

open Verif Facade Coego Spec

variable {α : Type}

/-- The value of a constraint is respected: a number which is not positive. -/
def Respected (v : Flt) : Prop := v ≠ .nan ∧ toE v ≤ 0

theorem respected_fin (q : ℚ) : Respected (.fin q) ↔ q ≤ 0 := by
  simp only [Respected, toE, ne_eq, reduceCtorEq, not_false_eq_true, true_and]
  rw [show (0 : EReal) = ((0 : ℝ) : EReal) from rfl, EReal.coe_le_coe_iff]
  exact_mod_cast Iff.rfl

theorem respected_ninf : Respected .ninf := by simp [Respected, toE]

theorem respected_pinf : ¬ Respected .pinf := by simp [Respected, toE]

theorem respected_nan : ¬ Respected .nan := by simp [Respected]

theorem le_fin (a b : ℚ) : Flt.le (.fin a) (.fin b) = true ↔ a ≤ b := by
  simp only [Flt.le, Flt.lt, Flt.feq, Flt.cmp]
  split_ifs with h1 h2 <;> simp <;> linarith

theorem le_nan (a : Flt) : Flt.le a .nan = false := by cases a <;> rfl

theorem nan_le (a : Flt) : Flt.le .nan a = false := by cases a <;> rfl

/-- With a null tolerance and a scale which is a non-zero number, the three conventions say the same. -/
theorem holds_iff (lib : Lib) (v s : Flt) (hs : Flt.div .zero s = .fin 0) :
    holds lib (handed lib v .zero s) .zero s = true ↔ Respected v := by
  cases v with
  | nan => cases lib <;> simp [holds, handed, hs, Flt.neg, Flt.add, Flt.sub, respected_nan, le_nan, nan_le]
  | ninf =>
    simp only [respected_ninf, iff_true]
    cases lib <;> simp only [holds, handed, hs] <;> rfl
  | pinf =>
    simp only [respected_pinf, iff_false]
    cases lib <;> simp only [holds, handed, hs] <;> decide
  | fin q =>
    rw [respected_fin]
    cases lib <;> simp only [holds, handed, hs, Flt.neg, Flt.add, Flt.sub] <;>
      first
        | rw [show Flt.zero = .fin 0 from rfl, le_fin]; constructor <;> intro h <;> linarith
        | rw [le_fin]

/-- With an undefined tolerance no value is accepted. -/
theorem holds_nan (lib : Lib) (v s : Flt) (hs : Flt.div .zero s = .nan) :
    holds lib (handed lib v .zero s) .zero s = false := by
  cases lib <;> cases v <;> simp [holds, handed, hs, Flt.neg, Flt.add, Flt.sub, le_nan, nan_le]

theorem zero_div (s : Flt) : Flt.div .zero s = .fin 0 ∨ Flt.div .zero s = .nan := by
  cases s <;> simp [Flt.div, Flt.zero]
  exact (em _).symm

theorem respected_div {q : ℚ} (hq : 0 < q) (v : Flt) : Respected (Flt.div v (.fin q)) ↔ Respected v := by
  cases v with
  | nan => simp [Flt.div]
  | ninf => simp [Flt.div, not_lt.2 hq.le]
  | pinf => simp [Flt.div, not_lt.2 hq.le]
  | fin a =>
    simp only [Flt.div, hq.ne', if_false, respected_fin]
    constructor
    · intro h; by_contra hc; exact absurd (div_pos (not_le.1 hc) hq) (not_lt.2 h)
    · intro h; exact div_nonpos_of_nonpos_of_nonneg h hq.le

theorem judgeFrom_ok {lib : Lib} {o : Opt α} {x : List α} :
    ∀ (fs : List (List α → Except Panic Flt)) (P : ℕ → Prop) (i : ℕ),
      (∀ k (hk : k < fs.length), ∃ b, judge lib o x fs[k] (i + k) = .ok b ∧ (b = true ↔ P k)) →
      ∃ b, judgeFrom lib o x i fs = .ok b ∧ (b = true ↔ ∀ k < fs.length, P k) := by
  intro fs
  induction fs with
  | nil => intro P i _; exact ⟨true, rfl, by simp⟩
  | cons f fs ih =>
    intro P i h
    obtain ⟨b, hb, hP⟩ := h 0 (by simp)
    obtain ⟨r, hr, hR⟩ := ih (fun k => P (k + 1)) (i + 1) (fun k hk => by
      have := h (k + 1) (by simpa using hk)
      simpa [Nat.add_assoc, Nat.add_comm 1 k] using this)
    refine ⟨b && r, ?_, ?_⟩
    · simp only [judgeFrom]
      simp only [Nat.add_zero, List.getElem_cons_zero] at hb
      simp [hb, hr, bind, Except.bind]
    · rw [Bool.and_eq_true, hP, hR]
      constructor
      · rintro ⟨h0, h1⟩ k hk
        cases k with
        | zero => exact h0
        | succ k => exact h1 k (by simpa using hk)
      · intro h'
        exact ⟨h' 0 (by simp), fun k hk => h' (k + 1) (by simpa using hk)⟩

theorem tols_new (p : SubPb α) (i : ℕ) (hi : i < p.cons.length) : elemAt p.opt.tols i = .ok .zero := by
  have hl : i < (List.replicate p.cons.length Flt.zero).length := by simpa using hi
  simp only [elemAt, Opt.tols, SubPb.opt, Opt.new, Option.getD_none]
  rw [List.getElem?_eq_getElem hl, List.getElem_replicate]

/-- **C109**. Whatever the library and the algorithm, the points taken as feasible by the optimizer of the infill
criterion are those where every surrogate constraint (unless it is part of the criterion) and every function
constraint is respected, i.e. is a number which is not positive: scaling does not change them. -/
theorem C109_accepted_iff_partial (lib : Lib) (p : SubPb α) (x xc : List α)
    (hx : setActive p.xbest p.active x = .ok xc)
    (hs : p.surrScales.length = p.surr.length) (hf : p.fcstrScales.length = p.fcstr.length)
    (hpos : ∀ s ∈ p.surrScales ++ p.fcstrScales, ∃ q : ℚ, 0 < q ∧ s = .fin q) :
    ∃ b, accepts lib p.opt x = .ok b ∧
      (b = true ↔ (p.cstrInfill = false → ∀ g ∈ p.surr, Respected (g xc)) ∧ ∀ g ∈ p.fcstr, Respected (g x)) := by
  have hget : ∀ i < p.allScales.length, ∃ q : ℚ, 0 < q ∧ elemAt p.allScales i = .ok (.fin q) := by
    intro i hi
    obtain ⟨q, hq, h⟩ := hpos _ (List.getElem_mem hi)
    refine ⟨q, hq, ?_⟩
    simp only [elemAt, List.getElem?_eq_getElem hi]
    rw [h]
  have hgetf : ∀ i < p.fcstr.length, ∃ q : ℚ, 0 < q ∧ elemAt p.fcstrScales i = .ok (.fin q) := by
    intro i hi
    have hi' : i < p.fcstrScales.length := by omega
    obtain ⟨q, hq, h⟩ := hpos p.fcstrScales[i] (List.mem_append_right _ (List.getElem_mem hi'))
    refine ⟨q, hq, ?_⟩
    simp only [elemAt, List.getElem?_eq_getElem hi']
    rw [h]
  have hall : p.allScales.length = p.surr.length + p.fcstr.length := by simp [SubPb.allScales, hs, hf]
  -- one constraint
  have one : ∀ k (hk : k < p.cons.length) (v : Flt), p.cons[k] x = .ok v →
      ∃ b, judge lib p.opt x p.cons[k] (0 + k) = .ok b ∧ (b = true ↔ Respected v) := by
    intro k hk v hv
    have hk' : k < p.allScales.length := by
      have : p.cons.length ≤ p.surr.length + p.fcstr.length := by
        simp only [SubPb.cons, List.length_append, List.length_mapIdx]; split_ifs <;> simp
      omega
    obtain ⟨q, hq, h⟩ := hget k hk'
    refine ⟨_, ?_, holds_iff lib v (.fin q) (by simp [Flt.div, Flt.zero, hq.ne'])⟩
    simp only [judge, Nat.zero_add, tols_new p k hk, hv]
    simp [SubPb.opt, Opt.new, scaleAt, h, bind, Except.bind]
  have surr : ∀ k (hk : k < p.surr.length), ∃ q : ℚ, 0 < q ∧
      surrCall p k p.surr[k] x = .ok (Flt.div (p.surr[k] xc) (.fin q)) := by
    intro k hk
    obtain ⟨q, hq, h⟩ := hget k (by omega)
    refine ⟨q, hq, ?_⟩
    simp [surrCall, hx, scaleAt, h, bind, Except.bind]
  have fc : ∀ k (hk : k < p.fcstr.length), ∃ q : ℚ, 0 < q ∧
      fcstrCallAt p k p.fcstr[k] x = .ok (Flt.div (p.fcstr[k] x) (.fin q)) := by
    intro k hk
    obtain ⟨q, hq, h⟩ := hgetf k hk
    refine ⟨q, hq, ?_⟩
    simp [fcstrCallAt, h, bind, Except.bind]
  cases hc : p.cstrInfill with
  | true =>
    have hcons : p.cons = p.fcstr.mapIdx (fcstrCallAt p) := by simp [SubPb.cons, hc]
    have hlen : p.cons.length = p.fcstr.length := by simp [hcons]
    obtain ⟨b, hb, hP⟩ := judgeFrom_ok (lib := lib) (o := p.opt) (x := x) p.cons
      (fun k => ∀ hk : k < p.fcstr.length, Respected (p.fcstr[k] x)) 0 (fun k hk => by
        have hk' : k < p.fcstr.length := by omega
        obtain ⟨q, hq, h⟩ := fc k hk'
        obtain ⟨b, hb, hb'⟩ := one k hk _ (by rw [List.getElem_of_eq hcons, List.getElem_mapIdx]; exact h)
        refine ⟨b, hb, ?_⟩
        rw [hb', respected_div hq]
        simp [hk'])
    refine ⟨b, hb, ?_⟩
    rw [hP]
    simp only [Bool.true_eq_false, false_implies, true_and]
    constructor
    · intro h g hg
      obtain ⟨k, hk, rfl⟩ := List.getElem_of_mem hg
      exact h k (by omega) hk
    · intro h k _ hk
      exact h _ (List.getElem_mem hk)
  | false =>
    have hcons : p.cons = p.surr.mapIdx (surrCall p) ++ p.fcstr.mapIdx (fcstrCallAt p) := by simp [SubPb.cons, hc]
    have hlen : p.cons.length = p.surr.length + p.fcstr.length := by simp [hcons]
    obtain ⟨b, hb, hP⟩ := judgeFrom_ok (lib := lib) (o := p.opt) (x := x) p.cons
      (fun k => (∀ hk : k < p.surr.length, Respected (p.surr[k] xc)) ∧
        ∀ j, k = p.surr.length + j → ∀ hj : j < p.fcstr.length, Respected (p.fcstr[j] x)) 0 (fun k hk => by
        by_cases hks : k < p.surr.length
        · obtain ⟨q, hq, h⟩ := surr k hks
          obtain ⟨b, hb, hb'⟩ := one k hk _ (by
            rw [List.getElem_of_eq hcons, List.getElem_append_left (by simpa using hks)]
            simp only [List.getElem_mapIdx]
            exact h)
          refine ⟨b, hb, ?_⟩
          rw [hb', respected_div hq]
          simp only [hks, forall_true_left]
          constructor
          · intro h; exact ⟨h, fun j hj => by omega⟩
          · intro h; exact h.1
        · obtain ⟨j, rfl⟩ : ∃ j, k = p.surr.length + j := ⟨k - p.surr.length, by omega⟩
          have hj : j < p.fcstr.length := by omega
          obtain ⟨q, hq, h⟩ := fc j hj
          obtain ⟨b, hb, hb'⟩ := one (p.surr.length + j) hk _ (by
            rw [List.getElem_of_eq hcons, List.getElem_append_right (by simp)]
            simp only [List.getElem_mapIdx, List.length_mapIdx, Nat.add_sub_cancel_left]
            exact h)
          refine ⟨b, hb, ?_⟩
          rw [hb', respected_div hq]
          constructor
          · intro h
            refine ⟨fun h => absurd h hks, fun j' hj' hl => ?_⟩
            obtain rfl : j = j' := by omega
            exact h
          · intro h; exact h.2 j rfl hj)
    refine ⟨b, hb, ?_⟩
    rw [hP]
    simp only [forall_true_left]
    constructor
    · intro h
      refine ⟨fun g hg => ?_, fun g hg => ?_⟩
      · obtain ⟨k, hk, rfl⟩ := List.getElem_of_mem hg
        exact (h k (by omega)).1 hk
      · obtain ⟨k, hk, rfl⟩ := List.getElem_of_mem hg
        exact (h (p.surr.length + k) (by omega)).2 k rfl hk
    · rintro ⟨h1, h2⟩ k _
      exact ⟨fun hk => h1 _ (List.getElem_mem hk), fun j _ hj => h2 _ (List.getElem_mem hj)⟩

theorem judge_same (lib lib' : Lib) (o : Opt α) (ho : o.tol = none) (x : List α) (f : List α → Except Panic Flt)
    (i : ℕ) : judge lib o x f i = judge lib' o x f i := by
  unfold judge
  rcases ht : elemAt o.tols i with e | t
  · rfl
  rcases hs : scaleAt o.scale i with e | s
  · rfl
  rcases hv : f x with e | v
  · rfl
  have ht0 : t = .zero := by
    simp only [elemAt, Opt.tols, ho, Option.getD_none] at ht
    split at ht
    · cases ht
    · rename_i s' h
      have := List.mem_of_getElem? h
      simp only [List.mem_replicate] at this
      simp only [Except.ok.injEq] at ht
      rw [← ht, this.2]
  subst ht0
  simp only [bind, Except.bind, Except.ok.injEq]
  rcases zero_div s with h | h
  · rw [Bool.eq_iff_iff, holds_iff lib v s h, holds_iff lib' v s h]
  · rw [holds_nan lib v s h, holds_nan lib' v s h]

/-- **C109**. All the libraries see the same constraints, whatever the values and the scales (NaN and infinities
included): the same points are taken as feasible, and a panic of one is a panic of the others. -/
theorem C109_same_for_all_libraries (lib lib' : Lib) (p : SubPb α) (x : List α) :
    accepts lib p.opt x = accepts lib' p.opt x := by
  simp only [accepts]
  generalize p.opt.cons = fs
  generalize 0 = i
  induction fs generalizing i with
  | nil => rfl
  | cons f fs ih => simp only [judgeFrom, judge_same lib lib' p.opt rfl x f i, ih (i + 1)]

theorem judgeFrom_not_true {lib : Lib} {o : Opt α} {x : List α} :
    ∀ (fs : List (List α → Except Panic Flt)) (i k : ℕ) (hk : k < fs.length),
      judge lib o x fs[k] (i + k) ≠ .ok true → judgeFrom lib o x i fs ≠ .ok true := by
  intro fs
  induction fs with
  | nil => intro i k hk; simp at hk
  | cons f fs ih =>
    intro i k hk h hc
    simp only [judgeFrom] at hc
    rcases hb : judge lib o x f i with e | b
    · simp [hb, bind, Except.bind] at hc
    rcases hr : judgeFrom lib o x (i + 1) fs with e | r
    · simp [hb, hr, bind, Except.bind] at hc
    simp only [hb, hr, bind, Except.bind, Except.ok.injEq, Bool.and_eq_true] at hc
    cases k with
    | zero => exact h (by simp [hb, hc.1])
    | succ k =>
      refine ih (i + 1) k (by simpa using hk) ?_ (by rw [hr, hc.2])
      simpa [Nat.add_assoc, Nat.add_comm 1 k] using h

/-- **C109**. One scale which is zero or NaN is enough for no point at all to be taken as feasible: the scales are
looked up by the position of the constraint among the constraints of the optimizer. -/
theorem C109_null_scale (lib : Lib) (p : SubPb α) (x : List α) (i : ℕ) (hi : i < p.cons.length)
    (hs : (p.surrScales ++ p.fcstrScales)[i]? = some (.fin 0) ∨ (p.surrScales ++ p.fcstrScales)[i]? = some .nan) :
    accepts lib p.opt x ≠ .ok true := by
  refine judgeFrom_not_true p.cons 0 i hi ?_
  have : ∃ s, elemAt p.allScales i = .ok s ∧ Flt.div .zero s = .nan := by
    rcases hs with h | h
    · exact ⟨.fin 0, by simp [elemAt, SubPb.allScales, h], by simp [Flt.div, Flt.zero]⟩
    · exact ⟨.nan, by simp [elemAt, SubPb.allScales, h], by simp [Flt.div, Flt.zero]⟩
  obtain ⟨s, h1, h2⟩ := this
  simp only [judge, Nat.zero_add, tols_new p i hi]
  rcases hv : p.cons[i] x with e | v
  · simp [SubPb.opt, Opt.new, scaleAt, h1, bind, Except.bind]
  · simp [SubPb.opt, Opt.new, scaleAt, h1, bind, Except.bind, holds_nan lib v s h2]

/-! ## Scaling factors -/

theorem maxFlt_spec (l : List Flt) (hne : l ≠ []) (hn : ∀ e ∈ l, e ≠ .nan) :
    ∃ m, Moe.maxFlt l = .ok m ∧ m ∈ l ∧ ∀ e ∈ l, toE e ≤ toE m := by
  cases l with
  | nil => exact absurd rfl hne
  | cons e es =>
    obtain ⟨m, h1, _, _, h4, h5⟩ := maxLoop_spec (e :: es) e (hn e (by simp)) hn
    exact ⟨m, h1, by rcases h5 with rfl | h5 <;> simp_all, h4⟩

theorem maxLoop_nan (l : List Flt) (h : Flt.nan ∈ l) : ∀ cur, Moe.maxLoop cur l = .error .undefinedOrder := by
  induction l with
  | nil => simp at h
  | cons e es ih =>
    intro cur
    unfold Moe.maxLoop
    rcases List.mem_cons.1 h with rfl | h
    · simp [Flt.cmp]
    · split
      · rfl
      · exact ih h _
      · exact ih h _

theorem maxFlt_nan (l : List Flt) (h : Flt.nan ∈ l) : Moe.maxFlt l = .error .undefinedOrder := by
  cases l with
  | nil => simp at h
  | cons e es => exact maxLoop_nan _ h _

theorem toE_fin_le (a b : ℚ) : toE (.fin a) ≤ toE (.fin b) ↔ a ≤ b := by
  simp only [toE, EReal.coe_le_coe_iff]
  exact_mod_cast Iff.rfl

/-- **C109**. The scale of a surrogate constraint is always a number which is not negative; it is null exactly when
the finite predictions at the scaling points are all null (there is one, and no NaN); if no prediction is NaN it is
at least the absolute value of every finite prediction. -/
theorem C109_surrogate_scale (preds : List Flt) :
    ∃ q : ℚ, 0 ≤ q ∧ surrScale preds = .fin q ∧
      (q = 0 ↔ .nan ∉ preds ∧ (∃ a, .fin a ∈ preds) ∧ ∀ a, .fin a ∈ preds → a = 0) ∧
      (.nan ∉ preds → ∀ a, .fin a ∈ preds → |a| ≤ q) := by
  set l := (preds.filter notInf).map Flt.abs with hl
  have hmem : ∀ e, e ∈ l ↔ (e = .nan ∧ .nan ∈ preds) ∨ ∃ a : ℚ, e = .fin |a| ∧ .fin a ∈ preds := by
    intro e
    simp only [hl, List.mem_map, List.mem_filter]
    constructor
    · rintro ⟨v, ⟨h1, h2⟩, rfl⟩
      cases v with
      | nan => left; exact ⟨rfl, h1⟩
      | fin a => right; exact ⟨a, rfl, h1⟩
      | pinf => simp [notInf] at h2
      | ninf => simp [notInf] at h2
    · rintro (⟨rfl, h⟩ | ⟨a, rfl, h⟩)
      · exact ⟨.nan, ⟨h, rfl⟩, rfl⟩
      · exact ⟨.fin a, ⟨h, rfl⟩, rfl⟩
  have hdef : surrScale preds = match Moe.maxFlt l with
    | .ok m => m
    | .error _ => .fin 1 := rfl
  by_cases hnan : Flt.nan ∈ preds
  · refine ⟨1, by norm_num, ?_, by simp [hnan], fun h => absurd hnan h⟩
    rw [hdef, maxFlt_nan l ((hmem _).2 (Or.inl ⟨rfl, hnan⟩))]
  · by_cases hex : ∃ a, Flt.fin a ∈ preds
    · obtain ⟨a, ha⟩ := hex
      obtain ⟨m, h1, h2, h3⟩ := maxFlt_spec l
        (List.ne_nil_of_mem ((hmem (.fin |a|)).2 (Or.inr ⟨a, rfl, ha⟩)))
        (by rintro e he rfl; rcases (hmem _).1 he with h | ⟨b, h, _⟩
            · exact hnan h.2
            · cases h)
      obtain ⟨b, rfl, hb⟩ : ∃ b : ℚ, m = .fin |b| ∧ .fin b ∈ preds := by
        rcases (hmem _).1 h2 with h | h
        · exact absurd h.2 hnan
        · exact h
      have hle : ∀ c, Flt.fin c ∈ preds → |c| ≤ |b| := fun c hc =>
        (toE_fin_le _ _).1 (h3 _ ((hmem _).2 (Or.inr ⟨c, rfl, hc⟩)))
      refine ⟨|b|, abs_nonneg _, by rw [hdef, h1], ?_, fun _ => hle⟩
      constructor
      · intro h0
        refine ⟨hnan, ⟨a, ha⟩, fun c hc => ?_⟩
        have := hle c hc
        rw [h0] at this
        exact abs_eq_zero.1 (le_antisymm this (abs_nonneg _))
      · rintro ⟨_, _, h⟩
        rw [h b hb, abs_zero]
    · refine ⟨1, by norm_num, ?_, by simp [hex], fun _ c hc => absurd ⟨c, hc⟩ hex⟩
      have : l = [] := by
        rw [List.eq_nil_iff_forall_not_mem]
        intro e he
        rcases (hmem _).1 he with h | ⟨c, _, hc⟩
        · exact hnan h.2
        · exact hex ⟨c, hc⟩
      rw [hdef, this]
      rfl

/-- **C109**. The scale of a function constraint is computed unless one of its values at the scaling points is NaN (or
there is no point), in which case the code panics; it is null exactly when these values are all null. -/
theorem C109_function_scale (vals : List Flt) :
    ((∃ s, fcstrScale vals = .ok s) ↔ vals ≠ [] ∧ .nan ∉ vals) ∧
    ∀ s, fcstrScale vals = .ok s → (s = .pinf ∨ ∃ q : ℚ, 0 ≤ q ∧ s = .fin q) ∧
      (s = .fin 0 ↔ ∀ v ∈ vals, v = .fin 0) := by
  have hnn : .nan ∈ vals.map Flt.abs ↔ Flt.nan ∈ vals := by
    simp only [List.mem_map]
    constructor
    · rintro ⟨v, h, e⟩; cases v <;> simp_all [Flt.abs]
    · intro h; exact ⟨_, h, rfl⟩
  have hspec : vals ≠ [] → .nan ∉ vals →
      ∃ m, fcstrScale vals = .ok m ∧ m ∈ vals.map Flt.abs ∧ ∀ e ∈ vals.map Flt.abs, toE e ≤ toE m := fun h1 h2 =>
    maxFlt_spec _ (by simpa using h1) (fun e he hc => h2 (hnn.1 (hc ▸ he)))
  have hfwd : ∀ s, fcstrScale vals = .ok s → vals ≠ [] ∧ .nan ∉ vals := by
    intro s h
    constructor
    · rintro rfl; simp [fcstrScale, Moe.maxFlt] at h
    · intro hn; rw [fcstrScale, maxFlt_nan _ (hnn.2 hn)] at h; cases h
  refine ⟨⟨fun ⟨s, h⟩ => hfwd s h, fun h => ?_⟩, fun s hs => ?_⟩
  · obtain ⟨m, h, _⟩ := hspec h.1 h.2; exact ⟨m, h⟩
  · obtain ⟨h1, h2⟩ := hfwd s hs
    obtain ⟨m, hm, hmem, hle⟩ := hspec h1 h2
    rw [hs, Except.ok.injEq] at hm
    subst hm
    obtain ⟨v, hv, rfl⟩ := List.mem_map.1 hmem
    refine ⟨?_, ?_, ?_⟩
    · cases v with
      | nan => exact absurd hv h2
      | ninf => left; rfl
      | pinf => left; rfl
      | fin a => right; exact ⟨|a|, abs_nonneg _, rfl⟩
    · intro h0 w hw
      have hle' := hle _ (List.mem_map.2 ⟨w, hw, rfl⟩)
      rw [h0] at hle'
      cases w with
      | nan => exact absurd hw h2
      | ninf => simp [Flt.abs, toE] at hle'
      | pinf => simp [Flt.abs, toE] at hle'
      | fin a =>
        simp only [Flt.abs] at hle'
        rw [toE_fin_le] at hle'
        rw [abs_eq_zero.1 (le_antisymm hle' (abs_nonneg a))]
    · intro h; rw [h v hv]; simp [Flt.abs]

/-! ## Failures -/

/-- **C109**. The result of the facade has a finite value, hence is considered by the search of the next point,
exactly when the library ends without error with a finite value: an error never looks like a success. -/
theorem C109_failure_iff (r : Except (List α) (List α × Flt)) :
    isFinite (outcome r).1 = true ↔ ∃ x q, r = .ok (x, .fin q) ∧ outcome r = (.fin q, x) := by
  rcases r with x | ⟨x, y⟩
  · simp [outcome, isFinite]
  · cases y <;> simp [outcome, isFinite]

/-- **C109**. A failed optimization is never better than another result. -/
theorem C109_failure_not_selected (x : List α) (y : Flt) : Flt.lt (outcome (.error x : Except (List α) (List α × Flt))).1 y =
    false := by cases y <;> rfl

/-- **C109**. Were tolerances given, all libraries would accept the values which exceed zero by the tolerance divided
by the scale, at most. -/
theorem C109_tolerance (lib : Lib) (o : Opt α) (x : List α) (f : List α → Except Panic Flt) (i : ℕ) (v t s : ℚ)
    (ht : elemAt o.tols i = .ok (.fin t)) (hs : scaleAt o.scale i = .ok (.fin s)) (hv : f x = .ok (.fin v))
    (h0 : s ≠ 0) : judge lib o x f i = .ok (decide (v ≤ t / s)) := by
  have hd : Flt.div (.fin t) (.fin s) = .fin (t / s) := by simp [Flt.div, h0]
  have key : holds lib (handed lib (.fin v) (.fin t) (.fin s)) (.fin t) (.fin s) = decide (v ≤ t / s) := by
    rw [Bool.eq_iff_iff, decide_eq_true_eq]
    cases lib <;> simp only [holds, handed, hd, Flt.neg, Flt.add, Flt.sub] <;>
      first
        | rw [show Flt.zero = .fin 0 from rfl, le_fin]; constructor <;> intro h <;> linarith
        | rw [le_fin]
  simp [judge, ht, hs, hv, bind, Except.bind, key]

/-- Case of `C109_tolerance`. -/
example : judge .slsqp (⟨[fun _ => .ok (.fin 3)], some [.fin 2], some [.fin 8]⟩ : Opt ℚ) [] (fun _ => .ok (.fin 3)) 0 =
    .ok true := by
  rw [C109_tolerance .slsqp _ _ _ 0 3 8 2 rfl rfl rfl (by norm_num)]
  norm_num

/-! ## Counterexamples -/

/-- **C109** is refuted: a point within the tolerance of the user (hence a feasible result for the run) is taken
as infeasible by all the optimizers: they use null tolerances. -/
theorem C109_refuted_tolerance : ∃ p : SubPb ℚ, p.cstrTols = [.fin (1 / 10)] ∧ p.surr.length = 1 ∧
    ∀ lib, accepts lib p.opt [0] = .ok false ∧
      FindResult.isFeasible (.fin 0 :: p.surr.map fun g => g [0]) [] p.cstrTols = .ok true := by
  refine ⟨⟨[0], [0], false, [fun _ => .fin (1 / 20)], [], [.fin 1], [], [.fin (1 / 10)]⟩, rfl, rfl, fun lib => ?_⟩
  cases lib <;> decide +kernel

/-- **C109** is refuted: a constraint whose predictions are null at the scaling points is respected at `[1]` (its
value is -1) but no optimizer takes this point as feasible. -/
theorem C109_refuted_null_scale : ∃ p : SubPb ℚ, p.surrScales = [surrScale [.fin 0, .fin 0]] ∧
    ∀ lib, (∀ g ∈ p.surr, g [1] = .fin (-1)) ∧ p.surr.length = 1 ∧ p.fcstr = [] ∧
      accepts lib p.opt [1] = .ok false := by
  refine ⟨⟨[0], [0], false, [fun x => .fin (-(x.getD 0 0))], [], [surrScale [.fin 0, .fin 0]], [], [.fin 0]⟩, rfl,
    fun lib => ⟨?_, rfl, rfl, ?_⟩⟩
  · decide +kernel
  · cases lib <;> decide +kernel

/-- **C109** is refuted: when the surrogate constraints are part of the criterion, the scale of the first surrogate
is used for the first function constraint: if it is null, the respected function constraint (-1 with its own scale
1) is taken as violated. -/
theorem C109_refuted_scale_of_another_constraint : ∃ p : SubPb ℚ, p.cstrInfill = true ∧ p.fcstrScales = [.fin 1] ∧
    (∀ g ∈ p.fcstr, g [0] = .fin (-1)) ∧ p.fcstr.length = 1 ∧ ∀ lib, accepts lib p.opt [0] = .ok false := by
  refine ⟨⟨[0], [0], true, [fun _ => .fin 0], [fun _ => .fin (-1)], [.fin 0], [.fin 1], []⟩, rfl, rfl, ?_, rfl,
    fun lib => ?_⟩
  · decide +kernel
  · cases lib <;> decide +kernel

/-- A sub-problem with two surrogates and a function constraint, with two variables of which the second is active:
the hypotheses of `C109_accepted_iff_partial` hold, one point is accepted and another is not. -/
def exSub : SubPb ℚ :=
  { xbest := [1, 2], active := [1], cstrInfill := false,
    surr := [fun x => .fin (x.sum - 5), fun x => .fin (x.getD 0 0 - 3)], fcstr := [fun x => .fin (x.getD 0 0 - 3)],
    surrScales := [.fin 4, .fin (1 / 2)], fcstrScales := [.fin 3], cstrTols := [.fin 0, .fin 0, .fin 0] }

example (x : ℚ) (lib : Lib) : ∃ b, accepts lib exSub.opt [x] = .ok b ∧ (b = true ↔ x ≤ 3) := by
  obtain ⟨b, h1, h2⟩ := C109_accepted_iff_partial lib exSub [x] [1, x] rfl rfl rfl (by
    intro s hs
    simp only [exSub, List.cons_append, List.nil_append, List.mem_cons, List.not_mem_nil, or_false] at hs
    rcases hs with rfl | rfl | rfl
    · exact ⟨4, by norm_num, rfl⟩
    · exact ⟨1 / 2, by norm_num, rfl⟩
    · exact ⟨3, by norm_num, rfl⟩)
  refine ⟨b, h1, h2.trans ?_⟩
  simp only [exSub, List.mem_cons, List.not_mem_nil, or_false, forall_eq_or_imp, forall_eq, respected_fin,
    List.getD_cons_zero, List.sum_cons, List.sum_nil, forall_true_left]
  constructor
  · intro h; linarith [h.2]
  · intro h; refine ⟨⟨by linarith, by norm_num⟩, by linarith⟩

example : (accepts .cobyla exSub.opt [3], accepts .slsqp exSub.opt [4]) = (.ok true, .ok false) := by decide +kernel

example : surrScale [.fin (-3), .pinf, .fin 2] = .fin 3 ∧ surrScale [.nan, .fin 2] = .fin 1 ∧
    fcstrScale [.fin (-3), .fin 2] = .ok (.fin 3) := by decide +kernel

example (x : List ℚ) : accepts .nlopt (⟨[0], [0], false, [fun _ => .fin (-1)], [], [.fin 0], [], []⟩ : SubPb ℚ).opt x ≠
    .ok true := C109_null_scale _ _ _ 0 (by decide) (Or.inl rfl)

end Verif.Props
