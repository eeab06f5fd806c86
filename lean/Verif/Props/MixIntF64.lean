import Verif.Props.DoeF64
import Verif.Props.MixIntModel
import Verif.Spec.MixIntF64
import Verif.Model.MixIntF64

/-!
# Mixed-integer points in floating point arithmetic (C132)
-/

set_option autoImplicit false

namespace Verif.Props

open Verif F64 Spec MixInt

/-! ## Casts -/

theorem closest_f64 (vs : List ℝ) (v : ℝ) (h : vs ≠ []) :
    ∃ c, MixIntF64.takeClosest vs v = .ok c ∧ c ∈ vs ∧ ∀ w ∈ vs, |rnd (v - c)| ≤ |rnd (v - w)| := by
  obtain ⟨k, hk, ha, hmin, _⟩ := MixInt.argmin_spec (vs.map fun r => |sub v r|) (by simpa using h)
  have hk' : k < vs.length := by simpa using hk
  refine ⟨vs[k], ?_, List.getElem_mem hk', ?_⟩
  · simp [MixIntF64.takeClosest, ha, bind, Except.bind, hk']
  · intro w hw
    have := hmin _ (List.mem_map.2 ⟨w, hw, rfl⟩)
    simpa [sub] using this

/-- The difference of two numbers is rounded to zero only if they are equal. -/
theorem rnd_sub_eq_zero {a b : ℝ} (ha : IsF64 a) (hb : IsF64 b) (h : rnd (a - b) = 0) : a = b := by
  have h1 := rnd_rel_sub hb ha
  have h2 : (2 : ℝ) ^ (-53 : ℤ) < 1 := by norm_num
  generalize (2 : ℝ) ^ (-53 : ℤ) = ε at *
  rw [h, zero_sub, abs_neg] at h1
  by_contra hne
  have : 0 < |a - b| := abs_pos.mpr (sub_ne_zero.mpr hne)
  nlinarith

theorem closest_f64_mem (vs : List ℝ) (v : ℝ) (hvs : ∀ w ∈ vs, IsF64 w) (h : v ∈ vs) :
    MixIntF64.takeClosest vs v = .ok v := by
  obtain ⟨c, hc, hm, hmin⟩ := closest_f64 vs v (List.ne_nil_of_mem h)
  have := hmin v h
  rw [sub_self, rnd_zero, abs_zero] at this
  have := abs_eq_zero.1 (le_antisymm this (abs_nonneg _))
  rw [hc, rnd_sub_eq_zero (hvs v h) (hvs c hm) this]

theorem closest_f64_nearly (vs : List ℝ) (v c : ℝ) (hv : IsF64 v) (hvs : ∀ w ∈ vs, IsF64 w) (hc : c ∈ vs)
    (hmin : ∀ w ∈ vs, |rnd (v - c)| ≤ |rnd (v - w)|) : IsClosest (2 ^ (-53 : ℤ)) vs v c := by
  refine ⟨hc, fun w hw => ?_⟩
  have h1 := rnd_rel_sub (hvs c hc) hv
  have h2 := rnd_rel_sub (hvs w hw) hv
  have h3 := hmin w hw
  generalize (2 : ℝ) ^ (-53 : ℤ) = ε at *
  have h4 : |v - c| - |rnd (v - c)| ≤ |rnd (v - c) - (v - c)| := by
    rw [abs_sub_comm (rnd (v - c)) (v - c)]; exact abs_sub_abs_le_abs_sub _ _
  have h5 : |rnd (v - w)| - |v - w| ≤ |rnd (v - w) - (v - w)| := abs_sub_abs_le_abs_sub _ _
  linarith

/-- Casting a row, `C` being what is known of the value of a list. -/
theorem castRow_f64_ind (P : List ℝ → ℝ → ℝ → Prop) (R : List (XType ℝ) → List ℝ → List ℝ → Prop) (hnil : R [] [] [])
    (hfloat : ∀ l u x ts xs us, R ts xs us → R (.float l u :: ts) (x :: xs) (x :: us))
    (hint : ∀ l u (x : ℝ) (z : ℤ) ts xs us, (∀ w : ℤ, |x - z| ≤ |x - w|) → R ts xs us →
      R (.int l u :: ts) (x :: xs) ((z : ℝ) :: us))
    (hord : ∀ vs x c ts xs us, P vs x c → R ts xs us → R (.ord vs :: ts) (x :: xs) (c :: us))
    (henum : ∀ (n k : ℕ) (a b : List ℝ) ts xs us, a.length = n → IsMask n k b →
      (∀ (i : ℕ) (hi : i < a.length) (hk : k < a.length), a[i] ≤ a[k] ∧ (i < k → a[i] < a[k])) →
      R ts xs us → R (.enum n :: ts) (a ++ xs) (b ++ us))
    (ts : List (XType ℝ)) (hok : ∀ t ∈ ts, TypeOk t) (x : List ℝ)
    (hP : ∀ vs, XType.ord vs ∈ ts → ∀ v ∈ x, ∃ c, MixIntF64.takeClosest vs v = .ok c ∧ P vs v c)
    (hl : x.length = relaxedDim ts) : ∃ x', MixIntF64.castRow ts x = .ok x' ∧ R ts x x' := by
  induction ts generalizing x with
  | nil =>
    have : x = [] := by simpa [relaxedDim] using hl
    subst this
    exact ⟨[], rfl, hnil⟩
  | cons t ts ih =>
    have hok' : ∀ t ∈ ts, TypeOk t := fun t ht => hok t (by simp [ht])
    have htok := hok t (by simp)
    cases t with
    | float l u =>
      simp only [relaxedDim, List.map_cons, List.sum_cons] at hl
      cases x with
      | nil => simp at hl; omega
      | cons a xs =>
        obtain ⟨x', h1, h2⟩ := ih hok' xs (fun vs hvs v hv => hP vs (by simp [hvs]) v (by simp [hv]))
          (by simp only [List.length_cons] at hl; simp only [relaxedDim]; omega)
        exact ⟨a :: x', by simp [MixIntF64.castRow, h1, bind, Except.bind], hfloat _ _ _ _ _ _ h2⟩
    | int l u =>
      simp only [relaxedDim, List.map_cons, List.sum_cons] at hl
      cases x with
      | nil => simp at hl; omega
      | cons a xs =>
        obtain ⟨x', h1, h2⟩ := ih hok' xs (fun vs hvs v hv => hP vs (by simp [hvs]) v (by simp [hv]))
          (by simp only [List.length_cons] at hl; simp only [relaxedDim]; omega)
        exact ⟨(roundHalfAway a : ℝ) :: x', by simp [MixIntF64.castRow, h1, bind, Except.bind],
          hint _ _ _ _ _ _ _ (round_nearest a) h2⟩
    | ord vs =>
      simp only [relaxedDim, List.map_cons, List.sum_cons] at hl
      cases x with
      | nil => simp at hl; omega
      | cons a xs =>
        obtain ⟨x', h1, h2⟩ := ih hok' xs (fun vs hvs v hv => hP vs (by simp [hvs]) v (by simp [hv]))
          (by simp only [List.length_cons] at hl; simp only [relaxedDim]; omega)
        obtain ⟨c, hc, hp⟩ := hP vs (by simp) a (by simp)
        exact ⟨c :: x', by simp [MixIntF64.castRow, h1, hc, bind, Except.bind], hord _ _ _ _ _ _ hp h2⟩
    | enum n =>
      simp only [relaxedDim, List.map_cons, List.sum_cons] at hl
      have hn : 1 ≤ n := htok
      have hle : n ≤ x.length := by omega
      obtain ⟨x', h1, h2⟩ := ih hok' (x.drop n)
        (fun vs hvs v hv => hP vs (by simp [hvs]) v (List.mem_of_mem_drop hv))
        (by simp only [List.length_drop, relaxedDim]; omega)
      have hlen : (x.take n).length = n := by simp; omega
      obtain ⟨k, hk, ha, hmax, hfst⟩ := argmax_spec (x.take n) (by intro hc; rw [hc] at hlen; simp at hlen; omega)
      refine ⟨oneHot n k ++ x', ?_, ?_⟩
      · simp [MixIntF64.castRow, hle, ha, h1, bind, Except.bind]
      · have := henum n k (x.take n) (oneHot n k) ts (x.drop n) x' hlen (oneHot_isMask (by omega))
          (fun i hi hk' => ⟨hmax _ (List.getElem_mem hi), fun hik => hfst i hik⟩) h2
        rwa [List.take_append_drop] at this

theorem castRow_f64_admissible {ts : List (XType ℝ)} (hF : ∀ t ∈ ts, IsF64Type t) {x : List ℝ} (h : Admissible ts x) :
    MixIntF64.castRow ts x = .ok x := by
  induction h with
  | nil => rfl
  | float _ ih => simp [MixIntF64.castRow, ih (fun t ht => hF t (by simp [ht])), bind, Except.bind]
  | int _ ih => simp [MixIntF64.castRow, ih (fun t ht => hF t (by simp [ht])), round_int, bind, Except.bind]
  | @ord vs a ts xs hm _ ih =>
    have hvs : ∀ w ∈ vs, IsF64 w := hF (.ord vs) (by simp)
    simp [MixIntF64.castRow, ih (fun t ht => hF t (by simp [ht])), closest_f64_mem vs a hvs hm, bind, Except.bind]
  | @enum n k b ts xs hb _ ih =>
    have hl := hb.1
    have h1 : (b ++ xs).take n = b := by rw [← hl, List.take_left]
    have h2 : (b ++ xs).drop n = xs := by rw [← hl, List.drop_left]
    simp [MixIntF64.castRow, h1, h2, argmax_mask hb, ih (fun t ht => hF t (by simp [ht])), bind, Except.bind, hl,
      ← isMask_eq_oneHot hb]

theorem NearlyCast.admissible {ε : ℝ} {ts : List (XType ℝ)} {x x' : List ℝ} (h : NearlyCast ε ts x x') :
    Admissible ts x' := by
  induction h with
  | nil => exact .nil
  | float _ ih => exact .float ih
  | int _ _ ih => exact .int ih
  | ord hc _ ih => exact .ord hc.1 ih
  | enum _ hb _ _ ih => exact .enum hb ih

/-- **C132**, casts. Casting a relaxed point of `f64` never panics for valid types, gives admissible discrete components
and casting again changes nothing; integers and categories are the nearest ones, values of lists are the nearest ones up
to the rounding of distances. -/
theorem C132_cast_partial (ts : List (XType ℝ)) (hok : ∀ t ∈ ts, TypeOk t) (hF : ∀ t ∈ ts, IsF64Type t) (x : List ℝ)
    (hx : ∀ v ∈ x, IsF64 v) (hl : x.length = relaxedDim ts) :
    ∃ x', MixIntF64.castRow ts x = .ok x' ∧ NearlyCast (2 ^ (-53 : ℤ)) ts x x' ∧ Admissible ts x' ∧
      MixIntF64.castRow ts x' = .ok x' := by
  obtain ⟨x', h1, h2⟩ := castRow_f64_ind (IsClosest (2 ^ (-53 : ℤ))) (NearlyCast (2 ^ (-53 : ℤ))) .nil
    (fun _ _ _ _ _ _ h => .float h) (fun _ _ _ _ _ _ _ h1 h2 => .int h1 h2) (fun _ _ _ _ _ _ h1 h2 => .ord h1 h2)
    (fun _ _ _ _ _ _ _ h1 h2 h3 h4 => .enum h1 h2 h3 h4) ts hok x (by
      intro vs hvs v hv
      obtain ⟨c, h1, h2, h3⟩ := closest_f64 vs v (hok _ hvs)
      exact ⟨c, h1, closest_f64_nearly vs v c (hx v hv) (hF _ hvs) h2 h3⟩) hl
  exact ⟨x', h1, h2, NearlyCast.admissible h2, castRow_f64_admissible hF (NearlyCast.admissible h2)⟩

/-- **C132**, casts. When the differences with the values of lists are numbers of type `f64` (for instance integers
below `2 ^ 53`, or numbers with a few decimals in base two), the cast gives nearest values. -/
theorem C132_cast_exact (ts : List (XType ℝ)) (hok : ∀ t ∈ ts, TypeOk t) (x : List ℝ) (hl : x.length = relaxedDim ts)
    (hd : ∀ vs, XType.ord vs ∈ ts → ∀ w ∈ vs, ∀ v ∈ x, IsF64 (v - w)) :
    ∃ x', MixIntF64.castRow ts x = .ok x' ∧ Cast ts x x' := by
  refine castRow_f64_ind (fun vs x c => c ∈ vs ∧ ∀ w ∈ vs, |x - c| ≤ |x - w|) Cast .nil
    (fun _ _ _ _ _ _ h => .float h) (fun _ _ _ _ _ _ _ h1 h2 => .int h1 h2)
    (fun _ _ _ _ _ _ h1 h2 => .ord h1.1 h1.2 h2)
    (fun _ _ _ _ _ _ _ h1 h2 h3 h4 => .enum h1 h2 h3 h4) ts hok x (by
      intro vs hvs v hv
      obtain ⟨c, h1, h2, h3⟩ := closest_f64 vs v (hok _ hvs)
      refine ⟨c, h1, h2, fun w hw => ?_⟩
      have := h3 w hw
      rwa [rnd_of_isF64 (hd vs hvs c h2 v hv), rnd_of_isF64 (hd vs hvs w hw v hv)] at this) hl

/-- **C132** fails: with the values `-1` and `1`, the value given to `2 ^ (-60)` is `-1`, the farthest one. -/
theorem C132_refuted_nearest : IsF64 (2 ^ (-60 : ℤ)) ∧
    MixIntF64.castRow [.ord [-1, 1]] [2 ^ (-60 : ℤ)] = .ok [-1] ∧ |(2 : ℝ) ^ (-60 : ℤ) - 1| < |2 ^ (-60 : ℤ) - -1| := by
  have e1 : rnd ((2 : ℝ) ^ (-60 : ℤ) - -1) = 1 := by
    have := rnd_eq (x := (2 : ℝ) ^ (-60 : ℤ) - -1) (n := 2 ^ 52) (e := -52) (by norm_num)
      (by norm_num) (by norm_num) (by norm_num)
    rw [this]; norm_num
  have e2 : rnd ((2 : ℝ) ^ (-60 : ℤ) - 1) = -1 := by
    have := rnd_eq (x := (2 : ℝ) ^ (-60 : ℤ) - 1) (n := -2 ^ 53) (e := -53) (by norm_num)
      (by norm_num) (by norm_num) (by norm_num)
    rw [this]; norm_num
  refine ⟨isF64_zpow (by norm_num), ?_, by norm_num⟩
  have h : MixIntF64.takeClosest [-1, 1] (2 ^ (-60 : ℤ)) = .ok (-1) := by
    simp only [MixIntF64.takeClosest, List.map_cons, List.map_nil, sub, e1, e2, abs_one, abs_neg, argmin, argminLoop,
      lt_irrefl, if_false, bind, Except.bind]
    rfl
  simp only [MixIntF64.castRow, h, bind, Except.bind]

/-! ## Samples -/

theorem isF64_int {z : ℤ} (h : |z| ≤ 2 ^ 53) : IsF64 (z : ℝ) := by
  have := isF64_mul_zpow (m := z) (e := 0) h (by norm_num)
  simpa using this

theorem scale_int {l u : ℤ} (hl : -2 ^ 31 ≤ l) (hu : u < 2 ^ 31) (h : l ≤ u) {v : ℝ} (h0 : 0 ≤ v) (h1 : v ≤ 1) :
    (l : ℝ) ≤ DoeF64.scale l u v ∧ DoeF64.scale l u v ≤ u := by
  have hw : IsF64 ((u : ℝ) - l) := by
    have := isF64_int (z := u - l) (by rw [abs_le]; constructor <;> omega)
    push_cast at this
    exact this
  have := C131_scale_exact (l := l) (u := u) (v := v) (isF64_int (by rw [abs_le]; constructor <;> omega))
    (isF64_int (by rw [abs_le]; constructor <;> omega)) hw (by exact_mod_cast h) h0 h1
  exact ⟨this.1, this.2.1⟩

/-- The scaled and cast row, `g` giving the types the row belongs to. -/
theorem sampleRow_f64 (g : XType ℝ → XType ℝ) (hg1 : ∀ l u, g (.int l u) = .int l u) (hg2 : ∀ vs, g (.ord vs) = .ord vs)
    (hg3 : ∀ n, g (.enum n) = .enum n) (ts : List (XType ℝ)) (hok : ∀ t ∈ ts, TypeOk t) (hF : ∀ t ∈ ts, IsF64Type t)
    (v : List ℝ) (hv : ∀ a ∈ v, 0 ≤ a ∧ a ≤ 1) (hl : v.length = relaxedDim ts)
    (hfl : ∀ l u, XType.float l u ∈ ts → ∀ a ∈ v, ∃ u', g (.float l u) = .float l u' ∧ DoeF64.scale l u a ≤ u') :
    ∃ lim y w, continuousLimits ts = .ok lim ∧ MixIntF64.castRow ts (DoeF64.sampleRow lim v) = .ok w ∧
      Relaxed (ts.map g) y w := by
  induction ts generalizing v with
  | nil =>
    have : v = [] := by simpa [relaxedDim] using hl
    subst this
    exact ⟨[], [], [], rfl, rfl, .nil⟩
  | cons t ts ih =>
    have hok' : ∀ t ∈ ts, TypeOk t := fun t ht => hok t (by simp [ht])
    have hF' : ∀ t ∈ ts, IsF64Type t := fun t ht => hF t (by simp [ht])
    have htok := hok t (by simp)
    have htF := hF t (by simp)
    cases t with
    | float l u =>
      simp only [relaxedDim, List.map_cons, List.sum_cons] at hl
      cases v with
      | nil => simp at hl; omega
      | cons a v =>
        obtain ⟨lim, y, w, h1, h2, h3⟩ := ih hok' hF' v (fun b hb => hv b (by simp [hb]))
          (by simp only [List.length_cons] at hl; simp only [relaxedDim]; omega)
          (fun l u h b hb => hfl l u (by simp [h]) b (by simp [hb]))
        obtain ⟨u', e, h4⟩ := hfl l u (by simp) a (by simp)
        refine ⟨(l, u) :: lim, DoeF64.scale l u a :: y, DoeF64.scale l u a :: w,
          by simp [continuousLimits, h1, bind, Except.bind], ?_, ?_⟩
        · unfold DoeF64.sampleRow at h2 ⊢
          simp [MixIntF64.castRow, h2, bind, Except.bind]
        · rw [List.map_cons, e]
          exact .float (scale_lower htF.1 htok (hv a (by simp)).1) h4 h3
    | int l u =>
      simp only [relaxedDim, List.map_cons, List.sum_cons] at hl
      cases v with
      | nil => simp at hl; omega
      | cons a v =>
        obtain ⟨lim, y, w, h1, h2, h3⟩ := ih hok' hF' v (fun b hb => hv b (by simp [hb]))
          (by simp only [List.length_cons] at hl; simp only [relaxedDim]; omega)
          (fun l u h b hb => hfl l u (by simp [h]) b (by simp [hb]))
        have ha := hv a (by simp)
        have hb := scale_int htF.1 htF.2 htok ha.1 ha.2
        have hz := round_bounds hb.1 hb.2
        refine ⟨((l : ℝ), (u : ℝ)) :: lim, (roundHalfAway (DoeF64.scale l u a) : ℝ) :: y,
          (roundHalfAway (DoeF64.scale l u a) : ℝ) :: w, by simp [continuousLimits, h1, bind, Except.bind], ?_, ?_⟩
        · unfold DoeF64.sampleRow at h2 ⊢
          simp [MixIntF64.castRow, h2, bind, Except.bind]
        · rw [List.map_cons, hg1]
          exact .int hz.1 hz.2 h3
    | ord vs =>
      simp only [relaxedDim, List.map_cons, List.sum_cons] at hl
      cases v with
      | nil => simp at hl; omega
      | cons a v =>
        obtain ⟨lim, y, w, h1, h2, h3⟩ := ih hok' hF' v (fun b hb => hv b (by simp [hb]))
          (by simp only [List.length_cons] at hl; simp only [relaxedDim]; omega)
          (fun l u h b hb => hfl l u (by simp [h]) b (by simp [hb]))
        cases vs with
        | nil => exact absurd rfl htok
        | cons r vs =>
          set b : ℝ × ℝ := (vs.foldl min r, vs.foldl max r)
          obtain ⟨c, hc, hm, _⟩ := closest_f64 (r :: vs) (DoeF64.scale b.1 b.2 a) htok
          refine ⟨b :: lim, c :: y, c :: w, by simp [continuousLimits, h1, bind, Except.bind, b], ?_, ?_⟩
          · unfold DoeF64.sampleRow at h2 ⊢
            simp [MixIntF64.castRow, h2, hc, bind, Except.bind]
          · rw [List.map_cons, hg2]
            exact .ord hm h3
    | enum n =>
      simp only [relaxedDim, List.map_cons, List.sum_cons] at hl
      have hn : 1 ≤ n := htok
      have hle : n ≤ v.length := by omega
      obtain ⟨lim, y, w, h1, h2, h3⟩ := ih hok' hF' (v.drop n) (fun b hb => hv b (List.mem_of_mem_drop hb))
        (by simp only [List.length_drop, relaxedDim]; omega)
        (fun l u h b hb => hfl l u (by simp [h]) b (List.mem_of_mem_drop hb))
      have hs : DoeF64.sampleRow (List.replicate n (0, 1) ++ lim) v =
          DoeF64.sampleRow (List.replicate n (0, 1)) (v.take n) ++ DoeF64.sampleRow lim (v.drop n) := by
        unfold DoeF64.sampleRow
        conv_lhs => rw [← List.take_append_drop n v]
        rw [List.zipWith_append (by simp; omega)]
      have hlen : (DoeF64.sampleRow (List.replicate n (0, 1)) (v.take n)).length = n := by
        simp only [DoeF64.sampleRow, List.length_zipWith, List.length_take, List.length_replicate]; omega
      obtain ⟨k, hk, ha, _⟩ := argmax_spec (DoeF64.sampleRow (List.replicate n (0, 1)) (v.take n))
        (by intro hc; rw [hc] at hlen; simp at hlen; omega)
      rw [hlen] at hk
      refine ⟨List.replicate n (0, 1) ++ lim, (k : ℝ) :: y, oneHot n k ++ w,
        by simp [continuousLimits, h1, bind, Except.bind], ?_, ?_⟩
      · have e1 : (DoeF64.sampleRow (List.replicate n (0, 1)) (v.take n) ++ DoeF64.sampleRow lim (v.drop n)).take n =
            DoeF64.sampleRow (List.replicate n (0, 1)) (v.take n) := by
          rw [List.take_left' hlen]
        have e2 : (DoeF64.sampleRow (List.replicate n (0, 1)) (v.take n) ++ DoeF64.sampleRow lim (v.drop n)).drop n =
            DoeF64.sampleRow lim (v.drop n) := by
          rw [List.drop_left' hlen]
        rw [hs, MixIntF64.castRow, if_pos (by rw [List.length_append, hlen]; omega), e1, e2, ha, h2]
        rfl
      · rw [List.map_cons, hg3]
        exact .enum (oneHot_isMask hk) h3

/-- The same after the optional folding. -/
theorem sampleRow_f64_fold (g : XType ℝ → XType ℝ) (hg : ∀ t, (∀ l u, t ≠ .float l u) → g t = t)
    (hgf : ∀ l u, ∃ u', g (.float l u) = .float l u') (ts : List (XType ℝ)) (lim : List (ℝ × ℝ)) (y v w : List ℝ)
    (hlim : continuousLimits ts = .ok lim) (hw : MixIntF64.castRow ts (DoeF64.sampleRow lim v) = .ok w)
    (h : Relaxed (ts.map g) y w) (folded : Bool) :
    ∃ o, MixIntF64.sampleRow ts folded v = .ok o ∧
      (folded = false → ∃ y, Relaxed (ts.map g) y o) ∧ (folded = true → ∃ w, Relaxed (ts.map g) o w) := by
  have hfold : ∀ (ts : List (XType ℝ)) (x : List ℝ) (j u : ℕ), foldFrom x j u (ts.map g) = foldFrom x j u ts := by
    intro ts x
    induction ts with
    | nil => intro j u; rfl
    | cons t ts ih =>
      intro j u
      cases t with
      | float l u =>
        obtain ⟨u', e⟩ := hgf l u
        simp only [List.map_cons, e, foldFrom, ih]
      | int l u => simp only [List.map_cons, hg (.int l u) (by simp), foldFrom, ih]
      | ord vs => simp only [List.map_cons, hg (.ord vs) (by simp), foldFrom, ih]
      | enum n => simp only [List.map_cons, hg (.enum n) (by simp), foldFrom, ih]
  cases folded with
  | false => exact ⟨w, by simp [MixIntF64.sampleRow, hlim, hw, bind, Except.bind], fun _ => ⟨y, h⟩, by simp⟩
  | true =>
    obtain ⟨x, z, e, hr⟩ := foldFrom_admissible h [] 0 le_rfl
    simp only [List.nil_append, List.length_nil, hfold] at e
    exact ⟨x, by simp [MixIntF64.sampleRow, hlim, hw, fold, e, bind, Except.bind], by simp, fun _ => ⟨z, hr⟩⟩

/-- `o` is a point of the declared space, with categories given by masks or (`folded`) by indices. -/
def InSpace (ts : List (XType ℝ)) (folded : Bool) (o : List ℝ) : Prop :=
  (folded = false → ∃ y, Relaxed ts y o) ∧ (folded = true → ∃ w, Relaxed ts o w)

/-- **C132**, samples. A sample of numbers of `[0, 1]` is scaled and cast to points of the declared space: integers,
values of lists and categories are the declared ones, floats are not below their lower bound, and not above their upper
bound by more than the rounding. -/
theorem C132_sample (ts : List (XType ℝ)) (hok : ∀ t ∈ ts, TypeOk t) (hF : ∀ t ∈ ts, IsF64Type t) (folded : Bool)
    (rows : List (List ℝ)) (hv : ∀ v ∈ rows, ∀ a ∈ v, 0 ≤ a ∧ a ≤ 1) (hl : ∀ v ∈ rows, v.length = relaxedDim ts) :
    ∃ out, MixIntF64.sample ts folded rows = .ok out ∧
      List.Forall₂ (fun _ o => InSpace (ts.map slack) folded o) rows out := by
  refine mapM_rel _ fun v hr => ?_
  obtain ⟨lim, y, w, h1, h2, h3⟩ := sampleRow_f64 slack (fun _ _ => rfl) (fun _ => rfl) (fun _ => rfl) ts hok hF v
    (hv v hr) (hl v hr) (fun l u h a ha => ⟨_, rfl, C131_excess (hF _ h).1 (hF _ h).2 (hok _ h) (hv v hr a ha).2⟩)
  exact sampleRow_f64_fold slack (fun t ht => by cases t <;> first | rfl | exact absurd rfl (ht _ _)) (fun l u => ⟨_, rfl⟩)
    ts lim y v w h1 h2 h3 folded

/-- **C132**, samples. The points are in the declared space when the numbers are below 1, or when the upper bounds of floats
are not rounded up. -/
theorem C132_sample_in_space_partial (ts : List (XType ℝ)) (hok : ∀ t ∈ ts, TypeOk t) (hF : ∀ t ∈ ts, IsF64Type t)
    (folded : Bool) (rows : List (List ℝ)) (hv : ∀ v ∈ rows, ∀ a ∈ v, IsF64 a ∧ 0 ≤ a ∧ a ≤ 1)
    (hl : ∀ v ∈ rows, v.length = relaxedDim ts)
    (hone : (∀ v ∈ rows, ∀ a ∈ v, a < 1) ∨ ∀ l u, XType.float l u ∈ ts → rnd (rnd (u - l) + l) ≤ u) :
    ∃ out, MixIntF64.sample ts folded rows = .ok out ∧ List.Forall₂ (fun _ o => InSpace ts folded o) rows out := by
  refine mapM_rel _ fun v hr => ?_
  have key := sampleRow_f64 id (fun _ _ => rfl) (fun _ => rfl) (fun _ => rfl) ts hok hF v
    (fun a ha => (hv v hr a ha).2) (hl v hr) (fun l u h a ha => ⟨u, rfl, by
      obtain ⟨h1, h2, h3⟩ := hv v hr a ha
      rcases hone with h4 | h4
      · exact (C131_scale (hF _ h).1 (hF _ h).2 h1 (hok _ h) h2 (h4 v hr a ha)).2
      · refine (scale_mono (hok _ h) h3).trans ?_
        rw [scale_one]
        exact h4 l u h⟩)
  obtain ⟨lim, y, w, h1, h2, h3⟩ := key
  have := sampleRow_f64_fold id (fun _ _ => rfl) (fun l u => ⟨_, rfl⟩) ts lim y v w h1 h2 h3 folded
  rwa [List.map_id] at this

variable {ns : ℕ}

theorem design_row_mem {m : ℕ} {x : Fin ns → Fin m → ℝ} {v : List ℝ} (h : v ∈ List.ofFn fun i => List.ofFn fun j => x i j) :
    v.length = m ∧ ∀ a ∈ v, ∃ i j, a = x i j := by
  obtain ⟨i, rfl⟩ := (List.mem_ofFn' _ _).1 h
  refine ⟨by simp, fun a ha => ?_⟩
  obtain ⟨j, rfl⟩ := (List.mem_ofFn' _ _).1 ha
  exact ⟨i, j, rfl⟩

/-- **C132**, Latin hypercubes of all kinds: as many points as asked for, in the declared space but for the rounding of
upper bounds of floats. -/
theorem C132_lhs (hns : ns ≤ 2 ^ 48) (ts : List (XType ℝ)) (hok : ∀ t ∈ ts, TypeOk t) (hF : ∀ t ∈ ts, IsF64Type t)
    (folded : Bool) (call : DoeF64.LhsCall ns (relaxedDim ts)) (h : UniformCallF64 call) :
    ∃ out, MixIntF64.sample ts folded (List.ofFn fun i => List.ofFn fun j => DoeF64.lhsSample call i j) = .ok out ∧
      out.length = ns ∧ ∀ o ∈ out, InSpace (ts.map slack) folded o ∧
        ((∀ l u, XType.float l u ∈ ts → rnd (rnd (u - l) + l) ≤ u) → InSpace ts folded o) := by
  have hx := stratified_unit hns (lhs_stratified call h)
  obtain ⟨out, h1, h2⟩ := C132_sample ts hok hF folded _ (fun v hv a ha => by
      obtain ⟨i, j, rfl⟩ := (design_row_mem hv).2 a ha
      exact (hx i j).2) (fun v hv => (design_row_mem hv).1)
  refine ⟨out, h1, by simpa using h2.length_eq.symm, fun o ho => ⟨?_, fun hone => ?_⟩⟩
  · obtain ⟨i, hi, rfl⟩ := List.mem_iff_getElem.1 ho
    exact h2.get (i := i) (by rw [h2.length_eq]; exact hi) hi
  · obtain ⟨out', h3, h4⟩ := C132_sample_in_space_partial ts hok hF folded _ (fun v hv a ha => by
      obtain ⟨i, j, rfl⟩ := (design_row_mem hv).2 a ha
      exact hx i j) (fun v hv => (design_row_mem hv).1) (Or.inr hone)
    have : out' = out := Except.ok.inj (h3.symm.trans h1)
    subst this
    obtain ⟨i, hi, rfl⟩ := List.mem_iff_getElem.1 ho
    exact h4.get (i := i) (by rw [h4.length_eq]; exact hi) hi

/-- A design of numbers of `[0, 1)`. -/
theorem mixint_design (ts : List (XType ℝ)) (hok : ∀ t ∈ ts, TypeOk t) (hF : ∀ t ∈ ts, IsF64Type t)
    (folded : Bool) (x : Fin ns → Fin (relaxedDim ts) → ℝ) (h : ∀ i j, IsF64 (x i j) ∧ 0 ≤ x i j ∧ x i j < 1) :
    ∃ out, MixIntF64.sample ts folded (List.ofFn fun i => List.ofFn fun j => x i j) = .ok out ∧
      out.length = ns ∧ ∀ o ∈ out, InSpace ts folded o := by
  obtain ⟨out, h3, h4⟩ := C132_sample_in_space_partial ts hok hF folded _ (fun v hv a ha => by
      obtain ⟨i, j, rfl⟩ := (design_row_mem hv).2 a ha
      exact ⟨(h i j).1, (h i j).2.1, (h i j).2.2.le⟩) (fun v hv => (design_row_mem hv).1) (Or.inl fun v hv a ha => by
      obtain ⟨i, j, rfl⟩ := (design_row_mem hv).2 a ha
      exact (h i j).2.2)
  refine ⟨out, h3, by simpa using h4.length_eq.symm, fun o ho => ?_⟩
  obtain ⟨i, hi, rfl⟩ := List.mem_iff_getElem.1 ho
  exact h4.get (i := i) (by rw [h4.length_eq]; exact hi) hi

/-- **C132**, centered Latin hypercubes and random samples are in the declared space. -/
theorem C132_centered_random (hns : ns ≤ 2 ^ 48) (ts : List (XType ℝ)) (hok : ∀ t ∈ ts, TypeOk t)
    (hF : ∀ t ∈ ts, IsF64Type t) (folded : Bool) :
    (∀ x : Fin ns → Fin (relaxedDim ts) → ℝ, UniformF64 x →
      ∃ out, MixIntF64.sample ts folded (List.ofFn fun i => List.ofFn fun j => Doe.randomSample x i j) = .ok out ∧
        out.length = ns ∧ ∀ o ∈ out, InSpace ts folded o) ∧
    ∀ call : DoeF64.LhsCall ns (relaxedDim ts), (∃ sh, call = .centered sh) ∨ (∃ ds k, call = .centeredMaximin ds k) →
      ∃ out, MixIntF64.sample ts folded (List.ofFn fun i => List.ofFn fun j => DoeF64.lhsSample call i j) = .ok out ∧
        out.length = ns ∧ ∀ o ∈ out, InSpace ts folded o := by
  have key : ∀ sh : ℕ → Equiv.Perm (Fin ns), ∃ out, MixIntF64.sample ts folded
      (List.ofFn fun i => List.ofFn fun j => (DoeF64.centered sh : Doe.Design ns (relaxedDim ts)) i j) = .ok out ∧
        out.length = ns ∧ ∀ o ∈ out, InSpace ts folded o := by
    intro sh
    refine mixint_design ts hok hF folded _ fun i j => ?_
    obtain ⟨h1, h2, _⟩ := stratified_unit hns (centered_stratified (nx := relaxedDim ts) sh) i j
    exact ⟨h1, h2, centered_lt_one hns sh i j⟩
  refine ⟨fun x hx => mixint_design ts hok hF folded _ hx, ?_⟩
  rintro call (⟨sh, rfl⟩ | ⟨ds, k, rfl⟩)
  · exact key sh
  · exact key _

/-- **C132**, full factorial designs: as many points as asked for, in the declared space when the upper bounds of floats are
not rounded up. -/
theorem C132_full_factorial (ts : List (XType ℝ)) (hne : ts ≠ []) (hok : ∀ t ∈ ts, TypeOk t)
    (hF : ∀ t ∈ ts, IsF64Type t) (folded : Bool) (h : relaxedDim ts + ns ≤ 2 ^ 50) :
    ∃ rows out, DoeF64.fullFactorial (relaxedDim ts) ns = .ok rows ∧ MixIntF64.sample ts folded rows = .ok out ∧
      out.length = ns ∧ ∀ o ∈ out, InSpace (ts.map slack) folded o ∧
        ((∀ l u, XType.float l u ∈ ts → rnd (rnd (u - l) + l) ≤ u) → InSpace ts folded o) := by
  have hd : 0 < relaxedDim ts := by
    cases ts with
    | nil => exact absurd rfl hne
    | cons t ts =>
      have := hok t (by simp)
      simp only [relaxedDim, List.map_cons, List.sum_cons]
      cases t <;> simp only [TypeOk] at this ⊢ <;> omega
  obtain ⟨t, rows, h1, h2, _, h3, _⟩ := C06_full_factorial (K := ℝ) (relaxedDim ts) ns hd
  have hrow : ∀ v ∈ rows.map (List.map rnd), v.length = relaxedDim ts ∧ ∀ a ∈ v, IsF64 a ∧ 0 ≤ a ∧ a ≤ 1 := by
    intro v hv
    obtain ⟨r, hr, rfl⟩ := List.mem_map.mp hv
    obtain ⟨ds, hds, rfl⟩ := h3 r hr
    obtain ⟨e1, e2⟩ := zipWith_grid_mem (K := ℝ) _ _ hds
    refine ⟨by rw [List.length_map, e1, Doe.levelsAfter_length], fun a ha => ?_⟩
    obtain ⟨b, hb, rfl⟩ := List.mem_map.mp ha
    exact ⟨rnd_isF64 _, le_rnd isF64_zero (e2 b hb).1, rnd_le isF64_one (e2 b hb).2⟩
  have hf : DoeF64.fullFactorial (relaxedDim ts) ns = .ok (rows.map (List.map rnd)) := by
    rw [C131_full_factorial_levels _ _ h, h1]; rfl
  obtain ⟨out, h4, h5⟩ := C132_sample ts hok hF folded _ (fun v hv a ha => ((hrow v hv).2 a ha).2)
    (fun v hv => (hrow v hv).1)
  refine ⟨_, out, hf, h4, by simpa [h2] using h5.length_eq.symm, fun o ho => ⟨?_, fun hone => ?_⟩⟩
  · obtain ⟨i, hi, rfl⟩ := List.mem_iff_getElem.1 ho
    exact h5.get (i := i) (by rw [h5.length_eq]; exact hi) hi
  · obtain ⟨out', h6, h7⟩ := C132_sample_in_space_partial ts hok hF folded _ (fun v hv => (hrow v hv).2)
      (fun v hv => (hrow v hv).1) (Or.inr hone)
    have : out' = out := Except.ok.inj (h6.symm.trans h4)
    subst this
    obtain ⟨i, hi, rfl⟩ := List.mem_iff_getElem.1 ho
    exact h7.get (i := i) (by rw [h7.length_eq]; exact hi) hi

/-- **C132** fails for floats: a full factorial design of a float of `[-0.3, 0.1]` has a point out of the space. -/
theorem C132_refuted_float (hn : 2 ≤ ns) (h : ns ≤ 2 ^ 49) :
    ∃ rows out, DoeF64.fullFactorial 1 ns = .ok rows ∧
      MixIntF64.sample [.float (rnd (-(3 / 10))) (rnd (1 / 10))] false rows = .ok out ∧
      ∃ o ∈ out, ¬ InSpace [.float (rnd (-(3 / 10))) (rnd (1 / 10))] false o := by
  obtain ⟨rows, h1, row, hrow, v, hv, hlt⟩ := C131_refuted_full_factorial ns hn h
  set l := rnd (-(3 / 10))
  set u := rnd (1 / 10)
  have hs : ∀ r, MixIntF64.sampleRow [.float l u] false r = .ok (DoeF64.sampleRow [(l, u)] r) := by
    intro r
    simp only [MixIntF64.sampleRow, continuousLimits, bind, Except.bind]
    cases r with
    | nil => rfl
    | cons a r =>
      simp [DoeF64.sampleRow, MixIntF64.castRow, bind, Except.bind]
  refine ⟨rows, rows.map (DoeF64.sampleRow [(l, u)]), h1, ?_, _, List.mem_map.mpr ⟨row, hrow, rfl⟩, fun hc => ?_⟩
  · unfold MixIntF64.sample
    have : MixIntF64.sampleRow [.float l u] false = fun r => .ok (DoeF64.sampleRow [(l, u)] r) := funext hs
    rw [this]
    exact List.mapM_pure (m := Except Panic)
  · obtain ⟨y, hy⟩ := hc.1 rfl
    generalize DoeF64.sampleRow [(l, u)] row = o at *
    cases hy with
    | float ha hb hr =>
      cases hr
      rw [List.mem_singleton] at hv
      subst hv
      exact absurd hb (not_le.mpr hlt)

/-! ## Examples -/

/-- A float of exact width, an integer, a list and a category: the hypotheses of all the theorems on samples. -/
example : ∀ t ∈ [XType.float (-1 : ℝ) 3, .int (-5) 7, .ord [1, 3 / 2, 10], .enum 3], TypeOk t ∧ IsF64Type t ∧
    ∀ l u, XType.float l u = t → rnd (rnd (u - l) + l) ≤ u := by
  have h1 : IsF64 (-1 : ℝ) := isF64_neg isF64_one
  have h3 : IsF64 (3 : ℝ) := by simpa using isF64_nat (n := 3) (by norm_num)
  have h4 : IsF64 (4 : ℝ) := by simpa using isF64_nat (n := 4) (by norm_num)
  have h5 : IsF64 (10 : ℝ) := by simpa using isF64_nat (n := 10) (by norm_num)
  have h6 : IsF64 (3 / 2 : ℝ) := ⟨3, -1, by norm_num, by norm_num, by norm_num⟩
  intro t ht
  simp only [List.mem_cons, List.not_mem_nil, or_false] at ht
  rcases ht with rfl | rfl | rfl | rfl
  · refine ⟨by norm_num [TypeOk], ⟨h1, h3⟩, ?_⟩
    rintro l u ⟨⟩
    norm_num only
    rw [rnd_of_isF64 h4]
    norm_num only
    rw [rnd_of_isF64 h3]
  · exact ⟨by norm_num [TypeOk], by norm_num [IsF64Type], by simp⟩
  · refine ⟨by simp [TypeOk], ?_, by simp⟩
    intro v hv
    simp only [List.mem_cons, List.not_mem_nil, or_false] at hv
    rcases hv with rfl | rfl | rfl
    · exact isF64_one
    · exact h6
    · exact h5
  · exact ⟨by norm_num [TypeOk], trivial, by simp⟩

end Verif.Props
