import Verif.Model.Coego
import Verif.Spec.Coego
import Verif.Lemmas.Best
import Verif.Lemmas.Run
import Mathlib.Data.List.Perm.Basic
import Mathlib.Data.List.Sort
import Mathlib.Data.List.Range
import Mathlib.Algebra.Order.Ring.Nat
import Mathlib.Tactic.Ring

/-!
# Properties of cooperative optimization (C27-C30, C65-C67)
-/

set_option autoImplicit false

namespace Verif.Props

open Verif Verif.Coego

/-! ## Activity groups -/

theorem flatten_rows (nr nc : ℕ) (l : List ℕ) (h : l.length = nr * nc) :
    ((List.range nr).map fun i => (l.drop (i * nc)).take nc).flatten = l := by
  induction nr with
  | zero => simp at h; simp [h]
  | succ n ih =>
    -- take the first n * nc elements
    have key : ∀ m, m ≤ n + 1 →
        ((List.range m).map fun i => (l.drop (i * nc)).take nc).flatten = l.take (m * nc) := by
      intro m hm
      induction m with
      | zero => simp
      | succ m ih' =>
        rw [List.range_succ, List.map_append, List.flatten_append, ih' (by omega)]
        simp only [List.map_cons, List.map_nil, List.flatten_cons, List.flatten_nil, List.append_nil]
        rw [add_mul, one_mul, List.take_add]
    rw [key (n + 1) le_rfl, ← h, List.take_length]

theorem reshape_ok {l : List ℕ} {nr nc : ℕ} {rs : List (List ℕ)} (h : reshape l nr nc = .ok rs) :
    l.length = nr * nc ∧ rs = (List.range nr).map fun i => (l.drop (i * nc)).take nc := by
  unfold reshape at h
  split_ifs at h with h1
  · simp only [Except.ok.injEq] at h
    exact ⟨h1, h.symm⟩

theorem strip_of_lt (n : ℕ) (l : List ℕ) (h : ∀ i ∈ l, i < n) : strip l n = l := by
  unfold strip
  rw [List.filter_eq_self]
  intro a ha
  simpa using h a ha

/-- Shape of the groups. -/
theorem randomActivity_spec (xdim nCoop : ℕ) (idx : List ℕ) (hp : idx.Perm (List.range xdim))
    (hx : 1 ≤ xdim) (hn : 1 ≤ nCoop) :
    ∃ f : ℕ → List ℕ, ∃ marks : ℕ → List ℕ,
      randomActivity xdim nCoop idx = .ok ((List.range (min nCoop xdim)).map fun i => f i ++ marks i) ∧
      ((List.range (min nCoop xdim)).map f).flatten.Perm (List.range xdim) ∧
      (∀ i, ∀ m ∈ marks i, m = xdim) ∧
      (∀ i < min nCoop xdim, xdim / min nCoop xdim ≤ (f i).length ∧
        (f i).length ≤ xdim / min nCoop xdim + 1) := by
  have hlen : idx.length = xdim := by rw [hp.length_eq, List.length_range]
  set g := min nCoop xdim with hg
  have hgpos : 0 < g := by omega
  unfold randomActivity
  simp only [← hg, if_neg (by omega : ¬ g = 0)]
  by_cases hr : xdim % g = 0
  · rw [if_pos hr]
    have hmul : xdim = g * (xdim / g) := by
      have := Nat.mod_add_div xdim g; omega
    refine ⟨fun i => (idx.drop (i * (xdim / g))).take (xdim / g), fun _ => [], ?_, ?_, by simp, ?_⟩
    · unfold reshape
      rw [if_pos (by rw [hlen]; exact hmul)]
      simp
    · rw [flatten_rows g (xdim / g) idx (by rw [hlen]; exact hmul)]
      exact hp
    · intro i hi
      have : (i + 1) * (xdim / g) ≤ g * (xdim / g) := Nat.mul_le_mul_right _ hi
      rw [← hmul, add_mul] at this
      simp only [List.length_take, List.length_drop, hlen]
      omega
  · rw [if_neg hr]
    have hmod := Nat.mod_add_div xdim g
    have hrlt : xdim % g < g := Nat.mod_lt _ hgpos
    simp only [Nat.add_sub_cancel]
    set c := g * (xdim / g) with hc
    have hcl : (idx.take c).length = c := by rw [List.length_take, hlen]; omega
    have hdl : (idx.drop c).length = xdim % g := by rw [List.length_drop, hlen]; omega
    have hre : reshape (idx.take c) g (xdim / g) =
        .ok ((List.range g).map fun i => ((idx.take c).drop (i * (xdim / g))).take (xdim / g)) := by
      unfold reshape; rw [if_pos hcl]
    rw [hre]
    simp only [bind, Except.bind, hdl, if_true]
    refine ⟨fun i => ((idx.take c).drop (i * (xdim / g))).take (xdim / g) ++
        (if i < xdim % g then [(idx.drop c).getD i xdim] else []),
      fun i => if i < xdim % g then [] else [xdim], ?_, ?_, ?_, ?_⟩
    · congr 1
      apply List.map_congr_left
      intro i hi
      rw [List.mem_range] at hi
      have : ((List.range g).map fun i => ((idx.take c).drop (i * (xdim / g))).take (xdim / g)).getD i [] =
          ((idx.take c).drop (i * (xdim / g))).take (xdim / g) := by
        rw [List.getD_eq_getElem?_getD, List.getElem?_map, List.getElem?_range hi]; rfl
      rw [this]
      by_cases hir : i < xdim % g <;> simp [hir]
    · have h1 := (List.flatMap_append_perm (List.range g)
        (fun i => ((idx.take c).drop (i * (xdim / g))).take (xdim / g))
        (fun i => if i < xdim % g then [(idx.drop c).getD i xdim] else [])).symm
      rw [List.flatMap_def, List.flatMap_def, flatten_rows g (xdim / g) _ hcl] at h1
      refine h1.trans ?_
      have h2 : (List.range g).flatMap (fun i => if i < xdim % g then [(idx.drop c).getD i xdim] else [])
          = idx.drop c := by
        have e : List.range g = List.range (xdim % g) ++ (List.range (g - xdim % g)).map (xdim % g + ·) := by
          rw [← List.range_add]; congr 1; omega
        rw [e, List.flatMap_append]
        have e2 : ((List.range (g - xdim % g)).map (xdim % g + ·)).flatMap
            (fun i => if i < xdim % g then [(idx.drop c).getD i xdim] else []) = [] := by
          rw [List.flatMap_eq_nil_iff]
          intro i hi
          obtain ⟨j, _, rfl⟩ := List.mem_map.mp hi
          rw [if_neg (by omega)]
        have e3 : (List.range (xdim % g)).flatMap
            (fun i => if i < xdim % g then [(idx.drop c).getD i xdim] else []) =
            (List.range (xdim % g)).map (fun i => (idx.drop c).getD i xdim) := by
          rw [List.map_eq_flatMap]
          apply List.flatMap_congr
          intro i hi
          rw [List.mem_range] at hi
          rw [if_pos hi]
        rw [e2, e3, List.append_nil]
        apply List.ext_getElem
        · simp [hdl]
        · intro i h1 h2
          simp only [List.getElem_map, List.getElem_range]
          rw [List.getD_eq_getElem?_getD, List.getElem?_eq_getElem h2]; rfl
      rw [h2, List.take_append_drop]
      exact hp
    · intro i m hm
      simp only at hm
      split_ifs at hm <;> simp at hm
      exact hm
    · intro i hi
      have : (i + 1) * (xdim / g) ≤ g * (xdim / g) := Nat.mul_le_mul_right _ hi
      rw [← hc, add_mul] at this
      simp only [List.length_append, List.length_take, List.length_drop, hcl]
      split_ifs <;> simp <;> omega

theorem group_lt {xdim : ℕ} {f : ℕ → List ℕ} {n : ℕ}
    (h : ((List.range n).map f).flatten.Perm (List.range xdim)) {i : ℕ} (hi : i < n) :
    (∀ k ∈ f i, k < xdim) ∧ (f i).Nodup := by
  have hmem : f i ∈ (List.range n).map f := List.mem_map_of_mem (List.mem_range.mpr hi)
  constructor
  · intro k hk
    have : k ∈ ((List.range n).map f).flatten := List.mem_flatten.mpr ⟨_, hmem, hk⟩
    exact List.mem_range.mp (h.mem_iff.mp this)
  · have : ((List.range n).map f).flatten.Nodup := h.nodup_iff.mpr List.nodup_range
    exact (List.nodup_flatten.mp this).1 _ hmem

/-- C27. Whatever the shuffle, the groups (their indices below the dimension) partition the variables, are
balanced and non empty, and there are `min(n_coop, dim)` of them. -/
theorem C27_groups_partition (xdim nCoop : ℕ) (idx : List ℕ) (hp : idx.Perm (List.range xdim))
    (hx : 1 ≤ xdim) (hn : 1 ≤ nCoop) :
    ∃ gs, randomActivity xdim nCoop idx = .ok gs ∧ gs.length = min nCoop xdim ∧
      Spec.IsPartition xdim (gs.map fun g => strip g xdim) ∧
      Spec.Balanced (gs.map fun g => strip g xdim) ∧ ∀ g ∈ gs, strip g xdim ≠ [] := by
  obtain ⟨f, marks, h1, h2, h3, h4⟩ := randomActivity_spec xdim nCoop idx hp hx hn
  have hs : ∀ i < min nCoop xdim, strip (f i ++ marks i) xdim = f i := by
    intro i hi
    unfold strip
    rw [List.filter_append]
    have e1 := strip_of_lt xdim (f i) (group_lt h2 hi).1
    unfold strip at e1
    rw [e1]
    have : (marks i).filter (fun k => decide (k < xdim)) = [] := by
      rw [List.filter_eq_nil_iff]
      intro m hm
      simp [h3 i m hm]
    rw [this, List.append_nil]
  have hmap : (((List.range (min nCoop xdim)).map fun i => f i ++ marks i).map fun g => strip g xdim) =
      (List.range (min nCoop xdim)).map f := by
    rw [List.map_map]
    apply List.map_congr_left
    intro i hi
    exact hs i (List.mem_range.mp hi)
  refine ⟨_, h1, by simp, ?_, ?_, ?_⟩
  · unfold Spec.IsPartition; rw [hmap]; exact h2
  · unfold Spec.Balanced; rw [hmap]
    intro a ha b hb
    obtain ⟨i, hi, rfl⟩ := List.mem_map.mp ha
    obtain ⟨j, hj, rfl⟩ := List.mem_map.mp hb
    have := h4 i (List.mem_range.mp hi)
    have := h4 j (List.mem_range.mp hj)
    omega
  · intro a ha
    obtain ⟨i, hi, rfl⟩ := List.mem_map.mp ha
    have hi := List.mem_range.mp hi
    rw [hs i hi]
    intro hnil
    have h5 := (h4 i hi).1
    rw [hnil] at h5
    have : 1 ≤ xdim / min nCoop xdim := by
      rw [Nat.one_le_div_iff (by omega)]; omega
    simp at h5
    omega

/-- C27. Each group is made of distinct valid indices followed by markers. -/
theorem C27_groups_shape (xdim nCoop : ℕ) (idx : List ℕ) (hp : idx.Perm (List.range xdim))
    (hx : 1 ≤ xdim) (hn : 1 ≤ nCoop) (gs : List (List ℕ)) (h : randomActivity xdim nCoop idx = .ok gs) :
    ∀ g ∈ gs, ∃ valid, Spec.IsActivity xdim g valid := by
  obtain ⟨f, marks, h1, h2, h3, _⟩ := randomActivity_spec xdim nCoop idx hp hx hn
  rw [h1, Except.ok.injEq] at h
  subst h
  intro g hg
  obtain ⟨i, hi, rfl⟩ := List.mem_map.mp hg
  have hl := group_lt h2 (List.mem_range.mp hi)
  exact ⟨f i, marks i, rfl, hl.2, hl.1, fun m hm => (h3 i m hm).ge⟩

/-- Five variables in two groups, and seven in three groups. -/
example : randomActivity 5 2 [3, 0, 4, 1, 2] = .ok [[3, 0, 2], [4, 1, 5]] := by decide
example : [3, 0, 4, 1, 2].Perm (List.range 5) := by decide
example : randomActivity 7 3 [6, 5, 4, 3, 2, 1, 0] = .ok [[6, 5, 0], [4, 3, 7], [2, 1, 7]] := by decide
example : randomActivity 3 5 [2, 0, 1] = .ok [[2], [0], [1]] := by decide

/-- No group: the code panics (remainder by zero). -/
example : randomActivity 3 0 [2, 0, 1] = .error .other := by decide

/-! ## Setting and reading active components -/

variable {α : Type}

theorem assign_spec (ps : List (ℕ × α)) : ∀ (x : List α), (∀ p ∈ ps, p.1 < x.length) →
    (ps.map Prod.fst).Nodup →
    ∃ y, assign x ps = .ok y ∧ y.length = x.length ∧ (∀ p ∈ ps, y[p.1]? = some p.2) ∧
      ∀ i, i ∉ ps.map Prod.fst → y[i]? = x[i]? := by
  induction ps with
  | nil => intro x _ _; exact ⟨x, rfl, rfl, by simp, by simp⟩
  | cons p ps ih =>
    intro x h1 h2
    have hlt := h1 p (by simp)
    simp only [List.map_cons, List.nodup_cons] at h2
    obtain ⟨y, hy, hl, hin, hout⟩ := ih (x.set p.1 p.2)
      (fun q hq => by rw [List.length_set]; exact h1 q (by simp [hq])) h2.2
    refine ⟨y, by simp only [assign, if_pos hlt]; exact hy, by rw [hl, List.length_set], ?_, ?_⟩
    · intro q hq
      rcases List.mem_cons.mp hq with rfl | hq
      · rw [hout _ h2.1, List.getElem?_set_self hlt]
      · exact hin q hq
    · intro i hi
      simp only [List.map_cons, List.mem_cons, not_or] at hi
      rw [hout i hi.2, List.getElem?_set_ne (fun h => hi.1 h.symm)]

/-- C28. Setting the components of a group gives a point that differs from the initial one only at the valid
indices of the group, and reading the components of the group back gives the values set, in order. -/
theorem C28_set_get_active (x : List α) (active valid : List ℕ) (values : List α)
    (ha : Spec.IsActivity x.length active valid) (hv : values.length = valid.length) :
    ∃ y, setActive x active values = .ok y ∧ Spec.SameOutside valid x y ∧
      Spec.pickAt y valid = values.map some ∧ getActive y active = values := by
  obtain ⟨marks, rfl, hnd, hlt, hm⟩ := ha
  have htake : (valid ++ marks).take values.length = valid := by rw [hv]; simp
  have hfst : (valid.zip values).map Prod.fst = valid := by
    rw [List.map_fst_zip]; omega
  obtain ⟨y, hy, hl, hin, hout⟩ := assign_spec (valid.zip values) x
    (fun p hp => hlt _ (List.of_mem_zip hp).1) (by rw [hfst]; exact hnd)
  rw [hfst] at hout
  have hpick : Spec.pickAt y valid = values.map some := by
    unfold Spec.pickAt
    apply List.ext_getElem
    · simp [hv]
    · intro i h1 h2
      simp only [List.length_map] at h1 h2
      simp only [List.getElem_map]
      have : (valid[i], values[i]) ∈ valid.zip values := by
        rw [List.mem_iff_getElem]
        exact ⟨i, by simp; omega, by simp⟩
      exact hin _ this
  refine ⟨y, ?_, ⟨hl, hout⟩, hpick, ?_⟩
  · unfold setActive
    rw [if_pos (by rw [hv]; simp), htake]; exact hy
  · unfold getActive strip
    rw [List.filter_append, hl]
    have e1 : valid.filter (fun k => decide (k < x.length)) = valid := strip_of_lt _ _ hlt
    have e2 : marks.filter (fun k => decide (k < x.length)) = [] := by
      rw [List.filter_eq_nil_iff]
      intro m hm'
      have := hm m hm'
      simp; omega
    rw [e1, e2, List.append_nil]
    have : valid.filterMap (fun i => y[i]?) = (valid.map fun i => y[i]?).filterMap id := by
      rw [List.filterMap_map]; rfl
    unfold Spec.pickAt at hpick
    rw [this, hpick, List.filterMap_map]
    simp

example : Spec.IsActivity 5 [4, 1, 5] [4, 1] :=
  ⟨[5], rfl, by decide, by decide, by decide⟩
example : setActive [10, 20, 30, 40, 50] [4, 1, 5] [7, 8] = .ok [10, 8, 30, 40, 7] := by decide

/-! ## Order of the gradient -/

theorem gradActive_eq (g : List α) (active : List ℕ) :
    (gradActive g active).map some = Spec.pickAt g ((List.range g.length).filter fun i => active.contains i) := by
  unfold gradActive Spec.pickAt
  have hz : g.zip (List.range g.length) = g.zipIdx := by rw [List.zipIdx_eq_zip_range', List.range_eq_range']
  rw [hz]
  have hidx : List.range g.length = (g.zipIdx).map Prod.snd := by
    rw [List.zipIdx_map_snd, List.range_eq_range']
  rw [hidx, List.filter_map, List.map_map, List.map_map]
  apply List.map_congr_left
  intro p hp
  have hp := (List.mem_filter.mp hp).1
  simp only [Function.comp]
  exact (List.mem_zipIdx_iff_getElem?.mp hp).symm

/-- C29, part. The gradient given to the optimizer is ordered like the active variables if these are in
increasing order (which is the case when all variables are active, see `C29_full_activity_partial`). Missing:
other orders, for which the property fails (`C29_refuted_shuffled_group`). -/
theorem C29_sorted_group_partial (g : List α) (active valid : List ℕ)
    (ha : Spec.IsActivity g.length active valid) (hs : valid.Pairwise (· < ·)) :
    (gradActive g active).map some = Spec.pickAt g valid := by
  rw [gradActive_eq]
  obtain ⟨marks, rfl, hnd, hlt, hm⟩ := ha
  congr 1
  apply List.Perm.eq_of_pairwise (le := (· < ·)) (fun a b _ _ h1 h2 => absurd h1 (by omega))
  · exact List.Pairwise.filter _ List.pairwise_lt_range
  · exact hs
  · rw [List.perm_ext_iff_of_nodup (List.Nodup.filter _ List.nodup_range) hnd]
    intro i
    simp only [List.mem_filter, List.mem_range, List.contains_iff_mem, List.mem_append]
    constructor
    · rintro ⟨h1, h2 | h2⟩
      · exact h2
      · have := hm i h2; omega
    · intro h; exact ⟨hlt i h, Or.inl h⟩

/-- C29, part. In any case the components given to the optimizer are those of the active variables, in some
order. -/
theorem C29_same_components_partial (g : List α) (active valid : List ℕ)
    (ha : Spec.IsActivity g.length active valid) :
    ((gradActive g active).map some).Perm (Spec.pickAt g valid) := by
  rw [gradActive_eq]
  obtain ⟨marks, rfl, hnd, hlt, hm⟩ := ha
  apply List.Perm.map
  rw [List.perm_ext_iff_of_nodup (List.Nodup.filter _ List.nodup_range) hnd]
  intro i
  simp only [List.mem_filter, List.mem_range, List.contains_iff_mem, List.mem_append]
  constructor
  · rintro ⟨h1, h2 | h2⟩
    · exact h2
    · have := hm i h2; omega
  · intro h; exact ⟨hlt i h, Or.inl h⟩

/-- C29, part. Without cooperation all variables are active and the gradient is given as it is. -/
theorem C29_full_activity_partial (g : List α) :
    ∀ active ∈ fullActivity g.length, gradActive g active = g := by
  intro active ha
  simp only [fullActivity, List.mem_singleton] at ha
  subst ha
  have h := C29_sorted_group_partial g (List.range g.length) (List.range g.length)
    ⟨[], by simp, List.nodup_range, fun i hi => List.mem_range.mp hi, by simp⟩ List.pairwise_lt_range
  have h2 : Spec.pickAt g (List.range g.length) = g.map some := by
    unfold Spec.pickAt
    apply List.ext_getElem
    · simp
    · intro i h1 h2; simp at h1 h2; simp [h1]
  rw [h2] at h
  exact List.map_injective_iff.mpr (Option.some_injective α) h

/-- C29 fails for a shuffled group: with one group of two variables drawn in the order `[1, 0]`, the optimizer
works on the variables `(x1, x0)` and gets the gradient `(g0, g1)`. -/
theorem C29_refuted_shuffled_group :
    randomActivity 2 1 [1, 0] = .ok [[1, 0]] ∧ [1, 0].Perm (List.range 2) ∧
    gradActive [(5 : ℚ), 7] [1, 0] = [5, 7] ∧ Spec.pickAt [(5 : ℚ), 7] [1, 0] = [some 7, some 5] := by
  refine ⟨by decide, by decide, by decide +kernel, by decide +kernel⟩

/-! ## Reduction -/

theorem cost_nan : Spec.cost .nan = ⊤ := by simp [Spec.cost]
theorem cost_pinf : Spec.cost .pinf = ⊤ := by simp [Spec.cost, Spec.toE]

theorem cost_of_ne {v : Flt} (h : v ≠ .nan) : Spec.cost v = Spec.toE v := by simp [Spec.cost, h]

/-- The accumulator is never NaN, so that the comparison of the code is the comparison of costs. -/
theorem pick_eq {a b : Flt × α} (ha : a.1 ≠ .nan) :
    pick a b = if Spec.cost b.1 < Spec.cost a.1 then b else a := by
  unfold pick
  by_cases hb : b.1 = .nan
  · have : Flt.lt b.1 a.1 = false := by rw [hb]; cases a.1 <;> rfl
    rw [this, hb, cost_nan]
    simp
  · have := Flt.lt_iff hb ha
    rw [cost_of_ne hb, cost_of_ne ha]
    by_cases h : Spec.toE b.1 < Spec.toE a.1
    · rw [if_pos h, if_pos (this.mpr h)]
    · rw [if_neg h, if_neg (fun hc => h (this.mp hc))]

theorem selected_ne_nan {items : List (Flt × α)} {d : α} {r : Flt × α} (h : Spec.IsSelected items d r) :
    r.1 ≠ .nan := by
  rcases h with ⟨_, rfl⟩ | ⟨k, _, h, _⟩
  · simp
  · intro hc; rw [hc, cost_nan] at h; exact lt_irrefl _ h

theorem selected_cost_le {items : List (Flt × α)} {d : α} {r : Flt × α} (h : Spec.IsSelected items d r) :
    ∀ p ∈ items, Spec.cost r.1 ≤ Spec.cost p.1 := by
  intro p hp
  rcases h with ⟨h, rfl⟩ | ⟨k, hk, _, hlt, h, _⟩
  · rw [h p hp]; exact le_top
  · have := h (Spec.cost p.1) (List.mem_map_of_mem (f := fun p : Flt × α => Spec.cost p.1) hp)
    rw [List.getElem_map] at this
    obtain ⟨_, he⟩ := List.getElem?_eq_some_iff.mp hk
    rw [he] at this; exact this

theorem selected_append {l l' : List (Flt × α)} {d : α} {a b : Flt × α} (ha : Spec.IsSelected l d a)
    (hb : Spec.IsSelected l' d b) : Spec.IsSelected (l ++ l') d (pick a b) := by
  rw [pick_eq (selected_ne_nan ha)]
  have hal := selected_cost_le ha
  have hbl := selected_cost_le hb
  split_ifs with h
  · -- b is kept
    rcases hb with ⟨_, rfl⟩ | ⟨k, hk, hc, hkl, hmin, hfirst⟩
    · rw [cost_pinf] at h; exact absurd h not_top_lt
    · obtain ⟨hlt, he⟩ := List.getElem?_eq_some_iff.mp hk
      refine Or.inr ⟨l.length + k, ?_, hc, ?_⟩
      · rw [List.getElem?_append_right (by omega)]; simpa using hk
      · refine ⟨by simp; omega, ?_, ?_⟩
        · intro x hx
          rw [List.getElem_map, List.getElem_append_right (by omega)]
          simp only [Nat.add_sub_cancel_left, he]
          obtain ⟨p, hp, rfl⟩ := List.mem_map.mp hx
          rcases List.mem_append.mp hp with hp | hp
          · exact le_trans h.le (hal p hp)
          · exact hbl p hp
        · intro j hj
          rw [List.getElem_map, List.getElem_map, List.getElem_append_right (by omega)]
          simp only [Nat.add_sub_cancel_left, he]
          by_cases hjl : j < l.length
          · rw [List.getElem_append_left hjl]
            exact lt_of_lt_of_le h (hal _ (List.getElem_mem _))
          · rw [List.getElem_append_right (by omega)]
            have := hfirst (j - l.length) (by omega)
            rw [List.getElem_map, List.getElem_map, he] at this
            exact this
  · push Not at h
    rcases ha with ⟨hall, rfl⟩ | ⟨k, hk, hc, hkl, hmin, hfirst⟩
    · rw [cost_pinf] at h
      have hbt := top_le_iff.mp h
      refine Or.inl ⟨?_, rfl⟩
      intro p hp
      rcases List.mem_append.mp hp with hp | hp
      · exact hall p hp
      · have := hbl p hp
        rw [hbt] at this
        exact top_le_iff.mp this
    · obtain ⟨hlt, he⟩ := List.getElem?_eq_some_iff.mp hk
      refine Or.inr ⟨k, ?_, hc, ?_⟩
      · rw [List.getElem?_append_left hlt]; exact hk
      · refine ⟨by simp; omega, ?_, ?_⟩
        · intro x hx
          rw [List.getElem_map, List.getElem_append_left hlt, he]
          obtain ⟨p, hp, rfl⟩ := List.mem_map.mp hx
          rcases List.mem_append.mp hp with hp | hp
          · exact hal p hp
          · exact le_trans h (hbl p hp)
        · intro j hj
          have := hfirst j hj
          rw [List.getElem_map, List.getElem_map] at this
          rw [List.getElem_map, List.getElem_map, List.getElem_append_left hlt,
            List.getElem_append_left (by omega)]
          exact this

theorem selected_nil (d : α) : Spec.IsSelected [] d (Flt.pinf, d) := Or.inl ⟨by simp, rfl⟩

theorem selected_single (d : α) (p : Flt × α) : Spec.IsSelected [p] d (pick (.pinf, d) p) := by
  rw [pick_eq (by simp), cost_pinf]
  split_ifs with h
  · exact Or.inr ⟨0, rfl, h, by simp [Spec.IsFirstMin]⟩
  · exact Or.inl ⟨by simpa using h, rfl⟩

theorem pick_pick (a : Flt × α) (d : α) (p : Flt × α) (ha : a.1 ≠ .nan) :
    pick a (pick (.pinf, d) p) = pick a p := by
  rw [pick_eq ha, pick_eq (a := (.pinf, d)) (by simp), pick_eq ha, cost_pinf]
  by_cases h : Spec.cost p.1 < ⊤
  · rw [if_pos h]
  · rw [if_neg h]
    have e : Spec.cost p.1 = ⊤ := by simpa using h
    rw [e, cost_pinf, if_neg not_top_lt, if_neg not_top_lt]

theorem foldl_selected (d : α) (items : List (Flt × α)) : ∀ (l : List (Flt × α)) (a : Flt × α),
    Spec.IsSelected l d a → Spec.IsSelected (l ++ items) d (items.foldl pick a) := by
  induction items with
  | nil => intro l a h; simpa using h
  | cons p ps ih =>
    intro l a h
    rw [List.foldl_cons, ← pick_pick a d p (selected_ne_nan h)]
    have := ih (l ++ [p]) _ (selected_append h (selected_single d p))
    simpa using this

/-- C30. Whatever the way the starts are split among tasks and whatever their results (NaN included), the
reduction selects the first result with the lowest value. -/
theorem C30_reduction_selects_first_minimum (d : α) (t : Split (Flt × α)) :
    Spec.IsSelected t.items d (t.reduce d) := by
  induction t with
  | task l => simpa [Split.items, Split.reduce] using foldl_selected d l [] _ (selected_nil d)
  | join l r ihl ihr => exact selected_append ihl ihr

theorem selected_unique {items : List (Flt × α)} {d : α} {r r' : Flt × α} (h : Spec.IsSelected items d r)
    (h' : Spec.IsSelected items d r') : r = r' := by
  rcases h with ⟨ha, rfl⟩ | ⟨k, hk, hc, hkl, hmin, hfirst⟩
  · rcases h' with ⟨_, rfl⟩ | ⟨k', hk', hc', _⟩
    · rfl
    · rw [ha _ (List.mem_of_getElem? hk')] at hc'; exact absurd hc' (lt_irrefl _)
  · rcases h' with ⟨ha, rfl⟩ | ⟨k', hk', hc', hkl', hmin', hfirst'⟩
    · rw [ha _ (List.mem_of_getElem? hk)] at hc; exact absurd hc (lt_irrefl _)
    · have : k = k' := by
        rcases lt_trichotomy k k' with hlt | rfl | hlt
        · have h1 := hfirst' k hlt
          have h2 := hmin _ (List.getElem_mem hkl')
          exact absurd (lt_of_lt_of_le h1 h2) (lt_irrefl _)
        · rfl
        · have h1 := hfirst k' hlt
          have h2 := hmin' _ (List.getElem_mem hkl)
          exact absurd (lt_of_lt_of_le h1 h2) (lt_irrefl _)
      subst this
      rw [hk, Option.some.injEq] at hk'
      exact hk'

/-- C30. Two ways to split the same starts select the same result. -/
theorem C30_split_independent (d : α) (t t' : Split (Flt × α)) (h : t.items = t'.items) :
    t.reduce d = t'.reduce d :=
  selected_unique (C30_reduction_selects_first_minimum d t)
    (h ▸ C30_reduction_selects_first_minimum d t')

example : (Split.join (.task [(.fin 5, 'a'), (.nan, 'b')]) (.join (.task []) (.task [(.fin 3, 'c'), (.fin 3, 'e')]))).reduce 'z'
    = (.fin 3, 'c') := by decide +kernel

/-! ## Optimization of the infill criterion -/

/-- The external optimizer gives values for the active variables, within their limits `ok`, and when it
reports a finite value this is the value of the criterion `crit` at the point where the other variables are
those of `xbest`. -/
def Honest (n : ℕ) (crit : List α → Flt) (ok : ℕ → α → Prop) (opt : Minimizer α) : Prop :=
  ∀ xbest active valid k, Spec.IsActivity n active valid → xbest.length = n →
    (opt xbest active k).2.length = valid.length ∧
    List.Forall₂ ok valid (opt xbest active k).2 ∧
    ∀ q, (opt xbest active k).1 = .fin q →
      ∀ y, setActive xbest active (opt xbest active k).2 = .ok y → crit y = .fin q

/-- Every component satisfies its limits. -/
def Within (ok : ℕ → α → Prop) (x : List α) : Prop := ∀ i v, x[i]? = some v → ok i v

/-- The three optimizations of the group from `x` give no number. -/
def GroupFails (opt : Minimizer α) (x : List α) (g : List ℕ) : Prop :=
  ∀ k, 1 ≤ k → k ≤ 3 → ∀ q, (opt x g k).1 ≠ .fin q

/-- Invariant of the loop on the groups. -/
structure InfillInv (n : ℕ) (crit : List α → Flt) (ok : ℕ → α → Prop) (opt : Minimizer α) (y0 : Flt) (x0 : List α)
    (done : List (List ℕ)) (touched : List ℕ) (s : InfillSt α) : Prop where
  same : s.curX = s.xbest ∧ s.bestX = s.curX
  len : s.curX.length = n
  within : Within ok x0 → Within ok s.curX
  val : (s.bestVal = y0 ∧ s.bestX = x0 ∧ ∀ g ∈ done, GroupFails opt x0 g) ∨
    ∃ q, s.bestVal = .fin q ∧ crit s.bestX = .fin q
  outside : Spec.SameOutside touched x0 s.bestX

theorem forall₂_get {β γ : Type} {R : β → γ → Prop} {l : List β} {m : List γ} (h : List.Forall₂ R l m) :
    ∀ (i : ℕ) (a : β) (b : γ), l[i]? = some a → m[i]? = some b → R a b := by
  induction h with
  | nil => intro i a b h; simp at h
  | cons h _ ih =>
    intro i a b h1 h2
    cases i with
    | zero => simp at h1 h2; subst h1; subst h2; exact h
    | succ i => exact ih i a b (by simpa using h1) (by simpa using h2)

theorem attempts_inv {n : ℕ} {crit : List α → Flt} {ok : ℕ → α → Prop} {opt : Minimizer α}
    (ho : Honest n crit ok opt) {y0 : Flt} {x0 : List α} {active valid : List ℕ}
    (ha : Spec.IsActivity n active valid) {done : List (List ℕ)} {touched : List ℕ} (left : ℕ) :
    ∀ (s : InfillSt α) (k : ℕ), InfillInv n crit ok opt y0 x0 done touched s →
      ∃ s', attempts opt active s k left = .ok s' ∧
        InfillInv n crit ok opt y0 x0 done (touched ++ valid) s' ∧
        ((∃ q, s'.bestVal = .fin q ∧ crit s'.bestX = .fin q) ∨
          s' = s ∧ ∀ i, k ≤ i → i < k + left → ∀ q, (opt s.xbest active i).1 ≠ .fin q) := by
  induction left with
  | zero =>
    intro s k h
    exact ⟨s, rfl, { h with
      outside := ⟨h.outside.1, fun i hi => h.outside.2 i fun hc => hi (List.mem_append_left _ hc)⟩ },
      Or.inr ⟨rfl, fun i h1 h2 => by omega⟩⟩
  | succ left ih =>
    intro s k h
    simp only [attempts]
    cases hf : (opt s.xbest active k).1 with
    | fin q =>
      simp only [isFinite, if_true]
      have hxl : s.xbest.length = n := by rw [← h.same.1]; exact h.len
      obtain ⟨h1, h2, h3⟩ := ho s.xbest active valid k ha hxl
      obtain ⟨y, hy, hout, hpick, _⟩ := C28_set_get_active s.curX active valid (opt s.xbest active k).2
        (by rw [h.len]; exact ha) h1
      rw [hy]
      have hv := h3 q hf y (h.same.1 ▸ hy)
      refine ⟨⟨_, y, y, y⟩, rfl, ⟨⟨rfl, rfl⟩, by rw [hout.1]; exact h.len, ?_, Or.inr ⟨q, rfl, hv⟩, ?_⟩,
        Or.inl ⟨q, rfl, hv⟩⟩
      · intro hw i v hv
        by_cases hi : i ∈ valid
        · obtain ⟨m, hm, rfl⟩ := List.mem_iff_getElem.mp hi
          have hm2 : m < (opt s.xbest active k).2.length := by omega
          have e : (Spec.pickAt y valid)[m]? = some (y[valid[m]]?) := by
            simp [Spec.pickAt, hm]
          rw [hpick, List.getElem?_map, List.getElem?_eq_getElem hm2, hv] at e
          simp only [Option.map_some, Option.some.injEq] at e
          rw [← e]
          exact forall₂_get h2 m _ _ (List.getElem?_eq_getElem hm) (List.getElem?_eq_getElem hm2)
        · rw [hout.2 i hi] at hv
          exact h.within hw i v hv
      · refine ⟨by rw [hout.1, ← h.same.2]; exact h.outside.1, ?_⟩
        intro i hi
        simp only [List.mem_append, not_or] at hi
        rw [hout.2 i hi.2, ← h.same.2]
        exact h.outside.2 i hi.1
    | nan | ninf | pinf =>
      simp only [isFinite, Bool.false_eq_true, if_false]
      obtain ⟨s', h1, h2, h3⟩ := ih s (k + 1) h
      refine ⟨s', h1, h2, h3.imp_right fun h4 => ⟨h4.1, fun i hi hi2 q hc => ?_⟩⟩
      rcases Nat.eq_or_lt_of_le hi with rfl | hi3
      · rw [hf] at hc; cases hc
      · exact h4.2 i hi3 (by omega) q hc

theorem groups_inv {n : ℕ} {crit : List α → Flt} {ok : ℕ → α → Prop} {opt : Minimizer α}
    (ho : Honest n crit ok opt) {y0 : Flt} {x0 : List α} (gs vs : List (List ℕ))
    (hg : List.Forall₂ (Spec.IsActivity n) gs vs) :
    ∀ (s : InfillSt α) (done : List (List ℕ)) (touched : List ℕ), InfillInv n crit ok opt y0 x0 done touched s →
      ∃ s', groups opt s gs = .ok s' ∧
        InfillInv n crit ok opt y0 x0 (done ++ gs) (touched ++ vs.flatten) s' := by
  induction hg with
  | nil => intro s d t h; exact ⟨s, rfl, by simpa using h⟩
  | @cons g v gs vs hgv _ ih =>
    intro s d t h
    obtain ⟨s1, h1, h2, h3⟩ := attempts_inv ho hgv 3 s 1 h
    have h2' : InfillInv n crit ok opt y0 x0 (d ++ [g]) (t ++ v) s1 := by
      refine { h2 with val := ?_ }
      rcases h3 with h3 | ⟨rfl, h3⟩
      · exact Or.inr h3
      rcases h2.val with ⟨a, b, c⟩ | h4
      · refine Or.inl ⟨a, b, fun g' hg' => ?_⟩
        rcases List.mem_append.1 hg' with hg' | hg'
        · exact c g' hg'
        · obtain rfl := List.mem_singleton.1 hg'
          intro k hk1 hk2
          have := h3 k hk1 (by omega)
          rwa [← h.same.1, ← h.same.2, b] at this
      · exact Or.inr h4
    obtain ⟨s2, h4, h5⟩ := ih s1 _ _ h2'
    refine ⟨s2, by simp only [groups, h1, bind, Except.bind]; exact h4, ?_⟩
    simpa using h5

/-- C65. The infill optimization returns either the current best point with its objective, when no group gave a
number in three optimizations, or a point with the value of the criterion at this very point, which is a number.
The point returned has the dimension of the current best one, is within the limits if the current best one is,
and differs from it only at variables of the groups. -/
theorem C65_infill_value_at_returned_point (crit : List α → Flt) (ok : ℕ → α → Prop) (opt : Minimizer α)
    (ybest : Flt) (xbest : List α) (gs vs : List (List ℕ))
    (hg : List.Forall₂ (Spec.IsActivity xbest.length) gs vs) (ho : Honest xbest.length crit ok opt) :
    ∃ v x, optimizeInfill opt gs ybest xbest xbest = .ok (v, x) ∧
      ((v = ybest ∧ x = xbest ∧ ∀ g ∈ gs, GroupFails opt xbest g) ∨ ∃ q, v = .fin q ∧ crit x = .fin q) ∧
      (Within ok xbest → Within ok x) ∧ Spec.SameOutside vs.flatten xbest x := by
  obtain ⟨s, h1, h2⟩ := groups_inv (y0 := ybest) (x0 := xbest) ho gs vs hg
    ⟨ybest, xbest, xbest, xbest⟩ [] []
    ⟨⟨rfl, rfl⟩, rfl, id, Or.inl ⟨rfl, rfl, by simp⟩, ⟨rfl, fun _ _ => rfl⟩⟩
  refine ⟨s.bestVal, s.bestX, ?_, by simpa using h2.val, ?_, by simpa using h2.outside⟩
  · simp only [optimizeInfill, h1, bind, Except.bind]
  · rw [h2.same.2]; exact h2.within

/-- A minimizer meeting `Honest`: it returns zeros for the active variables, and the number of zeros of the
resulting point as value. -/
def exCrit (x : List ℚ) : Flt := .fin (x.countP (· = 0))

def exMin : Minimizer ℚ := fun xbest active k =>
  let v := (strip active xbest.length).map fun _ => (0 : ℚ)
  (match setActive xbest active v with
    | .ok y => if k = 1 then .nan else exCrit y
    | .error _ => .nan, v)

theorem exMin_honest : Honest 3 exCrit (fun _ v => 0 ≤ v ∧ v ≤ 1) exMin := by
  rintro xbest active valid k ⟨marks, rfl, hnd, hlt, hm⟩ hl
  have hs : strip (valid ++ marks) xbest.length = valid := by
    unfold strip
    rw [List.filter_append, hl]
    have e1 : valid.filter (fun k => decide (k < 3)) = valid := strip_of_lt _ _ hlt
    have e2 : marks.filter (fun k => decide (k < 3)) = [] := by
      rw [List.filter_eq_nil_iff]; intro m hm'; have := hm m hm'; simp; omega
    rw [e1, e2, List.append_nil]
  refine ⟨by simp [exMin, hs], ?_, ?_⟩
  · simp only [exMin, hs]
    rw [List.forall₂_map_right_iff, List.forall₂_same]
    intro _ _; norm_num
  · intro q h1 y hy
    simp only [exMin, hs] at hy h1 ⊢
    rw [hy] at h1
    simp only at h1
    split_ifs at h1 with hk
    exact h1

/-- Two groups: the first attempts fail, the second ones give a point. -/
example : optimizeInfill exMin [[2, 0], [1, 3]] (.fin 8) [1, 1, 1] [1, 1, 1] = .ok (.fin 3, [0, 0, 0]) := by
  decide +kernel
example : List.Forall₂ (Spec.IsActivity 3) [[2, 0], [1, 3]] [[2, 0], [1]] :=
  .cons ⟨[], rfl, by decide, by decide, by decide⟩ (.cons ⟨[3], rfl, by decide, by decide, by decide⟩ .nil)

/-! ## Function constraints within the infill optimization -/

/-- The full point met by the optimizer: active variables have the given values, the others those of `xbest`. -/
def IsFullPoint (xbest : List α) (valid : List ℕ) (values x : List α) : Prop :=
  Spec.SameOutside valid xbest x ∧ Spec.pickAt x valid = values.map some

/-- C66, part. When all variables are active, function constraints are evaluated at the full point. -/
theorem C66_full_activity_partial (xbest values : List ℚ) (g : List ℚ → ℚ) (dg : List ℚ → List ℚ) (s : ℚ)
    (hl : values.length = xbest.length) :
    ∃ x, IsFullPoint xbest (List.range xbest.length) values x ∧ (fcstrCall g dg s values).1 = g x / s := by
  refine ⟨values, ⟨⟨hl, fun i hi => ?_⟩, ?_⟩, rfl⟩
  · simp only [List.mem_range, not_lt] at hi
    rw [List.getElem?_eq_none hi, List.getElem?_eq_none (by omega)]
  · unfold Spec.pickAt
    apply List.ext_getElem
    · simp [hl]
    · intro i h1 h2
      simp only [List.length_map, List.length_range] at h1 h2
      simp [h2]

/-- C66. Surrogates of constraints are evaluated at the full point for any group. -/
theorem C66_surrogates_partial (xbest values : List ℚ) (active valid : List ℕ)
    (ha : Spec.IsActivity xbest.length active valid) (hv : values.length = valid.length)
    (g : List ℚ → ℚ) (dg : List ℚ → List ℚ) (s : ℚ) :
    ∃ x r, IsFullPoint xbest valid values x ∧ surrogateCall g dg s xbest active values = .ok r ∧
      r.1 = g x / s := by
  obtain ⟨y, hy, h1, h2, _⟩ := C28_set_get_active xbest active valid values ha hv
  exact ⟨y, _, ⟨h1, h2⟩, by simp only [surrogateCall, hy, bind, Except.bind]; rfl, rfl⟩

/-- C66 fails with cooperation: the function constraint gets the values of the group only. Here the group is
the second of two variables: the first variable of the full point is 3, the constraint `x0 - 1` reads 7. -/
theorem C66_refuted_group :
    IsFullPoint [(3 : ℚ), 4] [1] [7] [3, 7] ∧ Spec.IsActivity 2 [1] [1] ∧
    (fcstrCall (fun x : List ℚ => x.headD 0 - 1) (fun _ => []) 1 [7]).1 = 6 ∧
    (fun x : List ℚ => x.headD 0 - 1) [3, 7] = 2 := by
  refine ⟨⟨⟨rfl, ?_⟩, by decide +kernel⟩, ⟨[], rfl, by decide, by decide, by decide⟩, by decide +kernel,
    by decide +kernel⟩
  intro i hi
  match i with
  | 0 => rfl
  | 1 => simp at hi
  | i + 2 => rfl

/-- C67, part. The gradient given with a function constraint is that of the value divided by the scale if
the scale is one. -/
theorem C67_unit_scale_partial (g : List ℚ → ℚ) (dg : List ℚ → List ℚ) (values : List ℚ) :
    fcstrCall g dg 1 values = (g values / 1, (dg values).map (· / 1)) := by simp [fcstrCall]

/-- C67. The gradient given with a surrogate of a constraint is scaled like its value (all variables
active). -/
theorem C67_surrogates_partial (g : List ℚ → ℚ) (dg : List ℚ → List ℚ) (s : ℚ) (xbest values : List ℚ)
    (hl : values.length = xbest.length) (hd : ∀ x, (dg x).length = x.length) :
    ∃ x r, surrogateCall g dg s xbest (List.range xbest.length) values = .ok r ∧
      IsFullPoint xbest (List.range xbest.length) values x ∧ r = (g x / s, (dg x).map (· / s)) := by
  obtain ⟨y, hy, h1, h2, _⟩ := C28_set_get_active xbest (List.range xbest.length) (List.range xbest.length) values
    ⟨[], by simp, List.nodup_range, fun i hi => List.mem_range.mp hi, by simp⟩ (by simp [hl])
  refine ⟨y, _, by simp only [surrogateCall, hy, bind, Except.bind]; rfl, ⟨h1, h2⟩, ?_⟩
  congr 1
  apply C29_full_activity_partial
  simp [fullActivity, hd, h1.1]

/-- C67 fails for other scales: constraint `4 x`, scale 2. The value is `2 x`, the gradient is 4. -/
theorem C67_refuted_scale :
    fcstrCall (fun x : List ℚ => 4 * x.headD 0) (fun _ => [4]) 2 [3] = (6, [4]) := by decide +kernel

end Verif.Props
