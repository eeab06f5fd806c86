import Verif.Model.DupF64
import Verif.Props.NormF64

/-!
# C157: duplicates in double precision

Points which pass the check of duplicates should be distinct points for the model, and points of the search space should
pass it unless they are stored already.
-/

set_option autoImplicit false

namespace Verif.Props

open Verif Verif.F64 Verif.Spec Verif.NormF64 Verif.DupF64

/-! ## Specification -/

/-- Sum of absolute differences. -/
def exactL1 (x y : List ℝ) : ℝ := (List.zipWith (fun a b => |a - b|) x y).sum

/-- All coordinates are numbers of type `f64`. -/
def RowF64 (x : List ℝ) : Prop := ∀ a ∈ x, IsF64 a

/-! ## The distance -/

theorem dup_abs {z : ℝ} (h : IsF64 z) : IsF64 |z| := by
  rcases abs_choice z with e | e <;> rw [e]
  exacts [h, isF64_neg h]

/-- The distance is that of the points in the other order. -/
theorem C157_symmetric (x y : List ℝ) : l1 x y = l1 y x := by
  have key : ∀ (x y : List ℝ) (a : ℝ), l1From a x y = l1From a y x := by
    intro x
    induction x with
    | nil => intro y a; cases y <;> rfl
    | cons c x ih =>
      intro y a
      cases y with
      | nil => rfl
      | cons b y =>
        have : |sub c b| = |sub b c| := by
          unfold sub
          rw [show c - b = -(b - c) by ring, nrm_rnd_neg, abs_neg]
        simp only [l1From, this, ih]
  exact key x y 0

theorem dup_near (x : List ℝ) : ∀ (y : List ℝ) (k : ℕ) (S E : ℝ), RowF64 x → RowF64 y → k + x.length ≤ 2 ^ 40 →
    x.length = y.length → IsF64 S → 0 ≤ S → 0 ≤ E → |S - E| ≤ (k + 1) * 2 ^ (-52 : ℤ) * E →
    |l1From S x y - (E + exactL1 x y)| ≤ ((k + x.length : ℕ) + 1) * 2 ^ (-52 : ℤ) * (E + exactL1 x y) := by
  induction x with
  | nil =>
    intro y k S E _ _ _ _ _ _ _ h
    cases y <;> simpa [l1From, exactL1] using h
  | cons a x ih =>
    intro y k S E hx hy hk hl hS hS0 hE h
    cases y with
    | nil => simp at hl
    | cons b y =>
      simp only [List.length_cons] at hk hl
      have ha := hx a (by simp)
      have hb := hy b (by simp)
      have := ih y (k + 1) (add S |sub a b|) (E + |a - b|) (fun c hc => hx c (by simp [hc])) (fun c hc => hy c (by simp [hc]))
        (by omega) (by omega) (rnd_isF64 _) (rnd_nonneg (by positivity)) (by positivity) ?_
      · have e : E + exactL1 (a :: x) (b :: y) = E + |a - b| + exactL1 x y := by
          simp [exactL1, add_assoc]
        simp only [l1From]
        rw [e, List.length_cons, show k + (x.length + 1) = k + 1 + x.length by ring]
        exact this
      · have h1 := nrm_sub_near ha hb
        have h2 : |add S |sub a b| - (S + |sub a b|)| ≤ 2 ^ (-53 : ℤ) * abs (S + |sub a b|) :=
          rnd_rel_add (dup_abs (rnd_isF64 _)) hS
        have e52 : (2 : ℝ) ^ (-52 : ℤ) = 2 * 2 ^ (-53 : ℤ) := by norm_num
        have hkk : ((k : ℝ) + 1) * (2 * 2 ^ (-53 : ℤ)) ≤ 1 / 2 := by
          have : (k : ℝ) + 1 ≤ 2 ^ 40 := by
            have : k + 1 ≤ 2 ^ 40 := by omega
            exact_mod_cast this
          have h53 : (0 : ℝ) ≤ 2 * 2 ^ (-53 : ℤ) := by positivity
          have := mul_le_mul_of_nonneg_right this h53
          refine this.trans ?_
          norm_num
        have hu1 : (2 : ℝ) ^ (-53 : ℤ) ≤ 1 / 1000 := by norm_num
        have hu0 := zpow2_pos (-53)
        rw [e52] at h ⊢
        generalize (2 : ℝ) ^ (-53 : ℤ) = u at *
        rw [abs_of_nonneg (by positivity : 0 ≤ S + |sub a b|)] at h2
        have h3 : abs (|sub a b| - |a - b|) ≤ u * |a - b| := (abs_abs_sub_abs_le _ _).trans h1
        have hd := abs_nonneg (a - b)
        generalize |sub a b| = p at *
        generalize |a - b| = d at *
        have hkE := mul_le_mul_of_nonneg_right hkk hE
        have g1 := (abs_le.1 h).2
        have g2 := (abs_le.1 h3).2
        have p1 := mul_le_mul_of_nonneg_right hu1 hd
        have hSp : S + p ≤ 2 * (E + d) := by linarith
        have h4 := mul_le_mul_of_nonneg_left hSp hu0.le
        have e : add S p - (E + d) = (add S p - (S + p)) + (S - E) + (p - d) := by ring
        rw [e]
        have a1 := abs_add_le ((add S p - (S + p)) + (S - E)) (p - d)
        have a2 := abs_add_le (add S p - (S + p)) (S - E)
        have q1 : 0 ≤ (k : ℝ) * (u * d) := by positivity
        have q2 : 0 ≤ u * d := by positivity
        push_cast
        have e2 : ((k : ℝ) + 1 + 1) * (2 * u) * (E + d) =
            ((k : ℝ) + 1) * (2 * u) * E + 2 * (k * (u * d)) + 2 * (u * d) + u * (2 * (E + d)) := by ring
        rw [e2]
        linarith

/-- The distance is exact up to `2^-52` per coordinate, relatively. -/
theorem C157_distance (x y : List ℝ) (hx : RowF64 x) (hy : RowF64 y) (hl : x.length = y.length) (hn : x.length ≤ 2 ^ 40) :
    |l1 x y - exactL1 x y| ≤ (x.length + 1) * 2 ^ (-52 : ℤ) * exactL1 x y := by
  have := dup_near x y 0 0 0 hx hy (by simpa using hn) hl isF64_zero le_rfl le_rfl (by simp)
  simpa [DupF64.l1] using this

theorem exactL1_nonneg (x y : List ℝ) : 0 ≤ exactL1 x y := by
  unfold exactL1
  refine List.sum_nonneg fun a ha => ?_
  obtain ⟨i, hi, rfl⟩ := List.mem_iff_getElem.1 ha
  simp

/-- What the check decides: a point accepted is at least 99 epsilon from the points stored, a point at least 101 epsilon from all of them
is accepted. -/
theorem C157_accepted_partial (data : List (List ℝ)) (x : List ℝ) (hx : RowF64 x) (hd : ∀ r ∈ data, RowF64 r ∧ r.length = x.length)
    (hn : x.length ≤ 2 ^ 40) :
    (isUpdateOk data x → ∀ r ∈ data, 99 * 2 ^ (-52 : ℤ) ≤ exactL1 r x) ∧
      ((∀ r ∈ data, 101 * 2 ^ (-52 : ℤ) ≤ exactL1 r x) → isUpdateOk data x) := by
  have key : ∀ r ∈ data, |l1 r x - exactL1 r x| ≤ 1 / 1000 * exactL1 r x := by
    intro r hr
    obtain ⟨h1, h2⟩ := hd r hr
    refine (C157_distance r x h1 hx h2 (by omega)).trans ?_
    refine mul_le_mul_of_nonneg_right ?_ (exactL1_nonneg _ _)
    have : (r.length : ℝ) + 1 ≤ 2 ^ 41 := by
      have : r.length + 1 ≤ 2 ^ 41 := by omega
      exact_mod_cast this
    have := mul_le_mul_of_nonneg_right this (zpow2_pos (-52)).le
    refine this.trans ?_
    norm_num
  have hu := zpow2_pos (-52)
  constructor
  · intro h r hr
    have h1 := h r hr
    have h2 := (abs_le.1 (key r hr)).2
    unfold threshold at h1
    generalize (2 : ℝ) ^ (-52 : ℤ) = u at *
    linarith
  · intro h r hr h1
    have h2 := (abs_le.1 (key r hr)).1
    have h3 := h r hr
    unfold threshold at h1
    generalize (2 : ℝ) ^ (-52 : ℤ) = u at *
    linarith

/-- After a batch every two points are at least 99 epsilon apart, if it was so before. -/
theorem C157_batch (n : ℕ) (hn : n ≤ 2 ^ 40) (xs : List (List ℝ)) (hx : ∀ x ∈ xs, RowF64 x ∧ x.length = n) :
    ∀ data : List (List ℝ), (∀ r ∈ data, RowF64 r ∧ r.length = n) →
      data.Pairwise (fun r x => 99 * 2 ^ (-52 : ℤ) ≤ exactL1 r x) →
      data <+: updateData data xs ∧ (updateData data xs).Pairwise fun r x => 99 * 2 ^ (-52 : ℤ) ≤ exactL1 r x := by
  induction xs with
  | nil => intro data _ h; exact ⟨List.prefix_rfl, h⟩
  | cons x xs ih =>
    intro data hd h
    obtain ⟨h1, h2⟩ := hx x (by simp)
    unfold updateData
    split_ifs with hok
    · have hnew := (C157_accepted_partial data x h1 (fun r hr => by rw [h2]; exact hd r hr) (by omega)).1 hok
      obtain ⟨p1, p2⟩ := ih (fun y hy => hx y (by simp [hy])) (data ++ [x])
        (by
          intro r hr
          rcases List.mem_append.1 hr with hr | hr
          · exact hd r hr
          · rw [List.mem_singleton] at hr
            subst hr
            exact ⟨h1, h2⟩)
        (by
          rw [List.pairwise_append]
          refine ⟨h, List.pairwise_singleton _ _, ?_⟩
          intro r hr y hy
          rw [List.mem_singleton] at hy
          subst hy
          exact hnew r hr)
      exact ⟨(List.prefix_append _ _).trans p1, p2⟩
    · exact ih (fun y hy => hx y (by simp [hy])) data hd h

/-- After a batch the points stored are those before, followed by points of the batch in order, and every point of the batch is within
101 epsilon of a point stored. -/
theorem C157_batch_covered (n : ℕ) (hn : n ≤ 2 ^ 40) (xs : List (List ℝ)) (hx : ∀ x ∈ xs, RowF64 x ∧ x.length = n) :
    ∀ data : List (List ℝ), (∀ r ∈ data, RowF64 r ∧ r.length = n) →
      (∃ new, new.Sublist xs ∧ updateData data xs = data ++ new) ∧
      ∀ x ∈ xs, ∃ r ∈ updateData data xs, exactL1 r x < 101 * 2 ^ (-52 : ℤ) := by
  induction xs with
  | nil => intro data _; exact ⟨⟨[], List.Sublist.refl _, by simp [updateData]⟩, by simp⟩
  | cons x xs ih =>
    intro data hd
    obtain ⟨h1, h2⟩ := hx x (by simp)
    have hx' : ∀ y ∈ xs, RowF64 y ∧ y.length = n := fun y hy => hx y (by simp [hy])
    unfold updateData
    split_ifs with hok
    · obtain ⟨⟨new, p1, p2⟩, p3⟩ := ih hx' (data ++ [x])
        (by
          intro r hr
          rcases List.mem_append.1 hr with hr | hr
          · exact hd r hr
          · rw [List.mem_singleton] at hr
            subst hr
            exact ⟨h1, h2⟩)
      refine ⟨⟨x :: new, p1.cons_cons x, by simp [p2]⟩, ?_⟩
      intro y hy
      rcases List.mem_cons.1 hy with rfl | hy
      · refine ⟨y, by rw [p2]; simp, ?_⟩
        have : exactL1 y y = 0 := by simp [exactL1, List.zipWith_self]
        rw [this]
        exact mul_pos (by norm_num) (zpow2_pos _)
      · exact p3 y hy
    · obtain ⟨⟨new, p1, p2⟩, p3⟩ := ih hx' data hd
      refine ⟨⟨new, p1.cons x, p2⟩, ?_⟩
      intro y hy
      rcases List.mem_cons.1 hy with rfl | hy
      · by_contra hc
        push Not at hc
        refine hok ((C157_accepted_partial data y h1 (fun r hr => by rw [h2]; exact hd r hr) (by omega)).2 fun r hr => ?_)
        exact hc r (by rw [p2]; simp [hr])
      · exact p3 y hy

/-- The threshold is absolute: once a point is stored, none of a search space whose widths sum to less than 99 epsilon is accepted. -/
theorem C157_refuted_small_space (data : List (List ℝ)) (r x : List ℝ) (hr : r ∈ data) (h1 : RowF64 r) (h2 : RowF64 x)
    (hl : r.length = x.length) (hn : x.length ≤ 2 ^ 40) (h : exactL1 r x < 99 * 2 ^ (-52 : ℤ)) : ¬ isUpdateOk data x := by
  intro hok
  have := (C157_accepted_partial [r] x h2 (by simp [h1, hl]) hn).1 (by
    intro s hs
    rw [List.mem_singleton] at hs
    subst hs
    exact hok s hr) r (by simp)
  linarith

/-! ## Accepted points and the model -/

/-- The normalized row, the columns having means `m` and deviations `s`. -/
noncomputable def normRow (m s : List ℝ) (x : List ℝ) : List ℝ := List.zipWith (fun ms a => center ms.1 ms.2 a) (m.zip s) x

theorem dup_sum (R t : ℝ) (m : List ℝ) : ∀ (s x y : List ℝ), m.length = s.length → m.length = x.length → m.length = y.length →
    RowF64 m → RowF64 x → RowF64 y → (∀ v ∈ s, 0 < v ∧ v * 2 ^ (-1073 : ℤ) ≤ t) →
    (∀ p ∈ m.zip x, |p.2 - p.1| ≤ R) → (∀ p ∈ m.zip y, |p.2 - p.1| ≤ R) → normRow m s x = normRow m s y →
    exactL1 x y ≤ m.length * (2 ^ (-51 : ℤ) * (2 * R) + t) := by
  induction m with
  | nil =>
    intro s x y _ h2 h3 _ _ _ _ _ _ _
    have hx : x = [] := List.eq_nil_of_length_eq_zero (by simpa using h2.symm)
    subst hx
    simp [exactL1]
  | cons a m ih =>
    intro s x y h1 h2 h3 hm hx hy hs hxR hyR h
    cases s with
    | nil => simp at h1
    | cons v s =>
      cases x with
      | nil => simp at h2
      | cons b x =>
        cases y with
        | nil => simp at h3
        | cons c y =>
          simp only [normRow, List.zip_cons_cons, List.zipWith_cons_cons, List.cons.injEq] at h
          have hv := hs v (by simp)
          have g1 := hxR (a, b) (by simp)
          have g2 := hyR (a, c) (by simp)
          have k := C156_separated_partial a v b c (hx b (by simp)) (hy c (by simp)) (hm a (by simp)) hv.1 h.1
          have := ih s x y (by simpa using h1) (by simpa using h2) (by simpa using h3) (fun z hz => hm z (by simp [hz]))
            (fun z hz => hx z (by simp [hz])) (fun z hz => hy z (by simp [hz])) (fun z hz => hs z (by simp [hz]))
            (fun p hp => hxR p (by simp [hp])) (fun p hp => hyR p (by simp [hp])) h.2
          have h51 := zpow2_pos (-51)
          have g3 := mul_le_mul_of_nonneg_left (add_le_add g1 g2) h51.le
          have e : exactL1 (b :: x) (c :: y) = |b - c| + exactL1 x y := by simp [exactL1]
          rw [e, List.length_cons]
          push_cast
          simp only at g3
          generalize (2 : ℝ) ^ (-51 : ℤ) = u at *
          linarith [hv.2]

/-- Accepted points are distinct for the model if the distances to the means, in all coordinates, sum to at most 24: for
instance in a space of dimension at most 24 whose variables are between 0 and 1. -/
theorem C157_distinct_partial (data : List (List ℝ)) (x r m s : List ℝ) (R : ℝ) (hr : r ∈ data) (hok : isUpdateOk data x)
    (hx : RowF64 x) (hrF : RowF64 r) (hmF : RowF64 m) (h1 : m.length = s.length) (h2 : m.length = x.length)
    (h3 : m.length = r.length) (hn : x.length ≤ 2 ^ 40) (hs : ∀ v ∈ s, 0 < v ∧ v ≤ 2 ^ (900 : ℤ))
    (hxR : ∀ p ∈ m.zip x, |p.2 - p.1| ≤ R) (hyR : ∀ p ∈ m.zip r, |p.2 - p.1| ≤ R) (hR : m.length * R ≤ 24) :
    normRow m s x ≠ normRow m s r := by
  intro h
  have hacc := (C157_accepted_partial [r] x hx (by simp [hrF, ← h3, h2]) hn).1 (by
    intro q hq
    rw [List.mem_singleton] at hq
    subst hq
    exact hok q hr) r (by simp)
  have hd := dup_sum R (2 ^ (-173 : ℤ)) m s r x h1 h3 h2 hmF hrF hx (by
    intro v hv
    obtain ⟨a1, a2⟩ := hs v hv
    refine ⟨a1, ?_⟩
    have := mul_le_mul_of_nonneg_right a2 (zpow2_pos (-1073)).le
    refine this.trans (le_of_eq ?_)
    rw [← zpow_add₀ (by norm_num)]
    norm_num) hyR hxR h.symm
  have hlen : (m.length : ℝ) ≤ 2 ^ 40 := by
    have : m.length ≤ 2 ^ 40 := by omega
    exact_mod_cast this
  have ht : (m.length : ℝ) * 2 ^ (-173 : ℤ) ≤ 2 ^ (-52 : ℤ) := by
    have := mul_le_mul_of_nonneg_right hlen (zpow2_pos (-173)).le
    refine this.trans ?_
    norm_num
  have e : (m.length : ℝ) * (2 ^ (-51 : ℤ) * (2 * R) + 2 ^ (-173 : ℤ)) =
      4 * 2 ^ (-52 : ℤ) * (m.length * R) + m.length * 2 ^ (-173 : ℤ) := by
    have : (2 : ℝ) ^ (-51 : ℤ) = 2 * 2 ^ (-52 : ℤ) := by norm_num
    rw [this]; ring
  rw [e] at hd
  have hu := zpow2_pos (-52)
  have h4 := mul_le_mul_of_nonneg_left hR (by positivity : (0 : ℝ) ≤ 4 * 2 ^ (-52 : ℤ))
  generalize (2 : ℝ) ^ (-52 : ℤ) = u at *
  generalize (2 : ℝ) ^ (-173 : ℤ) = w at *
  linarith

/-- Accepted points may be one and the same for the model: three points of a variable with large values, all accepted, two of which have
the same normalized value. -/
theorem C157_refuted_merged :
    updateData [] [[0], [1], [3 * 2 ^ 60]] = [[0], [1], [3 * 2 ^ 60]] ∧
      ∃ v w, NormF64.normalize [0, 1, 3 * 2 ^ 60] = [v, v, w] := by
  have f1 : IsF64 (1 : ℝ) := by simpa using isF64_zpow (e := 0) (by norm_num)
  have f3 : IsF64 (3 * 2 ^ 60 : ℝ) := ⟨3, 60, by norm_num, by norm_num, by norm_num⟩
  have hrow : ∀ a : ℝ, IsF64 a → RowF64 [a] := by
    intro a ha b hb
    rw [List.mem_singleton] at hb
    subst hb
    exact ha
  constructor
  · have o1 : isUpdateOk [] [0] := by simp [isUpdateOk]
    have o2 : isUpdateOk [[0]] [1] := by
      refine (C157_accepted_partial [[0]] [1] (hrow 1 f1) (by simp [hrow 0 isF64_zero]) (by simp)).2 ?_
      intro r hr
      rw [List.mem_singleton] at hr
      subst hr
      norm_num [exactL1]
    have o3 : isUpdateOk [[0], [1]] [3 * 2 ^ 60] := by
      refine (C157_accepted_partial [[0], [1]] [3 * 2 ^ 60] (hrow _ f3) (by simp [hrow 0 isF64_zero, hrow 1 f1]) (by simp)).2 ?_
      intro r hr
      simp only [List.mem_cons, List.not_mem_nil, or_false] at hr
      rcases hr with rfl | rfl <;> norm_num [exactL1]
    simp [updateData, o1, o2, o3]
  · refine ⟨center (mean [0, 1, 3 * 2 ^ 60]) (scale [0, 1, 3 * 2 ^ 60]) 0,
      center (mean [0, 1, 3 * 2 ^ 60]) (scale [0, 1, 3 * 2 ^ 60]) (3 * 2 ^ 60), ?_⟩
    simp only [NormF64.normalize, List.map_cons, List.map_nil]
    congr 2
    apply C156_refuted_merge
    · exact rnd_isF64 _
    have hm : 2 ^ 60 ≤ mean [0, 1, 3 * 2 ^ 60] := by
      simp only [mean, List.foldl_cons, List.foldl_nil, List.length_cons, List.length_nil, add, div]
      have h1 : (0 : ℝ) ≤ rnd (rnd (0 + 0) + 1) := by
        rw [add_zero, rnd_zero, zero_add]
        exact rnd_nonneg zero_le_one
      have h2 : (3 * 2 ^ 60 : ℝ) ≤ rnd (rnd (rnd (0 + 0) + 1) + 3 * 2 ^ 60) := le_rnd f3 (by linarith)
      refine le_rnd ?_ ?_
      · simpa using isF64_zpow (e := 60) (by norm_num)
      · generalize rnd (rnd (rnd (0 + 0) + 1) + 3 * 2 ^ 60) = z at *
        norm_num at h2 ⊢
        linarith
    rw [abs_one, abs_of_nonneg (le_trans (by norm_num) hm)]
    have := mul_le_mul_of_nonneg_left hm (zpow2_pos (-55)).le
    refine lt_of_lt_of_le ?_ this
    norm_num

/-! ## Examples -/

/-- The hypotheses on a batch hold for a design of two points, both of which are kept apart. -/
example : [[(0 : ℝ)], [1]].Pairwise fun r x => 99 * 2 ^ (-52 : ℤ) ≤ exactL1 r x := by norm_num [exactL1]

/-- A search space of one variable, too small. -/
example : exactL1 [0] [2 ^ (-50 : ℤ)] < 99 * 2 ^ (-52 : ℤ) := by norm_num [exactL1]

/-- Two points of a plane. -/
example : exactL1 [0, 1] [2, -1] = 4 := by norm_num [exactL1]

/-- A second point, accepted, in a space of one variable between 0 and 1, and its normalized value. -/
example : normRow [1 / 2] [1] [1] ≠ normRow [1 / 2] [1] [0] := by
  have f1 : IsF64 (1 : ℝ) := by simpa using isF64_zpow (e := 0) (by norm_num)
  have f2 : IsF64 (1 / 2 : ℝ) := by
    have := isF64_zpow (e := -1) (by norm_num)
    norm_num at this ⊢
    exact this
  have hrow : ∀ a : ℝ, IsF64 a → RowF64 [a] := by
    intro a ha b hb
    rw [List.mem_singleton] at hb
    subst hb
    exact ha
  refine C157_distinct_partial [[0]] [1] [0] [1 / 2] [1] (1 / 2) (by simp) ?_ (hrow 1 f1) (hrow 0 isF64_zero) (hrow _ f2) rfl rfl rfl
    (by simp) ?_ ?_ ?_ (by norm_num)
  · refine (C157_accepted_partial [[0]] [1] (hrow 1 f1) (by simp [hrow 0 isF64_zero]) (by simp)).2 ?_
    intro r hr
    rw [List.mem_singleton] at hr
    subst hr
    norm_num [exactL1]
  · intro v hv
    rw [List.mem_singleton] at hv
    subst hv
    exact ⟨one_pos, one_le_zpow₀ (by norm_num) (by norm_num)⟩
  · intro p hp
    simp only [List.zip_cons_cons, List.zip_nil_right, List.mem_singleton] at hp
    subst hp
    norm_num
  · intro p hp
    simp only [List.zip_cons_cons, List.zip_nil_right, List.mem_singleton] at hp
    subst hp
    norm_num

end Verif.Props
