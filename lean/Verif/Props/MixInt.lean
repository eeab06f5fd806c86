import Verif.Lemmas.MixInt
import Mathlib.Data.Rat.Floor

/-!
# C07-C10: mixed-integer variables
-/

set_option autoImplicit false
set_option linter.unusedSectionVars false

namespace Verif.Props

open Verif Spec MixInt

variable {K : Type} [Field K] [LinearOrder K] [IsStrictOrderedRing K] [FloorRing K]

/-- **C07**. Casting a relaxed point never panics for valid types, gives a point with the same number of
components, whose discrete components are admissible, and casting again changes nothing. -/
theorem C07_cast_admissible_idempotent (ts : List (XType K)) (hok : ∀ t ∈ ts, TypeOk t) (x : List K)
    (hl : x.length = relaxedDim ts) :
    ∃ x', castRow ts x = .ok x' ∧ x'.length = x.length ∧ Admissible ts x' ∧
      castRow ts x' = .ok x' := by
  obtain ⟨x', h1, h2⟩ := castRow_spec ts hok x hl
  refine ⟨x', h1, ?_, h2.admissible, castRow_admissible h2.admissible⟩
  clear h1 hl hok
  induction h2 with
  | nil => rfl
  | float _ ih => simp [ih]
  | int _ _ ih => simp [ih]
  | ord _ _ _ ih => simp [ih]
  | enum ha hb _ _ ih => simp [ih, ha, hb.1]

/-- **C07** (fixed points). A point whose discrete components are already admissible is unchanged. -/
theorem C07_admissible_unchanged (ts : List (XType K)) (x : List K) (h : Admissible ts x) :
    castRow ts x = .ok x := castRow_admissible h

example : castRow [XType.float (0 : ℚ) 1, .int (-3) 3, .ord [1, 4, 9], .enum 3]
    [1/3, -5/2, 13/2, 1/5, 4/5, 4/5] = .ok [1/3, -3, 4, 0, 1, 0] := by decide +kernel

/-- **C08**. The cast point is made of nearest integers, nearest values of lists and masks of (first)
largest components (`Spec.Cast`), floats being unchanged. -/
theorem C08_cast_is_nearest (ts : List (XType K)) (hok : ∀ t ∈ ts, TypeOk t) (x : List K)
    (hl : x.length = relaxedDim ts) : ∃ x', castRow ts x = .ok x' ∧ Cast ts x x' :=
  castRow_spec ts hok x hl

/-- **C08** (integers). Rounding a value inside integer bounds stays inside the bounds. -/
theorem C08_round_stays_in_bounds (x : K) (l u : ℤ) (h1 : (l : K) ≤ x) (h2 : x ≤ (u : K)) :
    l ≤ roundHalfAway x ∧ roundHalfAway x ≤ u := round_bounds h1 h2

/-- **C10**. Relaxed limits: one per relaxed component, ordered, containing the relaxation of every
admissible point, and stable by casting. -/
theorem C10_limits (ts : List (XType K)) (hok : ∀ t ∈ ts, TypeOk t) :
    ∃ lim, continuousLimits ts = .ok lim ∧ lim.length = relaxedDim ts ∧
      (ts ≠ [] → continuousDim ts = .ok (relaxedDim ts)) ∧ (∀ l ∈ lim, l.1 ≤ l.2) ∧
      (∀ x u, Relaxed ts x u → InLimits lim u) ∧
      (∀ x, InLimits lim x → ∃ x', castRow ts x = .ok x' ∧ InLimits lim x') := by
  obtain ⟨lim, h1, h2, h3, h4, h5⟩ := limits_spec ts hok
  refine ⟨lim, h1, h2, ?_, h3, h4, ?_⟩
  · intro hne
    cases ts with
    | nil => exact absurd rfl hne
    | cons t ts =>
      simp only [continuousDim, relaxedDim]
      congr 2
  · intro x hx
    obtain ⟨x', hc1, hc2⟩ := castRow_spec ts hok x (by rw [← h2]; exact hx.length_eq.symm)
    exact ⟨x', hc1, h5 x x' hx hc2⟩

example : continuousLimits [XType.float (0 : ℚ) 1, .int (-3) 3, .ord [4, 1, 9], .enum 2]
    = .ok [(0, 1), (-3, 3), (1, 9), (0, 1), (0, 1)] := by decide +kernel

omit [FloorRing K] in
/-- An admissible relaxed point inside the limits is the relaxation of an admissible point. -/
theorem exists_relaxed (ts : List (XType K)) (lim : List (K × K)) (u : List K)
    (hlim : continuousLimits ts = .ok lim) (hu : InLimits lim u) (ha : Admissible ts u) :
    ∃ x, Relaxed ts x u := by
  induction ha generalizing lim with
  | nil => exact ⟨[], .nil⟩
  | @float l up x ts xs _ ih =>
    simp only [continuousLimits, bind, Except.bind] at hlim
    cases hr : continuousLimits ts with
    | error e => simp [hr] at hlim
    | ok r =>
      simp only [hr, Except.ok.injEq] at hlim
      subst hlim
      cases hu with
      | cons h1 h2 =>
        obtain ⟨y, hy⟩ := ih r hr h2
        exact ⟨x :: y, .float h1.1 h1.2 hy⟩
  | @int l up z ts xs _ ih =>
    simp only [continuousLimits, bind, Except.bind] at hlim
    cases hr : continuousLimits ts with
    | error e => simp [hr] at hlim
    | ok r =>
      simp only [hr, Except.ok.injEq] at hlim
      subst hlim
      cases hu with
      | cons h1 h2 =>
        obtain ⟨y, hy⟩ := ih r hr h2
        exact ⟨(z : K) :: y, .int (Int.cast_le.1 h1.1) (Int.cast_le.1 h1.2) hy⟩
  | @ord vs x ts xs hm _ ih =>
    cases vs with
    | nil => simp at hm
    | cons v vs =>
      simp only [continuousLimits, bind, Except.bind] at hlim
      cases hr : continuousLimits ts with
      | error e => simp [hr] at hlim
      | ok r =>
        simp only [hr, Except.ok.injEq] at hlim
        subst hlim
        cases hu with
        | cons h1 h2 =>
          obtain ⟨y, hy⟩ := ih r hr h2
          exact ⟨x :: y, .ord hm hy⟩
  | @enum n k b ts xs hb _ ih =>
    simp only [continuousLimits, bind, Except.bind] at hlim
    cases hr : continuousLimits ts with
    | error e => simp [hr] at hlim
    | ok r =>
      simp only [hr, Except.ok.injEq] at hlim
      subst hlim
      have := List.forall₂_drop_append _ b xs hu
      rw [hb.1] at this
      have hd : (List.replicate n ((0 : K), (1 : K)) ++ r).drop n = r := by
        conv => lhs; arg 1; rw [← List.length_replicate (n := n) (a := ((0 : K), (1 : K)))]
        exact List.drop_left
      rw [hd] at this
      obtain ⟨y, hy⟩ := ih r hr this
      exact ⟨(k : K) :: y, .enum hb hy⟩

/-- **C09** (relaxing, partial). When no categorical variable with two levels or more is placed before a non
categorical variable, relaxing an admissible point gives its relaxation.
Missing: the property for all lists of types, which is false (see the counterexamples below). -/
theorem C09_encode_partial (ts : List (XType K)) (hne : ts ≠ [])
    (hn : ts.Pairwise fun a b => ∀ n, a = .enum n → (∀ m, b ≠ .enum m) → n = 1)
    (x u : List K) (h : Relaxed ts x u) : toContinuousSpace ts x = .ok u := by
  have hd : ∃ d, continuousDim ts = .ok d := by
    cases ts with
    | nil => exact absurd rfl hne
    | cons => exact ⟨_, rfl⟩
  obtain ⟨d, hd⟩ := hd
  have := unfoldFrom_relaxed ts [] 0 h
    (hn.imp fun {a b} hab n ha hb => hab n ha fun m hm => hb ⟨m, hm⟩) (Or.inl rfl)
  simp only [List.nil_append, List.length_nil] at this
  simp [toContinuousSpace, hd, this, bind, Except.bind]

/-- **C09** (decoding, partial). When no categorical variable with two levels or more is placed before
another categorical variable, decoding the relaxation of an admissible point gives the point back.
Missing: the property for all lists of types, which is false (see the counterexamples below). -/
theorem C09_decode_partial (ts : List (XType K))
    (hn : ts.Pairwise fun a b => ∀ n m, a = .enum n → b = .enum m → n = 1)
    (x u : List K) (h : Relaxed ts x u) : toDiscreteSpace ts u = .ok x := by
  have := foldFrom_relaxed ts [] 0 h
    (hn.imp fun {a b} hab n ha ⟨m, hb⟩ => hab n m ha hb) (Or.inl rfl)
  simp only [List.nil_append, List.length_nil] at this
  simp [toDiscreteSpace, castRow_admissible h.admissible, fold, this, bind, Except.bind]

/-- **C09** (round trip, partial). When every variable but possibly the last one has a single relaxed
component, relaxing an admissible point then decoding it gives the point back. -/
theorem C09_round_trip_partial (ts : List (XType K)) (hne : ts ≠ [])
    (hn : ts.Pairwise fun a _ => ∀ n, a = .enum n → n = 1) (x u : List K) (h : Relaxed ts x u) :
    (toContinuousSpace ts x >>= toDiscreteSpace ts) = .ok x ∧
      (toDiscreteSpace ts u >>= toContinuousSpace ts) = .ok u := by
  have h1 := C09_encode_partial ts hne (hn.imp fun {a b} hab n ha _ => hab n ha) x u h
  have h2 := C09_decode_partial ts (hn.imp fun {a b} hab n m ha _ => hab n ha) x u h
  rw [h1, h2]
  exact ⟨h2, h1⟩

/-- **C09** (partial). When no categorical variable with two levels or more is placed before another
categorical variable, decoding any relaxed point inside the limits gives the admissible point whose
relaxation is the cast point. -/
theorem C09_decode_admissible_partial (ts : List (XType K))
    (hok : ∀ t ∈ ts, TypeOk t)
    (hn : ts.Pairwise fun a b => ∀ n m, a = .enum n → b = .enum m → n = 1)
    (lim : List (K × K)) (hlim : continuousLimits ts = .ok lim) (u : List K) (hu : InLimits lim u) :
    ∃ x u', toDiscreteSpace ts u = .ok x ∧ castRow ts u = .ok u' ∧ Relaxed ts x u' := by
  obtain ⟨lim', h1, h2, _, _, h5⟩ := limits_spec ts hok
  have : lim' = lim := by rw [h1] at hlim; exact Except.ok.inj hlim
  subst this
  obtain ⟨u', hc1, hc2⟩ := castRow_spec ts hok u (by rw [← h2]; exact hu.length_eq.symm)
  obtain ⟨x, hx⟩ := exists_relaxed ts _ u' h1 (h5 _ _ hu hc2) hc2.admissible
  have hb := C09_decode_partial ts hn x u' hx
  refine ⟨x, u', ?_, hc1, hx⟩
  have hadm := castRow_admissible hc2.admissible
  simp only [toDiscreteSpace, hadm, hc1, bind, Except.bind] at hb ⊢
  exact hb

theorem foldFrom_admissible {ts : List (XType K)} {y w : List K} (h : Relaxed ts y w) :
    ∀ (pre : List K) (j : ℕ), j ≤ pre.length →
      ∃ x v, foldFrom (pre ++ w) j pre.length ts = .ok x ∧ Relaxed ts x v := by
  induction h with
  | nil => intro pre j _; exact ⟨[], [], rfl, .nil⟩
  | @float l u a ts xs us h1 h2 _ ih =>
    intro pre j hj
    obtain ⟨x, v, e, hr⟩ := ih (pre ++ [a]) (j + 1) (by simpa using hj)
    rw [List.append_assoc, List.singleton_append, List.length_append, List.length_singleton] at e
    exact ⟨a :: x, a :: v, by simp [foldFrom, e, bind, Except.bind], .float h1 h2 hr⟩
  | @int l u z ts xs us h1 h2 _ ih =>
    intro pre j hj
    obtain ⟨x, v, e, hr⟩ := ih (pre ++ [(z : K)]) (j + 1) (by simpa using hj)
    rw [List.append_assoc, List.singleton_append, List.length_append, List.length_singleton] at e
    exact ⟨(z : K) :: x, (z : K) :: v, by simp [foldFrom, e, bind, Except.bind], .int h1 h2 hr⟩
  | @ord vs a ts xs us h1 _ ih =>
    intro pre j hj
    obtain ⟨x, v, e, hr⟩ := ih (pre ++ [a]) (j + 1) (by simpa using hj)
    rw [List.append_assoc, List.singleton_append, List.length_append, List.length_singleton] at e
    exact ⟨a :: x, a :: v, by simp [foldFrom, e, bind, Except.bind], .ord h1 hr⟩
  | @enum n k b ts xs us hm _ ih =>
    intro pre j hj
    have hb := hm.1
    have hk := hm.2.1
    obtain ⟨x, v, e, hr⟩ := ih (pre ++ b) (j + 1) (by rw [List.length_append]; omega)
    rw [List.append_assoc, List.length_append, hb] at e
    have hl : (((pre ++ (b ++ us)).drop j).take n).length = n := by
      simp only [List.length_take, List.length_drop, List.length_append]; omega
    obtain ⟨m, hm', ha, _⟩ := argmax_spec (((pre ++ (b ++ us)).drop j).take n)
      (by intro hc; rw [hc] at hl; simp at hl; omega)
    rw [hl] at hm'
    refine ⟨(m : K) :: x, oneHot n m ++ v, ?_, .enum (oneHot_isMask hm') hr⟩
    have : j + n ≤ (pre ++ (b ++ us)).length := by simp only [List.length_append]; omega
    rw [foldFrom, if_pos this, ha, e]
    rfl

/-- **C09** (decoded points are admissible). Whatever the list of variables, decoding a relaxed point inside the
limits does not panic and gives a point of the declared space. It may not be the point whose relaxation is given, see
the counterexamples below. -/
theorem C09_decode_in_space (ts : List (XType K)) (hok : ∀ t ∈ ts, TypeOk t)
    (lim : List (K × K)) (hlim : continuousLimits ts = .ok lim) (u : List K) (hu : InLimits lim u) :
    ∃ x v, toDiscreteSpace ts u = .ok x ∧ Relaxed ts x v := by
  obtain ⟨lim', h1, h2, _, _, h5⟩ := limits_spec ts hok
  have : lim' = lim := by rw [h1] at hlim; exact Except.ok.inj hlim
  subst this
  obtain ⟨u', hc1, hc2⟩ := castRow_spec ts hok u (by rw [← h2]; exact hu.length_eq.symm)
  obtain ⟨y, hy⟩ := exists_relaxed ts _ u' h1 (h5 _ _ hu hc2) hc2.admissible
  obtain ⟨x, v, e, hr⟩ := foldFrom_admissible hy [] 0 le_rfl
  simp only [List.nil_append, List.length_nil] at e
  exact ⟨x, v, by simp [toDiscreteSpace, hc1, fold, e, bind, Except.bind], hr⟩

/-- Case with two categorical variables: the decoded point is admissible, but the second category is not the one
whose mask is given. -/
example : toDiscreteSpace [XType.enum (K := ℚ) 2, .enum 3] [0, 1, 0, 0, 1] = .ok [1, 0] := by decide +kernel

/-- A float, an integer and a final categorical variable satisfy the hypotheses. -/
example : Relaxed [XType.float (0 : ℚ) 1, .int 0 5, .enum 3] [1/2, (3 : ℤ), (2 : ℕ)]
    [1/2, (3 : ℤ), 0, 0, 1] := by
  refine .float (by norm_num) (by norm_num) (.int (by norm_num) (by norm_num) ?_)
  refine Relaxed.enum (b := [0, 0, 1]) (us := []) ⟨rfl, by norm_num, ?_⟩ .nil
  intro i hi
  match i, hi with
  | 0, _ => rfl
  | 1, _ => rfl
  | 2, _ => rfl

/-- **C09 counterexample (panic)**: with a categorical variable of at least two levels followed by a float,
relaxing any point panics. -/
theorem C09_refuted_enum_then_float_panics (n k : ℕ) (hn : 2 ≤ n) (hk : k < n) (l u x : K) :
    toContinuousSpace [.enum n, .float l u] [(k : K), x] = .error .outOfBounds := by
  have h2 : ([(k : K), x] : List K)[n]? = none := by
    rw [List.getElem?_eq_none]; simpa using hn
  simp [toContinuousSpace, continuousDim, unfoldFrom, asUsize_natCast, hk, bind, Except.bind, h2]

/-- **C09 counterexample (silent)**: with a float between two categorical variables, the relaxation is
computed without panic but the float gets the value of the last category index. -/
theorem C09_refuted_silent_unfold :
    Relaxed [XType.enum 2, .float (0 : ℚ) 5, .enum 2] [((0 : ℕ) : ℚ), 1/2, ((1 : ℕ) : ℚ)]
      ([1, 0] ++ 1/2 :: ([0, 1] ++ [])) ∧
    toContinuousSpace [XType.enum 2, .float (0 : ℚ) 5, .enum 2] [0, 1/2, 1] = .ok [1, 0, 1, 0, 1] := by
  constructor
  · refine .enum ⟨rfl, by norm_num, ?_⟩ (.float (by norm_num) (by norm_num)
      (.enum ⟨rfl, by norm_num, ?_⟩ .nil))
    · intro i hi
      match i, hi with
      | 0, _ => rfl
      | 1, _ => rfl
    · intro i hi
      match i, hi with
      | 0, _ => rfl
      | 1, _ => rfl
  · decide +kernel

/-- **C09 counterexample (decoding)**: with two categorical variables the second one is decoded from the
columns of the first one: the relaxation of `[0, 1]` is decoded as `[0, 0]`. -/
theorem C09_refuted_fold_two_enums :
    toContinuousSpace [XType.enum 3, .enum 2] [(0 : ℚ), 1] = .ok [1, 0, 0, 0, 1] ∧
    toDiscreteSpace [XType.enum 3, .enum 2] [(1 : ℚ), 0, 0, 0, 1] = .ok [0, 0] := by
  decide +kernel

end Verif.Props
