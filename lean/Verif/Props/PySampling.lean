import Verif.Model.PySampling
import Verif.Props.MixIntModel

/-!
# Properties of the Python sampling function (C127)
-/

set_option autoImplicit false

namespace Verif.Props

open Verif Doe MixInt PySampling Spec

/-- A generator gives uniform numbers of `[0, 1)` and, for two points or more, candidates to each iteration of the
optimized Latin hypercube (20 in the code). -/
structure FairDraws {ns nx : ℕ} (d : Draws ns nx) : Prop where
  first : ∀ i j, 0 ≤ d.first.rnd i j ∧ d.first.rnd i j < 1
  others : ∀ e ∈ d.others, ∀ i j, 0 ≤ e.rnd i j ∧ e.rnd i j < 1
  test : ∀ cs ∈ d.swaps, ∀ c ∈ cs, 0 ≤ c.r ∧ c.r < 1
  candidates : 2 ≤ ns → ∀ cs ∈ d.swaps, ∀ c ∈ cs, c.swaps ≠ []
  rnd : ∀ i j, 0 ≤ d.rnd i j ∧ d.rnd i j < 1

/-- The methods that need two points or more. -/
def NeedsPairs (m : Method) : Prop := m = .lhs ∨ m = .lhsMaximin ∨ m = .lhsCenteredMaximin

/-- The Latin hypercube methods. -/
def IsLhs (m : Method) : Prop := m ≠ .fullFactorial ∧ m ≠ .random

theorem lhsRows_ok {lim : List (ℝ × ℝ)} {ns : ℕ} {call : LhsCall ns lim.length} (hb : ∀ b ∈ lim, b.1 ≤ b.2)
    (hu : UniformCall call) {x : Design ns lim.length} (hx : lhsSample call = .ok x) :
    ∃ x : Design ns lim.length, lhsRows lim call = .ok (rowsOf lim x) ∧ Latin x ∧
      InBounds (fun j => (lim.get j).1) (fun j => (lim.get j).2)
        (sample (fun j => (lim.get j).1) (fun j => (lim.get j).2) x) :=
  ⟨x, by simp [lhsRows, hx, bind, Except.bind], C02_latin_partial call hu x hx,
    C01_lhs_in_bounds _ _ (fun j => hb _ (List.get_mem _ _)) call hu x hx⟩

theorem rowsOf_in_limits {lim : List (ℝ × ℝ)} {ns : ℕ} (x : Design ns lim.length)
    (h : InBounds (fun j => (lim.get j).1) (fun j => (lim.get j).2)
      (sample (fun j => (lim.get j).1) (fun j => (lim.get j).2) x)) :
    ∀ r ∈ rowsOf lim x, InLimits lim r := by
  intro r hr
  obtain ⟨i, rfl⟩ := (List.mem_ofFn' _ _).1 hr
  unfold InLimits
  rw [List.forall₂_iff_get]
  refine ⟨by simp, fun j h1 h2 => ?_⟩
  simpa using h i ⟨j, h1⟩

theorem lhs_rows {m : Method} (hm : IsLhs m) {lim : List (ℝ × ℝ)} (hb : ∀ b ∈ lim, b.1 ≤ b.2)
    {ns : ℕ} (d : Draws ns lim.length) (hd : FairDraws d) (hn : NeedsPairs m → 2 ≤ ns) :
    ∃ x : Design ns lim.length, continuousRows m lim d = .ok (rowsOf lim x) ∧ Latin x ∧
      InBounds (fun j => (lim.get j).1) (fun j => (lim.get j).2)
        (sample (fun j => (lim.get j).1) (fun j => (lim.get j).2) x) := by
  cases m with
  | lhs =>
    have h2 := hn (.inl rfl)
    obtain ⟨x, hx⟩ := C02_returns_partial h2 (.optimized d.first d.swaps : LhsCall ns lim.length) (hd.candidates h2)
    exact lhsRows_ok hb ⟨hd.first, hd.test⟩ hx
  | fullFactorial => exact absurd rfl hm.1
  | random => exact absurd rfl hm.2
  | lhsClassic => exact lhsRows_ok (call := .classic d.first) hb hd.first rfl
  | lhsCentered => exact lhsRows_ok (call := .centered d.shuffle) hb trivial rfl
  | lhsMaximin =>
    obtain ⟨x, hx⟩ := C02_returns_partial (hn (.inr (.inl rfl)))
      (.maximin d.first d.others : LhsCall ns lim.length) trivial
    refine lhsRows_ok (call := .maximin d.first d.others) hb ?_ hx
    intro e he
    rcases List.mem_cons.1 he with rfl | he
    · exact hd.first
    · exact hd.others e he
  | lhsCenteredMaximin =>
    obtain ⟨x, hx⟩ := C02_returns_partial (hn (.inr (.inr rfl)))
      (.centeredMaximin d.shuffle d.shuffles : LhsCall ns lim.length) trivial
    exact lhsRows_ok (call := .centeredMaximin d.shuffle d.shuffles) hb trivial hx

theorem continuousRows_ok (m : Method) {lim : List (ℝ × ℝ)} (hne : lim ≠ []) (hb : ∀ b ∈ lim, b.1 ≤ b.2)
    {ns : ℕ} (d : Draws ns lim.length) (hd : FairDraws d) (hn : NeedsPairs m → 2 ≤ ns) :
    ∃ rows, continuousRows m lim d = .ok rows ∧ rows.length = ns ∧ ∀ r ∈ rows, InLimits lim r := by
  by_cases hm : IsLhs m
  · obtain ⟨x, hx, _, hB⟩ := lhs_rows hm hb d hd hn
    exact ⟨_, hx, by simp [rowsOf], rowsOf_in_limits x hB⟩
  · have : m = .fullFactorial ∨ m = .random := by
      unfold IsLhs at hm
      by_contra hc
      simp only [not_or] at hc
      exact hm hc
    rcases this with rfl | rfl
    · obtain ⟨t, rows, h1, h2, _⟩ := C06_full_factorial (K := ℝ) lim.length ns (List.length_pos_iff.2 hne)
      obtain ⟨rows', h1', hin⟩ := C01_full_factorial_in_bounds lim hne hb ns
      have : rows' = rows := by rw [h1] at h1'; exact (Except.ok.inj h1').symm
      subst this
      refine ⟨rows'.map (sampleRow lim), by simp [continuousRows, h1, bind, Except.bind], by simpa using h2, ?_⟩
      intro r hr
      obtain ⟨row, hrow, rfl⟩ := List.mem_map.1 hr
      exact (hin row hrow).flip
    · exact ⟨_, rfl, by simp [rowsOf], rowsOf_in_limits _ (C01_random_in_bounds _ _
        (fun j => hb _ (List.get_mem _ _)) d.rnd hd.rnd)⟩

theorem parse_ne_nil {dom : Config.Domain ℝ} {ts : List (XType ℝ)} (h : Config.parse dom = .ok ts) : ts ≠ [] := by
  rintro rfl
  cases dom with
  | lists rows =>
    simp only [Config.parse] at h
    split_ifs at h with hr
    have := (mapM_ok.1 h).length_eq
    exact hr (List.length_eq_zero_iff.1 (by simpa using this))
  | array n rows =>
    simp only [Config.parse] at h
    split_ifs at h with hr
    have := (mapM_ok.1 h).length_eq
    exact hr (.inl (List.length_eq_zero_iff.1 (by simpa using this)))
  | specs l =>
    simp only [Config.parse] at h
    split_ifs at h with hr
    have := (mapM_ok.1 h).length_eq
    exact hr (by simpa using this)

theorem relaxed_length {ts : List (XType ℝ)} {x v : List ℝ} (h : Relaxed ts x v) : x.length = ts.length := by
  induction h with
  | nil => rfl
  | _ => simp_all

theorem limits_ne_nil {ts : List (XType ℝ)} (hok : ∀ t ∈ ts, TypeOk t) (hne : ts ≠ []) {lim : List (ℝ × ℝ)}
    (h : continuousLimits ts = .ok lim) : lim ≠ [] := by
  obtain ⟨lim', h1, h2, _⟩ := limits_spec ts hok
  rw [h1, Except.ok.injEq] at h
  subst h
  rintro rfl
  cases ts with
  | nil => exact hne rfl
  | cons t ts =>
    have := hok t (by simp)
    cases t <;> simp_all [relaxedDim, TypeOk] <;> omega

/-- C127, part. For any method and any domain, `sampling` returns `n` rows with one component per variable, each row
being a point of the domain. Missing: one point with the default method or a maximin one
(`C127_refuted_single_point`). -/
theorem C127_points_partial (gen : ℕ → Generator) (entropy : Generator) (m : Method) (dom : Config.Domain ℝ)
    (ts : List (XType ℝ)) (hp : Config.parse dom = .ok ts) (hok : ∀ t ∈ ts, TypeOk t) (n : ℕ) (seed : Option ℕ)
    (hd : ∀ nx, FairDraws (generator gen entropy seed n nx)) (hn : NeedsPairs m → 2 ≤ n) :
    ∃ out, sampling gen entropy m dom n seed = .ok out ∧ out.length = n ∧
      ∀ o ∈ out, o.length = ts.length ∧ ∃ v, Relaxed ts o v := by
  obtain ⟨lim, hlim, _, hb, _⟩ := limits_spec ts hok
  obtain ⟨rows, hr, hl, hin⟩ := continuousRows_ok m (limits_ne_nil hok (parse_ne_nil hp) hlim) hb _ (hd _) hn
  obtain ⟨out, ho, hol, hadm⟩ := C101_folded_in_space ts hok lim hlim rows hin
  refine ⟨out, ?_, hol.trans hl, fun o ho => ?_⟩
  · simp only [sampling, hp, hlim, hr, bind, Except.bind]; exact ho
  · obtain ⟨v, hv⟩ := hadm o ho
    exact ⟨relaxed_length hv, v, hv⟩

theorem foldFrom_floats {ts : List (XType ℝ)} (hf : ∀ t ∈ ts, ∃ l u, t = .float l u) :
    ∀ (pre w : List ℝ) (j : ℕ), w.length = ts.length → foldFrom (pre ++ w) j pre.length ts = .ok w := by
  induction ts with
  | nil => intro pre w j hw; rw [List.length_eq_zero_iff.1 hw]; rfl
  | cons t ts ih =>
    intro pre w j hw
    obtain ⟨l, u, rfl⟩ := hf t (by simp)
    match w, hw with
    | a :: w, hw =>
      have := ih (fun t ht => hf t (by simp [ht])) (pre ++ [a]) w (j + 1) (by simpa using hw)
      rw [List.append_assoc, List.singleton_append, List.length_append, List.length_singleton] at this
      simp [foldFrom, this, bind, Except.bind]

theorem castRow_floats {ts : List (XType ℝ)} (hf : ∀ t ∈ ts, ∃ l u, t = .float l u) (w : List ℝ)
    (hw : w.length = ts.length) : castRow ts w = .ok w := by
  apply castRow_admissible
  induction ts generalizing w with
  | nil => rw [List.length_eq_zero_iff.1 hw]; exact .nil
  | cons t ts ih =>
    obtain ⟨l, u, rfl⟩ := hf t (by simp)
    match w, hw with
    | a :: w, hw => exact .float (ih (fun t ht => hf t (by simp [ht])) w (by simpa using hw))

theorem limits_floats {ts : List (XType ℝ)} (hf : ∀ t ∈ ts, ∃ l u, t = .float l u) :
    ∃ lim, continuousLimits ts = .ok lim ∧ ts = lim.map fun b => .float b.1 b.2 := by
  induction ts with
  | nil => exact ⟨[], rfl, rfl⟩
  | cons t ts ih =>
    obtain ⟨l, u, rfl⟩ := hf t (by simp)
    obtain ⟨lim, h1, h2⟩ := ih fun t ht => hf t (by simp [ht])
    exact ⟨(l, u) :: lim, by simp [continuousLimits, h1, bind, Except.bind], by simp [← h2]⟩

/-- C127. For continuous variables between `lo` and `up` given as a list of limits, the Latin hypercube methods return
the scaled points of a Latin hypercube: one point in each of the `n` strata of each variable. -/
theorem C127_latin (gen : ℕ → Generator) (entropy : Generator) (m : Method) (hm : IsLhs m) (lim : List (ℝ × ℝ))
    (hne : lim ≠ []) (hb : ∀ b ∈ lim, b.1 ≤ b.2) (n : ℕ) (seed : Option ℕ)
    (hd : ∀ nx, FairDraws (generator gen entropy seed n nx)) (hn : NeedsPairs m → 2 ≤ n) :
    ∃ x : Fin n → Fin lim.length → ℝ, Latin x ∧
      sampling gen entropy m (.lists (lim.map fun b => [b.1, b.2])) n seed =
        .ok (List.ofFn fun i => List.ofFn fun j => x i j * (lim[j].2 - lim[j].1) + lim[j].1) := by
  have hf : ∀ t ∈ lim.map (fun b => XType.float b.1 b.2), ∃ l u, t = XType.float l u := by
    intro t ht
    obtain ⟨b, _, rfl⟩ := List.mem_map.1 ht
    exact ⟨_, _, rfl⟩
  have hp : Config.parse (.lists (lim.map fun b => [b.1, b.2])) = .ok (lim.map fun b => XType.float b.1 b.2) := by
    have : lim.map (fun b => [b.1, b.2]) ≠ [] := by simpa using hne
    simp only [Config.parse, if_neg this]
    apply mapM_ok.2
    rw [List.forall₂_map_left_iff, List.forall₂_map_right_iff]
    exact List.forall₂_same.2 fun _ _ => rfl
  obtain ⟨lim', hlim, he⟩ := limits_floats hf
  have : lim' = lim := by
    have := congrArg (List.map fun t : XType ℝ => match t with | .float l u => (l, u) | _ => (0, 0)) he
    simpa [List.map_map, Function.comp_def] using this.symm
  subst this
  obtain ⟨x, hx, hL, _⟩ := lhs_rows hm hb _ (hd _) hn
  refine ⟨x, hL, ?_⟩
  simp only [sampling, hp, hlim, hx, bind, Except.bind]
  apply mapM_ok.2
  have key : ∀ r ∈ rowsOf lim' x, mixintSampleRow (lim'.map fun b => XType.float b.1 b.2) true r = .ok r := by
    intro r hr
    obtain ⟨i, rfl⟩ := (List.mem_ofFn' _ _).1 hr
    have hl : (List.ofFn fun j => sample (fun j => (lim'.get j).1) (fun j => (lim'.get j).2) x i j).length =
      (lim'.map fun b => XType.float b.1 b.2).length := by simp
    have h2 := foldFrom_floats hf [] _ 0 hl
    simp only [List.nil_append, List.length_nil] at h2
    simp only [mixintSampleRow, castRow_floats hf _ hl, bind, Except.bind, if_true, fold]
    exact h2
  have : (List.ofFn fun i => List.ofFn fun j => x i j * (lim'[j].2 - lim'[j].1) + lim'[j].1) = rowsOf lim' x := rfl
  rw [this]
  exact List.forall₂_same.2 key

/-- C127. With a seed the sample does not depend on the entropy of the system; `lhs` is the default method. -/
theorem C127_seed (gen : ℕ → Generator) (e e' : Generator) (m : Method) (dom : Config.Domain ℝ) (n s : ℕ) :
    sampling gen e m dom n (some s) = sampling gen e' m dom n (some s) ∧
      lhs gen e dom n (some s) = sampling gen e' .lhs dom n (some s) := ⟨rfl, rfl⟩

/-- C127 fails for one point: the maximin methods panic, and there is no pair of points to exchange for the default
one, which loops for ever. -/
theorem C127_refuted_single_point (gen : ℕ → Generator) (entropy : Generator) (m : Method)
    (hm : m = .lhsMaximin ∨ m = .lhsCenteredMaximin) (l u : ℝ) (seed : Option ℕ) :
    sampling gen entropy m (.lists [[l, u]]) 1 seed = .error .emptyReduction ∧
      IsEmpty {p : Fin 1 × Fin 1 // p.1 ≠ p.2} := by
  refine ⟨?_, (C02_refuted_single_point (nx := 1)).2.2⟩
  have hp : Config.parse (.lists [[l, u]]) = .ok [XType.float l u] := rfl
  have hl : continuousLimits [XType.float l u] = .ok [(l, u)] := rfl
  simp only [sampling, hp, hl, bind, Except.bind]
  rcases hm with rfl | rfl
  · simp [continuousRows, lhsRows, (C02_refuted_single_point (nx := [(l, u)].length)).1, bind, Except.bind]
  · simp [continuousRows, lhsRows, (C02_refuted_single_point (nx := [(l, u)].length)).2.1, bind, Except.bind]

/-- Case of the previous theorems: the draws of a generator that always gives one half and does not move anything. -/
example (ns nx : ℕ) : FairDraws (⟨⟨fun _ _ => 1 / 2, fun _ => 1⟩, [], fun _ => 1, [], [], fun _ _ => 1 / 2⟩ : Draws ns nx) := by
  refine ⟨?_, by simp, by simp, by simp, ?_⟩ <;> intro i j <;> norm_num

/-- Case of C127: two points by the full factorial method, for an integer and a categorical variable. -/
example : ∃ ts, Config.parse (.specs [⟨.int, [0, 5], 0⟩, ⟨.enum, [], 3⟩] : Config.Domain ℝ) = .ok ts ∧
    ∀ t ∈ ts, TypeOk t := by
  refine ⟨[.int 0 5, .enum 3], ?_, ?_⟩
  · simp [Config.parse, Config.specOf, Config.asI32, Config.trunc, bind, Except.bind, pure, Except.pure]
  · intro t ht
    simp only [List.mem_cons, List.not_mem_nil, or_false] at ht
    rcases ht with rfl | rfl <;> simp [TypeOk]

end Verif.Props
