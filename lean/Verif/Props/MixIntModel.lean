import Verif.Model.MixIntModel
import Verif.Props.MixInt
import Verif.Props.Doe
import Verif.Props.Config
import Verif.Props.Moe
import Verif.Lemmas.Run

/-!
# Mixed-integer sampling and surrogates (C101, C102)
-/

set_option autoImplicit false
set_option linter.unusedSectionVars false

namespace Verif.Props

open Verif Spec MixInt

variable {K : Type} [Field K] [LinearOrder K] [IsStrictOrderedRing K] [FloorRing K]

theorem mapM_rel {α β : Type} {f : α → Except Panic β} {R : α → β → Prop} (l : List α)
    (h : ∀ a ∈ l, ∃ b, f a = .ok b ∧ R a b) : ∃ bs, l.mapM f = .ok bs ∧ List.Forall₂ R l bs := by
  induction l with
  | nil => exact ⟨[], rfl, .nil⟩
  | cons a l ih =>
    obtain ⟨b, hb, hR⟩ := h a (by simp)
    obtain ⟨bs, hbs, hF⟩ := ih fun a ha => h a (by simp [ha])
    refine ⟨b :: bs, ?_, .cons hR hF⟩
    rw [List.mapM_cons]
    simp only [hb, hbs, bind, Except.bind, pure, Except.pure]

/-! ## C101 -/

/-- C101. For rows within the relaxed limits, mixed-integer sampling without folding gives as many rows, within the
limits, whose discrete components are admissible and are the nearest ones. -/
theorem C101_relaxed_sample (ts : List (XType K)) (hok : ∀ t ∈ ts, TypeOk t) (lim : List (K × K))
    (hlim : continuousLimits ts = .ok lim) (rows : List (List K)) (hrows : ∀ r ∈ rows, InLimits lim r) :
    ∃ out, mixintSample ts false rows = .ok out ∧
      List.Forall₂ (fun r o => InLimits lim o ∧ Admissible ts o ∧ Cast ts r o) rows out := by
  obtain ⟨lim', h1, h2, _, _, h5⟩ := limits_spec ts hok
  have : lim' = lim := by rw [h1] at hlim; exact Except.ok.inj hlim
  subst this
  apply mapM_rel
  intro r hr
  obtain ⟨o, ho, hc⟩ := castRow_spec ts hok r (by rw [← h2]; exact (hrows r hr).length_eq.symm)
  exact ⟨o, by simp [mixintSampleRow, ho, bind, Except.bind], h5 _ _ (hrows r hr) hc, hc.admissible, hc⟩

/-- C101, part. When no categorical variable with two levels or more is placed before another categorical variable,
the folded sample is made of admissible points, categories being given by their index: the ones whose relaxation is
nearest to the rows. Missing: the nearest points for other lists of variables (false, see below). -/
theorem C101_folded_sample_partial (ts : List (XType K)) (hok : ∀ t ∈ ts, TypeOk t)
    (hn : ts.Pairwise fun a b => ∀ n m, a = .enum n → b = .enum m → n = 1) (lim : List (K × K))
    (hlim : continuousLimits ts = .ok lim) (rows : List (List K)) (hrows : ∀ r ∈ rows, InLimits lim r) :
    ∃ out, mixintSample ts true rows = .ok out ∧
      List.Forall₂ (fun r o => ∃ u, Cast ts r u ∧ Relaxed ts o u) rows out := by
  obtain ⟨lim', h1, h2, _⟩ := limits_spec ts hok
  have : lim' = lim := by rw [h1] at hlim; exact Except.ok.inj hlim
  subst this
  apply mapM_rel
  intro r hr
  obtain ⟨x, u, hx, hu, hR⟩ := C09_decode_admissible_partial ts hok hn _ h1 r (hrows r hr)
  obtain ⟨u', hu', hc⟩ := castRow_spec ts hok r (by rw [← h2]; exact (hrows r hr).length_eq.symm)
  have : u' = u := by rw [hu'] at hu; exact Except.ok.inj hu
  subst this
  refine ⟨x, ?_, u', hc, hR⟩
  simp only [toDiscreteSpace, hu', bind, Except.bind] at hx
  simp only [mixintSampleRow, hu', bind, Except.bind, if_true]
  exact hx

/-- C101. Whatever the list of variables, the folded sample has as many points as the continuous one, all of them
points of the declared space, categories being given by their index. -/
theorem C101_folded_in_space (ts : List (XType K)) (hok : ∀ t ∈ ts, TypeOk t) (lim : List (K × K))
    (hlim : continuousLimits ts = .ok lim) (rows : List (List K)) (hrows : ∀ r ∈ rows, InLimits lim r) :
    ∃ out, mixintSample ts true rows = .ok out ∧ out.length = rows.length ∧ ∀ o ∈ out, ∃ v, Relaxed ts o v := by
  obtain ⟨out, h1, h2⟩ := mapM_rel (f := mixintSampleRow ts true) (R := fun _ o => ∃ v, Relaxed ts o v) rows (by
    intro r hr
    obtain ⟨x, v, hx, hv⟩ := C09_decode_in_space ts hok lim hlim r (hrows r hr)
    refine ⟨x, ?_, v, hv⟩
    simp only [toDiscreteSpace] at hx
    simpa only [mixintSampleRow, if_true] using hx)
  refine ⟨out, h1, h2.length_eq.symm, fun o ho => ?_⟩
  obtain ⟨i, hi, rfl⟩ := List.mem_iff_getElem.1 ho
  exact h2.get (i := i) (by rw [h2.length_eq]; exact hi) hi

/-- C101 fails for two categorical variables: the folded point is not the one the relaxed sample stands for. The
second category is read in the mask of the first one. -/
theorem C101_refuted_folded_category :
    ∃ (ts : List (XType ℚ)) (u o x : List ℚ), (∀ t ∈ ts, TypeOk t) ∧ Relaxed ts x u ∧
      mixintSample ts false [u] = .ok [u] ∧ mixintSample ts true [u] = .ok [o] ∧ o ≠ x := by
  refine ⟨[.enum 2, .enum 3], [0, 1, 0, 0, 1], [1, 0], [(1 : ℕ), (2 : ℕ)], ?_, ?_, by decide +kernel,
    by decide +kernel, by norm_num⟩
  · intro t ht
    simp only [List.mem_cons, List.not_mem_nil, or_false] at ht
    rcases ht with rfl | rfl <;> simp [TypeOk]
  · refine Relaxed.enum (b := [0, 1]) (us := [0, 0, 1]) ⟨rfl, by norm_num, ?_⟩
      (Relaxed.enum (b := [0, 0, 1]) (us := []) ⟨rfl, by norm_num, ?_⟩ .nil)
    · intro i hi
      match i, hi with
      | 0, _ => rfl
      | 1, _ => rfl
    · intro i hi
      match i, hi with
      | 0, _ => rfl
      | 1, _ => rfl
      | 2, _ => rfl

/-- C101 for full factorial sampling over the relaxed limits. -/
theorem C101_full_factorial (ts : List (XType K)) (hok : ∀ t ∈ ts, TypeOk t) (lim : List (K × K))
    (hlim : continuousLimits ts = .ok lim) (hne : lim ≠ []) (ns : ℕ) :
    ∃ rows out, Doe.fullFactorial K lim.length ns = .ok rows ∧
      mixintSample ts false (rows.map (Doe.sampleRow lim)) = .ok out ∧ out.length = rows.length ∧
      ∀ o ∈ out, InLimits lim o ∧ Admissible ts o := by
  obtain ⟨lim', h1, _, h3, _⟩ := limits_spec ts hok
  have : lim' = lim := by rw [h1] at hlim; exact Except.ok.inj hlim
  subst this
  obtain ⟨rows, hr, hin⟩ := C01_full_factorial_in_bounds lim' hne h3 ns
  obtain ⟨out, ho, hF⟩ := C101_relaxed_sample ts hok lim' h1 (rows.map (Doe.sampleRow lim')) (by
    intro r hr
    obtain ⟨row, hrow, rfl⟩ := List.mem_map.1 hr
    exact (hin row hrow).flip)
  refine ⟨rows, out, hr, ho, by simpa using hF.length_eq.symm, fun o ho => ?_⟩
  obtain ⟨i, hi, rfl⟩ := List.mem_iff_getElem.1 ho
  have := hF.get (i := i) (by rw [hF.length_eq]; exact hi) hi
  exact ⟨this.1, this.2.1⟩

/-- C101 for any continuous sample within the relaxed limits, in particular Latin hypercubes and random samples
(`C01_lhs_in_bounds`, `C01_random_in_bounds`). -/
theorem C101_design {ns : ℕ} (ts : List (XType ℝ)) (hok : ∀ t ∈ ts, TypeOk t) (lim : List (ℝ × ℝ))
    (hlim : continuousLimits ts = .ok lim) (x : Doe.Design ns lim.length)
    (hx : Spec.InBounds (fun j => (lim.get j).1) (fun j => (lim.get j).2) x) :
    ∃ out, mixintSample ts false (List.ofFn fun i => List.ofFn fun j => x i j) = .ok out ∧ out.length = ns ∧
      ∀ o ∈ out, InLimits lim o ∧ Admissible ts o := by
  obtain ⟨out, ho, hF⟩ := C101_relaxed_sample ts hok lim hlim (List.ofFn fun i => List.ofFn fun j => x i j) (by
    intro r hr
    obtain ⟨i, rfl⟩ := (List.mem_ofFn' _ _).1 hr
    unfold InLimits
    rw [List.forall₂_iff_get]
    refine ⟨by simp, fun j h1 h2 => ?_⟩
    simpa using hx i ⟨j, h1⟩)
  refine ⟨out, ho, by simpa using hF.length_eq.symm, fun o ho => ?_⟩
  obtain ⟨i, hi, rfl⟩ := List.mem_iff_getElem.1 ho
  have := hF.get (i := i) (by rw [hF.length_eq]; exact hi) hi
  exact ⟨this.1, this.2.1⟩

/-- Cases of C101: a float, an integer, an ordered and a categorical variable. -/
example : mixintSample [XType.float (0 : ℚ) 1, .int (-3) 3, .ord [1, 4, 9], .enum 3] false
    [[1/3, -5/2, 13/2, 1/5, 4/5, 4/5], [0, 1/3, 8, 1/2, 1/3, 0]]
    = .ok [[1/3, -3, 4, 0, 1, 0], [0, 0, 9, 1, 0, 0]] := by decide +kernel
example : mixintSample [XType.float (0 : ℚ) 1, .int (-3) 3, .ord [1, 4, 9], .enum 3] true
    [[1/3, -5/2, 13/2, 1/5, 4/5, 4/5], [0, 1/3, 8, 1/2, 1/3, 0]]
    = .ok [[1/3, -3, 4, 1], [0, 0, 9, 0]] := by decide +kernel

/-! ## C102 -/

variable {V : Type}

/-- C102. Without folding, the prediction at a relaxed point is the prediction of the continuous surrogate at the
nearest admissible point, and equals the prediction at this admissible point. -/
theorem C102_prediction_at_nearest (m : Mixint K V) (hf : m.folded = false) (hok : ∀ t ∈ m.xtypes, TypeOk t)
    (x : List K) (hx : x.length = relaxedDim m.xtypes) :
    ∃ u, Cast m.xtypes x u ∧ m.predict x = .ok (m.moe u) ∧ m.predict u = .ok (m.moe u) := by
  obtain ⟨u, hu, hc⟩ := castRow_spec m.xtypes hok x hx
  refine ⟨u, hc, ?_, ?_⟩
  · simp [Mixint.predict, surrogateInput, hf, hu, bind, Except.bind]
  · simp [Mixint.predict, surrogateInput, hf, castRow_admissible hc.admissible, bind, Except.bind]

/-- C102, part. With folding, the prediction at an admissible point (categories given by their index) is the
prediction of the continuous surrogate at its relaxation. Missing: categorical variables of two levels or more
followed by a variable that is not categorical (false, see C09). -/
theorem C102_folded_prediction_partial (m : Mixint K V) (hf : m.folded = true) (hne : m.xtypes ≠ [])
    (hn : m.xtypes.Pairwise fun a b => ∀ n, a = .enum n → (∀ k, b ≠ .enum k) → n = 1) (x v : List K)
    (h : Relaxed m.xtypes x v) : m.predict x = .ok (m.moe v) := by
  simp [Mixint.predict, surrogateInput, hf, C09_encode_partial m.xtypes hne hn x v h,
    castRow_admissible h.admissible, bind, Except.bind]

/-- C102. If the continuous surrogate goes through its training values when its training points are distinct, the
surrogate trained without folding on distinct admissible points goes through them, and gives back its training
data. -/
theorem C102_interpolates (train : List (List K) → List K → Except Panic (List K → K))
    (htr : ∀ xs y f, train xs y = .ok f → xs.Nodup → ∀ p ∈ xs.zip y, f p.1 = p.2)
    (ts : List (XType K)) (x : List (List K)) (y : List K) (hx : x.Nodup) (ha : ∀ r ∈ x, Admissible ts r)
    (m : Mixint K K) (h : mixintTrain train ts false x y = .ok m) :
    (∀ p ∈ x.zip y, m.predict p.1 = .ok p.2) ∧ (m.trainingX, m.trainingY) = (x, y) := by
  have hid : x.mapM (surrogateInput ts false) = .ok x := by
    rw [mapM_ok]
    refine List.forall₂_same.2 fun r hr => ?_
    simp [surrogateInput, castRow_admissible (ha r hr), bind, Except.bind]
  simp only [mixintTrain, hid, bind_ok, Except.ok.injEq] at h
  obtain ⟨_, rfl, f, hf, rfl⟩ := h
  refine ⟨fun p hp => ?_, rfl⟩
  have hr := ha p.1 (List.of_mem_zip (a := p.1) (b := p.2) hp).1
  simp only [Mixint.predict, surrogateInput, castRow_admissible hr, bind, Except.bind, Bool.false_eq_true, if_false]
  rw [htr x y f hf hx p hp]

/-- C102, part. The same with folding, for categorical variables (of two levels or more) in last position. -/
theorem C102_folded_interpolates_partial (train : List (List K) → List K → Except Panic (List K → K))
    (htr : ∀ xs y f, train xs y = .ok f → xs.Nodup → ∀ p ∈ xs.zip y, f p.1 = p.2)
    (ts : List (XType K)) (hne : ts ≠ []) (hn : ts.Pairwise fun a _ => ∀ n, a = .enum n → n = 1)
    (x : List (List K)) (y : List K) (hx : x.Nodup) (ha : ∀ r ∈ x, ∃ v, Relaxed ts r v)
    (m : Mixint K K) (h : mixintTrain train ts true x y = .ok m) :
    (∀ p ∈ x.zip y, m.predict p.1 = .ok p.2) ∧ (m.trainingX, m.trainingY) = (x, y) := by
  have hn1 : ts.Pairwise fun a b => ∀ n, a = .enum n → (∀ m, b ≠ .enum m) → n = 1 :=
    hn.imp fun {a b} hab n ha _ => hab n ha
  have hn2 : ts.Pairwise fun a b => ∀ n m, a = .enum n → b = .enum m → n = 1 :=
    hn.imp fun {a b} hab n m ha _ => hab n ha
  have hin : ∀ r v, Relaxed ts r v → surrogateInput ts true r = .ok v := fun r v hR => by
    simp [surrogateInput, C09_encode_partial ts hne hn1 r v hR, castRow_admissible hR.admissible, bind, Except.bind]
  simp only [mixintTrain, bind_ok, Except.ok.injEq] at h
  obtain ⟨xs, hxs, f, hf, rfl⟩ := h
  have hF : List.Forall₂ (fun r v => Relaxed ts r v) x xs := by
    have := mapM_ok.1 hxs
    rw [List.forall₂_iff_get] at this ⊢
    refine ⟨this.1, fun i h1 h2 => ?_⟩
    obtain ⟨v, hv⟩ := ha _ (List.get_mem x ⟨i, h1⟩)
    have e := this.2 i h1 h2
    rw [hin _ _ hv] at e
    exact Except.ok.inj e ▸ hv
  have hnd : xs.Nodup := by
    rw [List.nodup_iff_injective_get]
    intro i j hij
    have h1 := hF.get (i := i) (by rw [hF.length_eq]; exact i.2) i.2
    have h2 := hF.get (i := j) (by rw [hF.length_eq]; exact j.2) j.2
    have e1 := C09_decode_partial ts hn2 _ _ h1
    have e2 := C09_decode_partial ts hn2 _ _ h2
    have e3 : xs.get ⟨i, i.2⟩ = xs.get ⟨j, j.2⟩ := hij
    rw [e3, e2] at e1
    have := List.nodup_iff_injective_get.1 hx (Except.ok.inj e1)
    exact Fin.ext (by simpa using this.symm)
  refine ⟨fun p hp => ?_, rfl⟩
  obtain ⟨i, hi, hpi⟩ := List.mem_iff_getElem.1 hp
  rw [List.length_zip] at hi
  have h1 : i < x.length := by omega
  have h2 : i < xs.length := by rw [← hF.length_eq]; exact h1
  have hR := hF.get h1 h2
  rw [List.getElem_zip] at hpi
  have hp1 : p.1 = x[i] := by rw [← hpi]
  simp only [List.get_eq_getElem, ← hp1] at hR
  simp only [Mixint.predict, hin _ _ hR, bind, Except.bind]
  have := htr xs y f hf hnd (xs[i], p.2) (by
    rw [List.mem_iff_getElem]
    refine ⟨i, by rw [List.length_zip]; omega, ?_⟩
    rw [List.getElem_zip, ← hpi])
  rw [this]

/-- A surrogate taking the value of the first training point equal to its argument. -/
def exMixTrain : List (List ℚ) → List ℚ → Except Panic (List ℚ → ℚ) :=
  fun xs y => .ok fun p => (((xs.zip y).find? fun q => q.1 == p).map Prod.snd).getD 0

/-- Case of the interpolation theorems: the hypothesis on training holds for `exMixTrain`, and the values are given. -/
example : ∀ xs y f, exMixTrain xs y = .ok f → xs.Nodup → ∀ p ∈ xs.zip y, f p.1 = p.2 := by
  intro xs y f hf
  simp only [exMixTrain, Except.ok.injEq] at hf
  subst hf
  induction xs generalizing y with
  | nil => simp
  | cons a xs ih =>
    intro hnd p hp
    cases y with
    | nil => simp at hp
    | cons b y =>
      rw [List.zip_cons_cons, List.mem_cons] at hp
      rcases hp with rfl | hp
      · simp
      · have hne : a ≠ p.1 := by
          rintro rfl
          exact (List.nodup_cons.1 hnd).1 (List.of_mem_zip (a := p.1) (b := p.2) hp).1
        have := ih y (List.nodup_cons.1 hnd).2 p hp
        simp only [List.zip_cons_cons, List.find?_cons]
        rw [show (a == p.1) = false from by simpa using hne]
        exact this
example : ((mixintTrain exMixTrain [XType.int 0 5, .enum 3] true [[2, 1], [2, 0]] [7, 8]).map fun m =>
    (m.predict [2, 1], m.predict [2, 0])) = .ok (.ok 7, .ok 8) := by decide +kernel
example : ((mixintTrain exMixTrain [XType.int 0 5, .enum 2] false [[2, 1, 0], [2, 0, 1]] [7, 8]).map fun m =>
    (m.predict [9/5, 2/3, 1/2], m.predict [2, 0, 1])) = .ok (.ok 7, .ok 8) := by decide +kernel

/-- C102 fails for the `predict` of `linfa`: it does not look for the nearest admissible point, so that two ways of
predicting with the same surrogate at the same point give different values. -/
theorem C102_refuted_linfa_predict :
    ∃ (m : Mixint ℚ ℚ) (x : List ℚ), m.xtypes = [.int 0 5] ∧ m.folded = false ∧ m.predict x = .ok 2 ∧
      m.linfaPredict x = 9/5 :=
  ⟨⟨fun x => x.headD 0, [.int 0 5], false, [], []⟩, [9/5], rfl, rfl, by decide +kernel, by decide +kernel⟩

/-- C102 fails with folding for gradients: a gradient with one component per component of the relaxed point does not
have as many components as the point. -/
theorem C102_refuted_folded_gradient_width :
    ∃ (m : Mixint ℚ (List ℚ)) (x v g : List ℚ), m.folded = true ∧ (∀ u, (m.moe u).length = u.length) ∧
      Relaxed m.xtypes x v ∧ m.predict x = .ok g ∧ g.length ≠ x.length := by
  refine ⟨⟨id, [.enum 3], true, [], []⟩, [((2 : ℕ) : ℚ)], [0, 0, 1] ++ [], [0, 0, 1], rfl, fun _ => rfl,
    .enum ⟨rfl, by norm_num, ?_⟩ .nil, by decide +kernel, by decide⟩
  intro i hi
  match i, hi with
  | 0, _ => rfl
  | 1, _ => rfl
  | 2, _ => rfl

end Verif.Props
