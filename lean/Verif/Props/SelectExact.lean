import Verif.Props.MoeSelect
import Verif.Props.Result
import Verif.Props.MixIntModel
import Verif.Props.History

/-!
# Selected experts, suggested points, mixed-integer gradients and history file: general statements (C59, C100, C102, C125)
-/

set_option autoImplicit false
set_option linter.unusedSectionVars false

namespace Verif.Props

open Verif Spec FindResult MixInt Run Result Moe History

/-! ## C59 -/

theorem minByLoop_nan (es : List Flt) : ∀ ci i, minByLoop .nan ci i es = ci := by
  induction es with
  | nil => intro _ _; rfl
  | cons e es ih =>
    intro ci i
    unfold minByLoop
    rw [if_neg (by cases e <;> simp [Flt.gt, Flt.cmp])]
    exact ih ci (i + 1)

/-- C59, what is selected in all cases. Linear (quadratic) means count as infinite errors when three (four) times the
dimension is above the number of samples or above five. The first combination is selected when its error is NaN,
otherwise the first one with the smallest error. A sparse Gaussian process with a mean which is not constant then
fails. -/
theorem C59_selected (g : GpType) (rs : RegressionSpec) (cs : CorrelationSpec) (n d : ℕ)
    (e : MeanKind × CorrKind → Flt) (a : MeanKind × CorrKind) (l : List (MeanKind × CorrKind))
    (hl : allowed rs cs = a :: l) :
    ∃ p, (usedError n d e a = .nan → p = a) ∧
      (usedError n d e a ≠ .nan → IsFirstBest (usedError n d e) (allowed rs cs) p) ∧
      findBestExpert g rs cs n d (fun m c => .ok (e (m, c))) =
        .ok (if g = .sparse ∧ p.1 ≠ .constant then .error .expert else .ok p) := by
  have hd : ∀ p, bestExpert rs cs n d (fun m c => .ok (e (m, c))) = .ok p →
      findBestExpert g rs cs n d (fun m c => .ok (e (m, c))) =
        .ok (if g = .sparse ∧ p.1 ≠ .constant then .error .expert else .ok p) := by
    intro p hp
    cases g
    · simp [findBestExpert, hp, bind, Except.bind, dispatchExpert]
    · by_cases hc : p.1 = .constant <;> simp [findBestExpert, hp, bind, Except.bind, dispatchExpert, hc]
  by_cases ha : usedError n d e a = .nan
  · refine ⟨a, fun _ => rfl, fun h => absurd ha h, hd a ?_⟩
    rcases bestExpert_cases rs cs n d (fun m c => .ok (e (m, c))) with ⟨r, h1, h2⟩ | ⟨_, h2⟩
    · rw [h2]
      rw [hl] at h1
      simp only [List.cons.injEq] at h1
      rw [h1.1]
    · have hmap : ((allowed rs cs).mapM fun p => computeError n d (fun m c => .ok (e (m, c))) p.1 p.2)
          = .ok ((allowed rs cs).map (usedError n d e)) := by
        apply forall₂_mapM_ok
        intro p _
        unfold computeError usedError
        by_cases hq : min n 5 < 4 * d ∧ p.1 = .quadratic
        · rw [if_pos hq, if_pos (Or.inl hq)]
        · rw [if_neg hq]
          by_cases hli : min n 5 < 3 * d ∧ p.1 = .linear
          · rw [if_pos hli, if_pos (Or.inr hli)]
          · rw [if_neg hli, if_neg (by tauto)]
      rw [h2, hmap, hl]
      simp only [bind, Except.bind, List.map_cons, pick, minBy, ha, minByLoop_nan]
      rfl
  · obtain ⟨p, hp, hb⟩ := bestExpert_first rs cs n d e a l hl ha
    exact ⟨p, fun h => absurd h ha, fun _ => hb, hd p hp⟩

/-- A first error which is NaN hides the exact model. -/
example (e : MeanKind × CorrKind → Flt) (h : e (.constant, .squaredExponential) = .nan) (n d : ℕ) :
    findBestExpert .full ⟨true, true, true⟩ ⟨true, true, true, true⟩ n d (fun m c => .ok (e (m, c))) =
      .ok (.ok (.constant, .squaredExponential)) := by
  obtain ⟨p, h1, _, h3⟩ := C59_selected .full ⟨true, true, true⟩ ⟨true, true, true, true⟩ n d e
    (.constant, .squaredExponential) _ rfl
  rw [h1 (by simp [usedError, h])] at h3
  simpa using h3

/-! ## C100 -/

theorem batchLoop_exact (cfg : Cfg) (f : List ℚ → List Flt) (o : ℕ → Option Cand)
    (n : ℕ) : ∀ i ps, batchLoop cfg ⟨f, []⟩ o i n = .ok ps →
      (∀ k < ps.length, ∃ c, o (i + k) = some c ∧ (ps.map Pt.x)[k]? = some c.x) ∧
      (ps.length < n → o (i + ps.length) = none) ∧ ps.length ≤ n := by
  induction n with
  | zero =>
    intro i ps h
    simp only [batchLoop, Except.ok.injEq] at h
    subst h
    simp
  | succ n ih =>
    intro i ps h
    unfold batchLoop at h
    cases ho : o i with
    | none =>
      simp only [ho, Except.ok.injEq] at h
      subst h
      simp [ho]
    | some k =>
      simp only [ho, bind_ok] at h
      obtain ⟨cs, _, r, hr, h⟩ := h
      simp only [Except.ok.injEq] at h
      subst h
      obtain ⟨h1, h2, h3⟩ := ih (i + 1) r hr
      refine ⟨?_, ?_, by simpa using h3⟩
      · intro j hj
        cases j with
        | zero => exact ⟨k, by simpa using ho, by simp⟩
        | succ j =>
          obtain ⟨c, hc, hx⟩ := h1 j (by simpa using hj)
          exact ⟨c, by rw [← hc]; congr 1; omega, by simpa using hx⟩
      · intro hlt
        rw [← h2 (by simpa using hlt)]
        congr 1
        simp only [List.length_cons]
        omega

/-- C100. The suggested points are the ones proposed by the successive optimizations of the criterion, in this order,
in the declared space; there are fewer than `q_points` only if a proposal fails. -/
theorem C100_suggestions_are_proposals (cfg : Cfg) (o : ℕ → Option Cand) (x : List (List ℚ)) (y : Mat Flt)
    (r : List (List ℚ)) (h : suggest cfg o x y = .ok r) :
    (∀ k < r.length, ∃ c u, o k = some c ∧ r[k]? = some u ∧ toDiscreteSpace cfg.xtypes c.x = .ok u) ∧
      (r.length < cfg.qPoints → o r.length = none) ∧ r.length ≤ cfg.qPoints := by
  simp only [suggest, solverSuggest, bind_ok] at h
  obtain ⟨xs, _, z, ⟨b, _, yb, _, cb, _, fe, _, ps, hps, hz⟩, hr⟩ := h
  simp only [Except.ok.injEq] at hz
  subst hz
  obtain ⟨h1, h2, h3⟩ := batchLoop_exact cfg _ o cfg.qPoints 0 ps hps
  have hF := mapM_ok.1 hr
  have hl : r.length = ps.length := by rw [← hF.length_eq, List.length_map]
  refine ⟨?_, by simpa [hl] using h2, by rw [hl]; exact h3⟩
  intro k hk
  obtain ⟨c, hc, hx⟩ := h1 k (by omega)
  have hk' : k < (ps.map Pt.x).length := by simpa using (hl ▸ hk)
  have := List.forall₂_iff_get.1 hF
  have h4 := this.2 k hk' hk
  rw [List.getElem?_eq_getElem hk', Option.some.injEq] at hx
  refine ⟨c, r[k], by simpa using hc, by simp [hk], ?_⟩
  simp only [List.get_eq_getElem] at h4
  rw [← hx]
  exact h4

/-- C100 fails for all data: any point of the data is suggested, `q_points` times, if the optimization of the criterion
ends there. -/
theorem C100_refuted_any_known_point (cfg : Cfg) (tol : List ℚ) (htol : cfg.tol = tol.map .fin)
    (hne : cfg.xtypes ≠ []) (hok : ∀ t ∈ cfg.xtypes, TypeOk t)
    (hn : cfg.xtypes.Pairwise fun a _ => ∀ n, a = .enum n → n = 1)
    (x : List (List ℚ)) (y : Mat Flt) (hx : ∀ p ∈ x, ∃ v, Relaxed cfg.xtypes p v)
    (hy : EvalData tol y ⟨0, List.replicate x.length []⟩) (hpos : y.rows ≠ [])
    (p : List ℚ) (hp : p ∈ x) :
    ∃ (lim : List (ℚ × ℚ)) (o : ℕ → Option Cand), continuousLimits cfg.xtypes = .ok lim ∧
      (∀ i c, o i = some c → InLimits lim c.x) ∧ suggest cfg o x y = .ok (List.replicate cfg.qPoints p) := by
  obtain ⟨lim, hlim, _, _, _, hin, _⟩ := C10_limits cfg.xtypes hok
  obtain ⟨v, hv⟩ := hx p hp
  refine ⟨lim, fun _ => some ⟨v, [], []⟩, hlim, ?_, ?_⟩
  · intro i c hc
    simp only [Option.some.injEq] at hc
    subst hc
    exact hin p v hv
  · obtain ⟨r, h1, h2, h3, _⟩ := C100_suggestions_admissible_partial cfg tol htol hne hok
      (hn.imp fun {a b} h n ha _ => h n ha) lim hlim (fun _ => some ⟨v, [], []⟩)
      (by intro i c hc; simp only [Option.some.injEq] at hc; subst hc; exact hin p v hv) x y hx hy hpos
    rw [h1]
    congr 1
    rw [List.eq_replicate_iff]
    refine ⟨h3 (by simp), ?_⟩
    intro u hu
    obtain ⟨k, hk, rfl⟩ := List.mem_iff_getElem.1 hu
    obtain ⟨c, u, hc, hu', hd⟩ := (C100_suggestions_are_proposals cfg _ x y r h1).1 k hk
    simp only [Option.some.injEq] at hc
    subst hc
    rw [C09_decode_partial cfg.xtypes (hn.imp fun {a b} h n _ ha _ => h n ha) p v hv, Except.ok.injEq] at hd
    rw [List.getElem?_eq_getElem hk, Option.some.injEq] at hu'
    rw [hu', hd]

/-- Case: two known points, one integer and one categorical variable. -/
example : ∃ (o : ℕ → Option Cand), suggest { exMixCfg with qPoints := 2 } o [[1, 1], [2, 0]]
    ⟨1, [[.fin 3], [.fin 4]]⟩ = .ok [[1, 1], [1, 1]] :=
  ⟨fun _ => some ⟨[1, 0, 1], [], []⟩, by decide +kernel⟩

/-! ## C102 -/

section
variable {K V : Type} [Field K] [LinearOrder K] [IsStrictOrderedRing K] [FloorRing K]

theorem relaxed_lengths {ts : List (XType K)} {x v : List K} (h : Relaxed ts x v) (hok : ∀ t ∈ ts, t ≠ .enum 0) :
    x.length = ts.length ∧ x.length ≤ v.length ∧ (v.length = x.length ↔ ∀ n, .enum n ∈ ts → n = 1) := by
  induction h with
  | nil => simp
  | float _ _ _ ih =>
    obtain ⟨h1, h2, h3⟩ := ih fun t ht => hok t (by simp [ht])
    exact ⟨by simp [h1], by simpa using h2, by simpa using h3⟩
  | int _ _ _ ih =>
    obtain ⟨h1, h2, h3⟩ := ih fun t ht => hok t (by simp [ht])
    exact ⟨by simp [h1], by simpa using h2, by simpa using h3⟩
  | ord _ _ ih =>
    obtain ⟨h1, h2, h3⟩ := ih fun t ht => hok t (by simp [ht])
    exact ⟨by simp [h1], by simpa using h2, by simpa using h3⟩
  | @enum n k b ts xs us hm hr ih =>
    obtain ⟨h1, h2, h3⟩ := ih fun t ht => hok t (by simp [ht])
    have hb : b.length = n := hm.1
    have hn : n ≠ 0 := fun h => hok (.enum n) (by simp) (by rw [h])
    refine ⟨by simp [h1], by simp only [List.length_append, List.length_cons, hb]; omega, ?_⟩
    simp only [List.length_append, List.length_cons, hb]
    constructor
    · intro he m hmem
      rcases List.mem_cons.1 hmem with hmem | hmem
      · simp only [XType.enum.injEq] at hmem; omega
      · exact h3.1 (by omega) m hmem
    · intro hall
      have e1 := hall n (by simp)
      have e2 := h3.2 fun m hm => hall m (by simp [hm])
      omega

/-- C102, gradients with folding: they have as many components as the point if and only if all categorical variables
have a single level. -/
theorem C102_folded_gradient_width_iff (m : Mixint K (List V)) (hf : m.folded = true) (hne : m.xtypes ≠ [])
    (hn : m.xtypes.Pairwise fun a b => ∀ n, a = .enum n → (∀ k, b ≠ .enum k) → n = 1)
    (hok : ∀ t ∈ m.xtypes, t ≠ .enum 0) (hw : ∀ u, (m.moe u).length = u.length)
    (x v : List K) (h : Relaxed m.xtypes x v) :
    ∃ g, m.predict x = .ok g ∧ x.length ≤ g.length ∧ (g.length = x.length ↔ ∀ n, .enum n ∈ m.xtypes → n = 1) := by
  obtain ⟨_, h2, h3⟩ := relaxed_lengths h hok
  exact ⟨_, C102_folded_prediction_partial m hf hne hn x v h, by rw [hw]; exact h2, by rw [hw]; exact h3⟩

/-- C102, `predict` of `linfa`: without folding, it agrees with the prediction of the surrogate for all continuous models
if and only if the discrete components of the point are admissible. -/
theorem C102_linfa_predict_iff (ts : List (XType K)) (hok : ∀ t ∈ ts, TypeOk t) (x : List K)
    (hx : x.length = relaxedDim ts) :
    (∀ m : Mixint K (List K), m.xtypes = ts → m.folded = false → m.predict x = .ok (m.linfaPredict x)) ↔
      Admissible ts x := by
  constructor
  · intro h
    obtain ⟨x', h1, h2⟩ := castRow_spec ts hok x hx
    have := h ⟨id, ts, false, [], []⟩ rfl rfl
    simp only [Mixint.predict, surrogateInput, Mixint.linfaPredict, bind, Except.bind, h1, Bool.false_eq_true, if_false,
      Except.ok.injEq, id] at this
    rw [← this]
    exact h2.admissible
  · rintro h ⟨moe, ts', folded, tx, ty⟩ rfl rfl
    simp [Mixint.predict, surrogateInput, Mixint.linfaPredict, castRow_admissible h, bind, Except.bind]

/-- With an integer variable, 2 is admissible and 9/5 is not. -/
example : Admissible [XType.int (K := ℚ) 0 5] [((2 : ℤ) : ℚ)] ∧ ¬ Admissible [XType.int (K := ℚ) 0 5] [9 / 5] := by
  refine ⟨.int .nil, fun h => ?_⟩
  generalize hq : (9 / 5 : ℚ) = q at h
  cases h with
  | @int l u z ts xs h =>
    have h5 : (9 : ℤ) = 5 * z := by
      have : (9 : ℚ) = 5 * (z : ℚ) := by rw [← hq]; norm_num
      exact_mod_cast this
    omega

end

/-! ## C125 -/

/-- C125 does not hold for any run: a row is the inputs of the best point then its outputs only if exchanging inputs and
outputs changes nothing. -/
theorem C125_columns_iff (cfg : Cfg) (P : Prob) (doe : Doe) (os : List Oracle) (s : St) (f f' : Files)
    (hist : List (List Flt)) (h : run cfg P doe os = .ok s) (hz : s.iter ≠ 0)
    (hf : runObs cfg P doe os f = .ok (s, f')) (hh : f'.history = some hist) (k : ℕ) (hk : k < s.iter) :
    ∃ t x y r, run cfg P doe (os.take (k + 1)) = .ok t ∧ t.bestParam = some x ∧ t.bestCost = some y ∧
      hist[k]? = some r ∧ (r = x.map .fin ++ y ↔ y ++ x.map .fin = x.map .fin ++ y) := by
  obtain ⟨t, x, y, r, h1, h2, h3, h4, _, h6, h7⟩ := C125_row_contents_partial cfg P doe os s f f' hist h hz hf hh k hk
  refine ⟨t, x, y, r, h1, h2, h3, h4, ?_⟩
  have : r = y ++ x.map .fin := by
    conv_lhs => rw [← List.take_append_drop y.length r]
    rw [h6, h7]
  rw [this]

/-- C125 does not hold for any restarted run which goes on: rows are missing. -/
theorem C125_refuted_any_restart (cfg : Cfg) (P : Prob) (doe : Doe) (os os' : List Oracle) (ext : ℕ) (s s' : St)
    (f : Files) (h : run cfg P doe os = .ok s) (h0 : s.iter ≠ 0)
    (h' : loop cfg P os' { s with maxIters := s.maxIters + ext } = .ok s') (hz : s'.iter ≠ s.iter) :
    ∃ m hist, resumeObs cfg P ext s os' f = .ok (s', ⟨some m, some hist⟩) ∧ hist.length < s'.iter := by
  obtain ⟨m, hist, h1, _, h3, h4, _⟩ := C125_restart_partial cfg P doe os os' ext s s' f h h' hz
  exact ⟨m, hist, h1, by omega⟩

end Verif.Props
