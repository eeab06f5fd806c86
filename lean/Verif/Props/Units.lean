import Verif.Model.Units
import Verif.Props.GpEquiv
import Verif.Props.Continuity
import Verif.Model.Steps
import Verif.Model.FindResult
import Mathlib.Analysis.Complex.ExponentialBounds

/-!
# C142: unit and origin of the objective
-/

set_option autoImplicit false

namespace Verif.Spec

open Verif Criteria

variable {d : ℕ}

/-- The second surrogate predicts `a * y + b` where the first predicts `y`. -/
structure Rescaled (a b : ℝ) (s s' : Surrogate d) : Prop where
  predict : ∀ x, s'.predict x = (s.predict x).map fun p => a * p + b
  valvar : ∀ x, s'.valvar x = (s.valvar x).map fun pv => (a * pv.1 + b, a ^ 2 * pv.2)

/-- The predicted variance is negligible in both units or in none. -/
def Seen (a : ℝ) (s : Surrogate d) (x : Pt d) : Prop :=
  ∀ p v, s.valvar x = some (p, v) → (v < eps ↔ a ^ 2 * v < eps)

/-- The predicted variance is not negligible, in both units. -/
def Uncertain (a : ℝ) (s : Surrogate d) (x : Pt d) : Prop :=
  ∃ p v, s.valvar x = some (p, v) ∧ eps ≤ v ∧ eps ≤ a ^ 2 * v

/-- The objective of a row of results, in another unit. -/
def relabel (f : Flt → Flt) : List Flt → List Flt
  | [] => []
  | o :: cs => f o :: cs

/-- An increasing change of objective. -/
structure Increasing (f : Flt → Flt) : Prop where
  cmp : ∀ u v, Flt.cmp (f u) (f v) = Flt.cmp u v
  pinf : f .pinf = .pinf

end Verif.Spec

namespace Verif.Props

open Verif Spec Criteria Verif.Units Gauss Real

variable {n d h : ℕ} {a b : ℝ} {s s' : Surrogate d}

theorem seen_of_uncertain {x : Pt d} (hx : Uncertain a s x) : Seen a s x := by
  obtain ⟨p, v, h1, h2, h3⟩ := hx
  intro p' v' h
  rw [h1] at h
  obtain ⟨rfl, rfl⟩ : p = p' ∧ v = v' := by simpa using h
  exact iff_of_false (not_lt.2 h2) (not_lt.2 h3)

/-! ## Criteria -/

theorem sqrt_scaled (ha : 0 < a) (v : ℝ) : √(a ^ 2 * v) = a * √v := by
  rw [Real.sqrt_mul (sq_nonneg a), Real.sqrt_sq ha.le]

theorem arg_scaled (ha : 0 < a) (b fmin p t : ℝ) : (a * fmin + b - (a * p + b)) / (a * t) = (fmin - p) / t := by
  rw [show a * fmin + b - (a * p + b) = a * (fmin - p) by ring, mul_div_mul_left _ _ ha.ne']

theorem eiAt_scaled (ha : 0 < a) (b fmin k p v : ℝ) (hv : v < eps ↔ a ^ 2 * v < eps) :
    eiAt (a * fmin + b) k (a * p + b) (a ^ 2 * v) = a * eiAt fmin k p v := by
  by_cases h : v < eps
  · simp [eiAt, h, hv.1 h]
  · have h' := not_lt.1 h
    have h'' := not_lt.1 (fun c => h (hv.2 c))
    rw [eiAt_eq h', eiAt_eq h'', sqrt_scaled ha, show k * (a * √v) = a * (k * √v) by ring, arg_scaled ha]
    ring

theorem ei_scaled (ha : 0 < a) (hs : Rescaled a b s s') {x : Pt d} (hx : Seen a s x) (fmin : ℝ) (w : Option ℝ) :
    eiValue x s' (a * fmin + b) w = a * eiValue x s fmin w := by
  unfold eiValue
  rw [hs.valvar]
  cases h : s.valvar x with
  | none => simp
  | some pv => exact eiAt_scaled ha _ _ _ _ _ (hx pv.1 pv.2 h)

/-- C142, part. The expected improvement is multiplied by the unit exactly when its variance is seen alike in both
units. -/
theorem C142_ei_iff_partial (ha : 0 < a) (hs : Rescaled a b s s') (x : Pt d) (fmin : ℝ) (w : Option ℝ)
    (hw : 0 < w.getD 1) : eiValue x s' (a * fmin + b) w = a * eiValue x s fmin w ↔ Seen a s x := by
  refine ⟨fun h p v hv => ?_, fun h => ei_scaled ha hs h fmin w⟩
  have hv' : s'.valvar x = some (a * p + b, a ^ 2 * v) := by rw [hs.valvar, hv]; rfl
  constructor
  · intro h1
    by_contra h2
    have := C36_pos x s' (a * fmin + b) _ _ w hv' (not_lt.1 h2) hw
    rw [h, (C36_negligible x s fmin p v w hv h1).1] at this
    simp at this
  · intro h1
    by_contra h2
    have := C36_pos x s fmin _ _ w hv (not_lt.1 h2) hw
    rw [(C36_negligible x s' (a * fmin + b) _ _ w hv' h1).1] at h
    have := mul_pos ha this
    linarith

/-- C142, part. The logarithm of the expected improvement is translated. -/
theorem C142_logei_partial (ha : 0 < a) (hs : Rescaled a b s s') (x : Pt d) (hx : Uncertain a s x) (fmin : ℝ) :
    logEiValue x s' (a * fmin + b) = logEiValue x s fmin + log a := by
  obtain ⟨p, v, h1, h2, h3⟩ := hx
  have h0 := sqrt_pos_of_eps h2
  simp only [logEiValue, hs.valvar, h1, Option.map_some, logEiAt]
  rw [if_neg (not_lt.2 h3), if_neg (not_lt.2 h2), sqrt_scaled ha, arg_scaled ha, log_mul ha.ne' h0.ne']
  ring

/-- C142, part. The order of two points by a criterion depends neither on the unit nor on the origin. -/
theorem C142_order_partial (ha : 0 < a) (hs : Rescaled a b s s') (c : Crit) (x y : Pt d) (hx : Uncertain a s x)
    (hy : Uncertain a s y) (fmin : ℝ) (w sic : Option ℝ) (vx vy : ℝ) (h1 : c.value x s fmin w sic = .ok vx)
    (h2 : c.value y s fmin w sic = .ok vy) :
    ∃ vx' vy', c.value x s' (a * fmin + b) w sic = .ok vx' ∧ c.value y s' (a * fmin + b) w sic = .ok vy' ∧
      (vx' ≤ vy' ↔ vx ≤ vy) := by
  cases c with
  | ei =>
    simp only [Crit.value, Except.ok.injEq] at h1 h2 ⊢
    refine ⟨_, _, rfl, rfl, ?_⟩
    rw [ei_scaled ha hs (seen_of_uncertain hx), ei_scaled ha hs (seen_of_uncertain hy), h1, h2]
    exact mul_le_mul_iff_right₀ ha
  | logEi =>
    simp only [Crit.value, Except.ok.injEq] at h1 h2 ⊢
    refine ⟨_, _, rfl, rfl, ?_⟩
    rw [C142_logei_partial ha hs x hx, C142_logei_partial ha hs y hy, h1, h2, add_le_add_iff_right]
  | wb2 k =>
    have key : ∀ z v, Uncertain a s z → Crit.value (.wb2 k) z s fmin w sic = .ok v →
        Crit.value (.wb2 k) z s' (a * fmin + b) w sic = .ok (a * v - b) := by
      intro z v hz h
      simp only [Crit.value, hs.predict, ei_scaled ha hs (seen_of_uncertain hz)] at h ⊢
      cases hp : s.predict z with
      | none => simp [hp, unwrap, Except.map] at h
      | some p =>
        simp only [hp, unwrap, Except.map, Except.ok.injEq, Option.map_some] at h ⊢
        rw [← h]; ring
    refine ⟨_, _, key x vx hx h1, key y vy hy h2, ?_⟩
    rw [sub_le_sub_iff_right]
    exact mul_le_mul_iff_right₀ ha

/-! ## The objective of the internal optimization -/

theorem crit_scaled (ha : 0 < a) (hs : Rescaled a b s s') {c : Crit} (hc : c = .ei ∨ (∃ k, c = .wb2 k) ∧ b = 0)
    {x : Pt d} (hx : Seen a s x) (fmin sc sic sw : ℝ) :
    evalInfillObj c x s' (a * fmin + b) sc sic sw = (evalInfillObj c x s fmin sc sic sw).map fun v => a * v := by
  rcases hc with rfl | ⟨⟨k, rfl⟩, rfl⟩
  · simp only [evalInfillObj, Crit.value, Except.map, ei_scaled ha hs hx]
    congr 1; ring
  · simp only [evalInfillObj, Crit.value, hs.predict, ei_scaled ha hs hx]
    cases s.predict x with
    | none => rfl
    | some p =>
      simp only [unwrap, Except.map, Option.map_some]
      congr 1; ring

theorem argmax_foldl {β : Type} (ha : 0 < a) (f : β → ℝ) (l : List β) (m : β × ℝ) :
    (l.map fun x => (x, a * f x)).foldl (fun (m b : β × ℝ) => if m.2 < b.2 then b else m) (m.1, a * m.2) =
      (fun p : β × ℝ => (p.1, a * p.2))
        ((l.map fun x => (x, f x)).foldl (fun (m b : β × ℝ) => if m.2 < b.2 then b else m) m) := by
  induction l generalizing m with
  | nil => rfl
  | cons x l ih =>
    simp only [List.map_cons, List.foldl_cons, mul_lt_mul_iff_right₀ ha]
    split_ifs
    · exact ih (x, f x)
    · exact ih m

theorem argmax_scaled (ha : 0 < a) (f : Pt d → ℝ) (xs : List (Pt d)) :
    argmax (xs.map fun x => (x, a * f x)) = (argmax (xs.map fun x => (x, f x))).map fun p => (p.1, a * p.2) := by
  cases xs with
  | nil => rfl
  | cons x l =>
    simp only [List.map_cons, argmax, Except.map, Except.ok.injEq]
    exact argmax_foldl ha f l (x, f x)

theorem argmax_ge {β : Type} (l : List (β × ℝ)) (m : β × ℝ) :
    m.2 ≤ (l.foldl (fun (m b : β × ℝ) => if m.2 < b.2 then b else m) m).2 ∧
      ∀ q ∈ l, q.2 ≤ (l.foldl (fun (m b : β × ℝ) => if m.2 < b.2 then b else m) m).2 := by
  induction l generalizing m with
  | nil => simp
  | cons x l ih =>
    simp only [List.foldl_cons, List.mem_cons, forall_eq_or_imp]
    obtain ⟨h1, h2⟩ := ih (if m.2 < x.2 then x else m)
    refine ⟨le_trans ?_ h1, le_trans ?_ h1, h2⟩ <;> split_ifs with h <;> linarith

theorem wb2s_scaled (ha : 0 < a) (hs : Rescaled a 0 s s') {xs : List (Pt d)} (hxs : ∀ x ∈ xs, Seen a s x)
    (fmin : ℝ) (w : Option ℝ) (hbig : ∃ x ∈ xs, 100 * eps < eiValue x s fmin w ∧ 100 * eps < a * eiValue x s fmin w) :
    wb2sScale xs s' (a * fmin) w = wb2sScale xs s fmin w := by
  have h1 : (xs.map fun x => (x, eiValue x s' (a * fmin) w)) = xs.map fun x => (x, a * eiValue x s fmin w) := by
    refine List.map_congr_left fun x hx => ?_
    have := ei_scaled ha hs (hxs x hx) fmin w
    rw [add_zero] at this
    rw [this]
  unfold wb2sScale
  rw [h1, argmax_scaled ha]
  cases xs with
  | nil => simp at hbig
  | cons x0 l =>
    simp only [List.map_cons, argmax, Except.map, bind, Except.bind]
    set best := (l.map fun x => (x, eiValue x s fmin w)).foldl
      (fun (m b : Pt d × ℝ) => if m.2 < b.2 then b else m) (x0, eiValue x0 s fmin w) with hb
    obtain ⟨x, hx, h2, h3⟩ := hbig
    have hge : eiValue x s fmin w ≤ best.2 := by
      obtain ⟨g1, g2⟩ := argmax_ge (l.map fun x => (x, eiValue x s fmin w)) (x0, eiValue x0 s fmin w)
      rcases List.mem_cons.1 hx with rfl | hx
      · exact g1
      · exact g2 (x, eiValue x s fmin w) (List.mem_map_of_mem hx)
    have he := eps_pos
    have hpos : 0 < best.2 := by linarith
    have e1 : |best.2| > 100 * eps := by rw [abs_of_pos hpos]; linarith
    have e2 : |a * best.2| > 100 * eps := by
      rw [abs_of_pos (mul_pos ha hpos)]
      have := mul_le_mul_of_nonneg_left hge ha.le
      linarith
    rw [hs.predict]
    cases s.predict best.1 with
    | none => rfl
    | some p =>
      simp only [Option.map_some, unwrap, e1, e2, if_true, add_zero]
      rw [abs_mul, abs_of_pos ha]
      congr 1
      field_simp

theorem foldl_max_scaled (ha : 0 < a) (l : List ℝ) (m : ℝ) :
    (l.map fun v => a * v).foldl max (a * m) = a * l.foldl max m := by
  induction l generalizing m with
  | nil => rfl
  | cons x l ih => simp only [List.map_cons, List.foldl_cons, ← mul_max_of_nonneg _ _ ha.le, ih]

theorem foldl_max_bounds (l : List ℝ) (m : ℝ) : m ≤ l.foldl max m ∧ ∀ v ∈ l, v ≤ l.foldl max m := by
  induction l generalizing m with
  | nil => simp
  | cons x l ih =>
    obtain ⟨h1, h2⟩ := ih (max m x)
    simp only [List.foldl_cons, List.mem_cons, forall_eq_or_imp]
    exact ⟨(le_max_left _ _).trans h1, (le_max_right _ _).trans h1, h2⟩

theorem objScale_scaled (ha : 0 < a) (l l' : List ℝ) (hl : l' = l.map fun v => a * v)
    (hbig : ∃ v ∈ l, 100 * eps ≤ |v| ∧ 100 * eps ≤ a * |v|) :
    (let scale := match l'.map fun v => |v| with | [] => 1 | a :: l => l.foldl max a
     if scale < 100 * eps then 1 else scale) =
    a * (let scale := match l.map fun v => |v| with | [] => 1 | a :: l => l.foldl max a
     if scale < 100 * eps then 1 else scale) ∧
    (let scale := match l.map fun v => |v| with | [] => 1 | a :: l => l.foldl max a
     if scale < 100 * eps then 1 else scale) ≠ 0 := by
  subst hl
  cases l with
  | nil => simp at hbig
  | cons v0 l =>
    have e : ((v0 :: l).map fun v => a * v).map (fun v => |v|) =
        (a * |v0|) :: ((l.map fun v => |v|).map fun v => a * v) := by
      simp [abs_mul, abs_of_pos ha, Function.comp_def]
    rw [e]
    simp only [List.map_cons]
    rw [foldl_max_scaled ha]
    set M := (l.map fun v => |v|).foldl max |v0| with hM
    obtain ⟨v, hv, h1, h2⟩ := hbig
    have hge : |v| ≤ M := by
      obtain ⟨g1, g2⟩ := foldl_max_bounds (l.map fun v => |v|) |v0|
      rcases List.mem_cons.1 hv with rfl | hv
      · exact g1
      · exact g2 _ (List.mem_map_of_mem hv)
    have h3 := mul_le_mul_of_nonneg_left hge ha.le
    have he := eps_pos
    rw [if_neg (by linarith), if_neg (by linarith)]
    exact ⟨rfl, by linarith⟩

theorem mapM_scaled {β : Type} {f g : β → Except Panic ℝ} {xs : List β}
    (h : ∀ x ∈ xs, g x = (f x).map fun v => a * v) : xs.mapM g = (xs.mapM f).map (List.map fun v => a * v) := by
  induction xs with
  | nil => rfl
  | cons x xs ih =>
    rw [List.mapM_cons, List.mapM_cons, h x (by simp), ih fun y hy => h y (by simp [hy])]
    cases f x with
    | error e => rfl
    | ok v => cases xs.mapM f <;> rfl

/-- C142, part. The function given to the internal optimizer does not depend on the unit and the origin of the
objective with the expected improvement, nor on the unit with WB2 and WB2S, with or without constraints in the
criterion. -/
theorem C142_objective_partial (ha : 0 < a) (hs : Rescaled a b s s') (c : Crit)
    (hc : c = .ei ∨ (∃ k, c = .wb2 k) ∧ b = 0) (ci : Bool) (xs : List (Pt d)) (cs : List (Surrogate d))
    (tols : List ℝ) (fmin : ℝ) (feas : Bool) (sw : ℝ) (hxs : ∀ x ∈ xs, Seen a s x)
    (hw : c = .wb2 none →
      ∃ x ∈ xs, 100 * eps < eiValue x s fmin (some sw) ∧ 100 * eps < a * eiValue x s fmin (some sw))
    (hbig : ∀ sic, scaleIc c xs s fmin sw = .ok sic → ∃ x ∈ xs, ∃ v, evalInfillObj c x s fmin 1 sic sw = .ok v ∧
      100 * eps ≤ |v * if ci then pofs x cs tols else 1| ∧ 100 * eps ≤ a * |v * if ci then pofs x cs tols else 1|)
    (F : Pt d → Except Panic ℝ) (hF : objective c ci xs s cs tols fmin feas sw = .ok F) :
    ∃ F', objective c ci xs s' cs tols (a * fmin + b) feas sw = .ok F' ∧ ∀ x, Seen a s x → F' x = F x := by
  have hlog : c.isLogEi = false := by rcases hc with rfl | ⟨⟨k, rfl⟩, -⟩ <;> rfl
  have hsic : scaleIc c xs s' (a * fmin + b) sw = scaleIc c xs s fmin sw := by
    rcases hc with rfl | ⟨⟨k, rfl⟩, rfl⟩
    · rfl
    · cases k with
      | none => rw [add_zero]; exact wb2s_scaled ha hs hxs fmin (some sw) (hw rfl)
      | some k => rfl
  unfold objective at hF ⊢
  rw [hsic]
  cases h1 : scaleIc c xs s fmin sw with
  | error e => simp [h1, bind, Except.bind] at hF
  | ok sic =>
    rw [h1] at hF
    simp only [bind, Except.bind] at hF ⊢
    have hcrit : ∀ x, Seen a s x → evalInfillObj c x s' (a * fmin + b) 1 sic sw =
        (evalInfillObj c x s fmin 1 sic sw).map fun v => a * v := fun x hx => crit_scaled ha hs hc hx fmin 1 sic sw
    unfold objScale at hF ⊢
    rw [mapM_scaled fun x hx => hcrit x (hxs x hx)]
    cases h2 : xs.mapM fun x => evalInfillObj c x s fmin 1 sic sw with
    | error e => simp [h2, bind, Except.bind] at hF
    | ok vs =>
      rw [h2] at hF
      simp only [bind, Except.bind, Except.map, Except.ok.injEq] at hF ⊢
      refine ⟨_, rfl, fun x hx => ?_⟩
      rw [← hF]
      set crit := fun x => orZero (evalInfillObj c x s fmin 1 sic sw) with hcr
      set crit' := fun x => orZero (evalInfillObj c x s' (a * fmin + b) 1 sic sw) with hcr'
      have hcc : ∀ x, Seen a s x → crit' x = a * crit x := by
        intro x hx
        simp only [hcr, hcr', hcrit x hx]
        cases evalInfillObj c x s fmin 1 sic sw <;> simp [Except.map, orZero]
      obtain ⟨e1, e2⟩ : infillObjScale c ci xs crit' cs tols = a * infillObjScale c ci xs crit cs tols ∧
          infillObjScale c ci xs crit cs tols ≠ 0 := by
        unfold infillObjScale
        simp only [hlog]
        refine objScale_scaled ha _ _ ?_ ?_
        · rw [List.map_map]
          refine List.map_congr_left fun x hx => ?_
          simp only [Function.comp, hcc x (hxs x hx)]
          cases ci <;> simp [mul_assoc]
        · obtain ⟨x, hx, v, hv, b1, b2⟩ := hbig sic h1
          refine ⟨v * if ci then pofs x cs tols else 1, List.mem_map.2 ⟨x, hx, ?_⟩, b1, b2⟩
          simp only [hcr, hv, orZero]
          cases ci <;> simp
      rw [e1]
      have hobj : evalInfillObj c x s' (a * fmin + b) (a * infillObjScale c ci xs crit cs tols) sic sw =
          evalInfillObj c x s fmin (infillObjScale c ci xs crit cs tols) sic sw := by
        have h3 := crit_scaled ha hs hc hx fmin (a * infillObjScale c ci xs crit cs tols) sic sw
        rw [h3]
        unfold evalInfillObj
        cases c.value x s fmin (some sw) (some sic) with
        | error e => rfl
        | ok v =>
          simp only [Except.map]
          congr 1
          field_simp
      cases ci
      · exact hobj
      · simp only [evalInfillObjWithCstrs, hobj, if_true]

/-! ## Gaussian processes -/

section Gp

open Verif.Gp Verif.Kernels Verif.Means

variable {la la1 la' la'' : LinAlg} {kernel : Kernel} {mean : Mean} {nugget : ℝ} {theta : Fin h → ℝ}
  {w : Fin d → Fin h → ℝ} {x : Fin n → Fin d → ℝ} {y : Fin n → ℝ} {g g1 : Model n d h}

/-- C142, part. Gaussian processes trained in two units are as supposed in the previous statements. -/
theorem C142_gp_partial (h1 : fitWith la1 kernel mean nugget theta w x y = some g1)
    (hg : fitWith la kernel mean nugget theta w x (fun i => a * y i + b) = some g) :
    Rescaled a b (gpSurr la'' g1) (gpSurr la' g) := by
  constructor
  · intro x'
    simp only [gpSurr, Option.map_some, (C104_units a b h1 hg la' la'' x').1]
  · intro x'
    simp only [gpSurr, (C104_units a b h1 hg la' la'' x').1, (C104_units a b h1 hg la' la'' x').2, Option.map_map,
      Function.comp_def]

/-- C142, refuted. For every training data there is a unit of the objective in which the expected improvement is zero,
and its logarithm the smallest number, at all points of a bounded domain. -/
theorem C142_refuted_unit (h1 : fitWith la1 kernel mean nugget theta w x y = some g1) (hθ : ∀ l, 0 ≤ theta l)
    (hn : 0 ≤ nugget) (D : Set (Fin d → ℝ)) (hD : Bornology.IsBounded D) (k : Option ℝ) :
    ∃ a : ℝ, 0 < a ∧ ∀ (la la' : LinAlg) (g : Model n d h),
      fitWith la kernel mean nugget theta w x (fun i => a * y i) = some g →
        ∀ x' ∈ D, ∀ fmin, eiValue x' (gpSurr la' g) fmin k = 0 ∧ logEiValue x' (gpSurr la' g) fmin = fmin64 := by
  obtain ⟨v, hv1, hv2⟩ := C136_variances h1 hθ hn la1
  obtain ⟨M, hM⟩ := (hD.isCompact_closure.bddAbove_image hv1.continuous.continuousOn)
  have he := eps_pos
  set V := max M 1 with hV
  have hV1 : 1 ≤ V := le_max_right _ _
  have hq : 0 < eps / (2 * V) := by positivity
  refine ⟨√(eps / (2 * V)), Real.sqrt_pos.2 hq, fun la la' g hg x' hx' fmin => ?_⟩
  have hr := C142_gp_partial (la' := la') (la'' := la1) (b := 0) h1 (by simpa using hg)
  have hle : v x' ≤ V := (hM ⟨x', subset_closure hx', rfl⟩).trans (le_max_left _ _)
  have hval : (gpSurr la' g).valvar x' = some (√(eps / (2 * V)) * g1.predict x' + 0, √(eps / (2 * V)) ^ 2 * v x') := by
    rw [hr.valvar]
    simp [gpSurr, hv2]
  have hlt : √(eps / (2 * V)) ^ 2 * v x' < eps := by
    rw [Real.sq_sqrt hq.le]
    calc eps / (2 * V) * v x' ≤ eps / (2 * V) * V := mul_le_mul_of_nonneg_left hle hq.le
      _ = eps / 2 := by field_simp
      _ < eps := by linarith
  refine ⟨(C36_negligible x' _ fmin _ _ k hval hlt).1, ?_⟩
  simp only [logEiValue, hval, logEiAt, hlt, if_true]

end Gp

/-! ## Where the unit or the origin matter -/

/-- A surrogate of one variable given by the predictions at 0 and elsewhere. -/
noncomputable def twoPoint (p q : ℝ × ℝ) : Surrogate 1 where
  predict x := some (if x 0 = 0 then p.1 else q.1)
  predictGrad _ := none
  valvar x := some (if x 0 = 0 then p else q)
  valvarGrad _ := none

theorem twoPoint_rescaled (a b : ℝ) (p q : ℝ × ℝ) :
    Rescaled a b (twoPoint p q) (twoPoint (a * p.1 + b, a ^ 2 * p.2) (a * q.1 + b, a ^ 2 * q.2)) := by
  constructor <;> intro x <;> simp only [twoPoint, Option.map_some] <;> split_ifs <;> rfl

theorem sqrt_two_pi : 1 ≤ √(2 * π) ∧ √(2 * π) ≤ 4 := by
  constructor
  · exact Real.one_le_sqrt.2 (by linarith [Real.pi_gt_three])
  · exact Real.sqrt_le_iff.2 ⟨by norm_num, by linarith [Real.pi_le_four]⟩

theorem normPdf_zero' : normPdf 0 = 1 / √(2 * π) := by simp [normPdf]

theorem eiAt_zero : eiAt 0 1 0 1 = 1 / √(2 * π) ∧ eiAt 1 1 1 1 = 1 / √(2 * π) := by
  have : ¬ (1 : ℝ) < eps := by unfold eps; norm_num
  constructor <;> simp [eiAt, this, normPdf_zero']

/-- C142, refuted. With WB2S the preferred point depends on the origin of the objective. -/
theorem C142_refuted_origin : ∃ (s s' : Surrogate 1) (xs : List (Pt 1)) (A B : Pt 1) (F F' : Pt 1 → Except Panic ℝ)
    (u v u' v' : ℝ), Rescaled 1 (-1) s s' ∧ objective (.wb2 none) false xs s [] [] 1 true 1 = .ok F ∧
      objective (.wb2 none) false xs s' [] [] (1 * 1 + -1) true 1 = .ok F' ∧
      F A = .ok u ∧ F B = .ok v ∧ u < v ∧ F' A = .ok u' ∧ F' B = .ok v' ∧ v' < u' := by
  have he := eps_pos
  have he1 : 100 * eps < 1 / 4 := by unfold eps; norm_num
  obtain ⟨q1, q2⟩ := sqrt_two_pi
  have hpos : 0 < √(2 * π) := by linarith
  have hei : 1 / 4 ≤ 1 / √(2 * π) := one_div_le_one_div_of_le hpos q2
  refine ⟨twoPoint (1, 1) (1 / 2, 0), twoPoint (0, 1) (-1 / 2, 0), [fun _ => 0], fun _ => 0, fun _ => 1, ?_⟩
  have e1 : eiValue (fun _ => 0) (twoPoint (1, 1) (1 / 2, 0)) 1 (some 1) = 1 / √(2 * π) := by
    simp [eiValue, twoPoint, eiAt_zero]
  have e2 : eiValue (fun _ => 0) (twoPoint (0, 1) (-1 / 2, 0)) 0 (some 1) = 1 / √(2 * π) := by
    simp [eiValue, twoPoint, eiAt_zero]
  have e3 : eiValue (fun _ => 1) (twoPoint (1, 1) (1 / 2, 0)) 1 (some 1) = 0 := by
    simp [eiValue, twoPoint, eiAt, he]
  have e4 : eiValue (fun _ => 1) (twoPoint (0, 1) (-1 / 2, 0)) 0 (some 1) = 0 := by
    simp [eiValue, twoPoint, eiAt, he]
  have hbig : |1 / √(2 * π)| > 100 * eps := by rw [abs_of_pos (by positivity)]; linarith
  generalize √(2 * π) = r at *
  have s1 : scaleIc (.wb2 none) [fun _ => 0] (twoPoint (1, 1) (1 / 2, 0)) 1 1 = .ok (100 * r) := by
    simp only [scaleIc, wb2sScale, List.map_cons, List.map_nil, argmax, List.foldl_nil, e1, bind, Except.bind]
    simp only [hbig, if_true]
    simp [twoPoint, unwrap, Except.map]
  have s2 : scaleIc (.wb2 none) [fun _ => 0] (twoPoint (0, 1) (-1 / 2, 0)) 0 1 = .ok 0 := by
    simp only [scaleIc, wb2sScale, List.map_cons, List.map_nil, argmax, List.foldl_nil, e2, bind, Except.bind]
    simp only [hbig, if_true]
    simp [twoPoint, unwrap, Except.map]
  have c1 : ∀ sc, evalInfillObj (.wb2 none) (fun _ => 0) (twoPoint (1, 1) (1 / 2, 0)) 1 sc (100 * r) 1 =
      .ok (-99 / sc) := by
    intro sc
    simp only [evalInfillObj, Crit.value, e1, wb2Scale, Option.getD_some]
    simp only [twoPoint, unwrap, Except.map, if_true]
    congr 1
    field_simp
    norm_num
  have c2 : ∀ sc, evalInfillObj (.wb2 none) (fun _ => 1) (twoPoint (1, 1) (1 / 2, 0)) 1 sc (100 * r) 1 =
      .ok (1 / 2 / sc) := by
    intro sc
    simp only [evalInfillObj, Crit.value, e3, wb2Scale, Option.getD_some]
    simp [twoPoint, unwrap, Except.map]
  have c3 : ∀ sc, evalInfillObj (.wb2 none) (fun _ => 0) (twoPoint (0, 1) (-1 / 2, 0)) 0 sc 0 1 = .ok 0 := by
    intro sc
    simp only [evalInfillObj, Crit.value, e2, wb2Scale, Option.getD_some]
    simp [twoPoint, unwrap, Except.map]
  have c4 : ∀ sc, evalInfillObj (.wb2 none) (fun _ => 1) (twoPoint (0, 1) (-1 / 2, 0)) 0 sc 0 1 =
      .ok (-(1 / 2) / sc) := by
    intro sc
    simp only [evalInfillObj, Crit.value, e4, wb2Scale, Option.getD_some]
    simp [twoPoint, unwrap, Except.map]
    ring
  have o1 : objScale (.wb2 none) false [fun _ => 0] (twoPoint (1, 1) (1 / 2, 0)) [] [] 1 (100 * r) 1 = .ok 99 := by
    simp only [objScale, List.mapM_cons, List.mapM_nil, c1, bind, Except.bind, pure, Except.pure, infillObjScale,
      List.map_cons, List.map_nil, List.foldl_nil, orZero]
    have : ¬ (99 : ℝ) < 100 * eps := by linarith
    norm_num [this]
  have o2 : objScale (.wb2 none) false [fun _ => 0] (twoPoint (0, 1) (-1 / 2, 0)) [] [] 0 0 1 = .ok 1 := by
    simp only [objScale, List.mapM_cons, List.mapM_nil, c3, bind, Except.bind, pure, Except.pure, infillObjScale,
      List.map_cons, List.map_nil, List.foldl_nil, orZero]
    have : (0 : ℝ) < 100 * eps := by linarith
    norm_num [this]
  refine ⟨fun x => evalInfillObj (.wb2 none) x (twoPoint (1, 1) (1 / 2, 0)) 1 99 (100 * r) 1,
    fun x => evalInfillObj (.wb2 none) x (twoPoint (0, 1) (-1 / 2, 0)) 0 1 0 1,
    -99 / 99, 1 / 2 / 99, 0, -(1 / 2) / 1, ?_, ?_, ?_, c1 _, c2 _, by norm_num, c3 _, c4 _, by norm_num⟩
  · have := twoPoint_rescaled 1 (-1) (1, 1) (1 / 2, 0)
    norm_num at this ⊢
    exact this
  · simp only [objective, s1, o1, bind, Except.bind]
    simp
  · rw [show (1 : ℝ) * 1 + -1 = 0 by norm_num]
    simp only [objective, s2, o2, bind, Except.bind]
    simp

/-- Meets the hypotheses of `C142_objective_partial` and `C142_order_partial`. -/
example : Rescaled 2 5 (twoPoint (0, 1) (1, 1)) (twoPoint (5, 4) (7, 4)) ∧
    (∀ x, Uncertain 2 (twoPoint (0, 1) (1, 1)) x) ∧ scaleIc .ei [fun _ => 0] (twoPoint (0, 1) (1, 1)) 0 1 = .ok 1 ∧
    ∃ v, evalInfillObj .ei (fun _ => 0) (twoPoint (0, 1) (1, 1)) 0 1 1 1 = .ok v ∧ 100 * eps ≤ |v * 1| ∧
      100 * eps ≤ 2 * |v * 1| := by
  have he1 : 100 * eps < 1 / 4 := by unfold eps; norm_num
  have he := eps_pos
  obtain ⟨q1, q2⟩ := sqrt_two_pi
  have hpos : 0 < √(2 * π) := by linarith
  have hei : 1 / 4 ≤ 1 / √(2 * π) := one_div_le_one_div_of_le hpos q2
  have e1 : eiValue (fun _ => 0) (twoPoint (0, 1) (1, 1)) 0 (some 1) = 1 / √(2 * π) := by
    simp only [eiValue, twoPoint, if_true, Option.getD_some]
    exact eiAt_zero.1
  refine ⟨?_, ?_, rfl, -(1 / √(2 * π)), ?_, ?_⟩
  · have := twoPoint_rescaled 2 5 (0, 1) (1, 1)
    norm_num at this ⊢
    exact this
  · intro x
    refine ⟨if x 0 = 0 then 0 else 1, 1, ?_, by linarith, by linarith⟩
    simp only [twoPoint]
    split_ifs <;> rfl
  · simp [evalInfillObj, Crit.value, Except.map, e1]
  · rw [mul_one, abs_neg, abs_of_nonneg (by linarith)]
    constructor <;> linarith

/-- C142, refuted. With the logarithm of the expected improvement and the probability of feasibility the preferred point
depends on the unit of the objective. -/
theorem C142_refuted_constrained : ∃ (a : ℝ) (s s' q : Surrogate 1) (xs : List (Pt 1)) (A B : Pt 1)
    (F F' : Pt 1 → Except Panic ℝ) (u v u' v' : ℝ), 0 < a ∧ Rescaled a 0 s s' ∧ (∀ x, Uncertain a s x) ∧
      objective .logEi true xs s [q] [0] 0 true 1 = .ok F ∧
      objective .logEi true xs s' [q] [0] (a * 0 + 0) true 1 = .ok F' ∧
      F A = .ok u ∧ F B = .ok v ∧ u < v ∧ F' A = .ok u' ∧ F' B = .ok v' ∧ v' < u' := by
  have he := eps_pos
  have he1 : 100 * eps < 1 / 10 := by unfold eps; norm_num
  have hpi := Real.pi_gt_three
  have h2p : 0 < √(2 * π) := by positivity
  -- values at zero argument
  have hlog : ∀ α : ℝ, 0 ≤ α → logEiAt 0 0 (2 * π * exp (2 * α)) = α := by
    intro α hα
    have h1 : 1 ≤ exp (2 * α) := Real.one_le_exp (by linarith)
    have : ¬ 2 * π * exp (2 * α) < eps := by nlinarith
    rw [logEiAt, if_neg this]
    simp only [sub_self, zero_div, logEiHelper]
    rw [if_pos (by norm_num), normPdf_zero', zero_mul, add_zero,
      Real.sqrt_mul (x := 2 * π) (by positivity) (exp (2 * α)), Real.log_div (by norm_num) h2p.ne',
      Real.log_mul h2p.ne' (by positivity), Real.log_one, show exp (2 * α) = exp α ^ 2 by rw [← Real.exp_nat_mul]; norm_num,
      Real.sqrt_sq (Real.exp_pos α).le, Real.log_exp]
    ring
  have hone : ¬ (1 : ℝ) < eps := by linarith
  have hphi : normCdf 0 = 1 / 2 := by
    have h := integral_gaussian_Ioi 1
    simp only [neg_mul, one_mul, div_one] at h
    have hp : √π ≠ 0 := (Real.sqrt_pos.2 Real.pi_pos).ne'
    rw [normCdf, neg_zero, zero_div, erfc, h]
    field_simp
    norm_num
  have hbeta : 1 / 2 < normCdf 1 := by
    rw [← hphi]
    exact strictMono_of_hasDerivAt_pos hasDerivAt_normCdf normPdf_pos one_pos
  have hbeta1 : normCdf 1 < 1 :=
    (strictMono_of_hasDerivAt_pos hasDerivAt_normCdf normPdf_pos (by norm_num : (1 : ℝ) < 2)).trans_le (normCdf_le_one 2)
  set β := normCdf 1 with hβ
  have hδ : 0 < log (2 * β) := Real.log_pos (by linarith)
  have hl2 : log (2 * β) = log 2 + log β := Real.log_mul (by norm_num) (by linarith)
  have hlβ : log β < 0 := Real.log_neg (by linarith) hbeta1
  set L := 1 / log (2 * β) + 1 with hL
  have hLpos : 1 < L := by have : 0 < 1 / log (2 * β) := by positivity
                           linarith
  clear_value L
  have p1 := Real.log_two_gt_d9
  have p2 := Real.log_two_lt_d9
  set q := twoPoint (0, 1) (-1, 1) with hq
  have fA : logpofs (fun _ => 0) [q] [0] = -log 2 := by
    simp only [logpofs, List.zip_cons_cons, List.zip_nil_left, List.map_cons, List.map_nil, List.foldl_cons,
      List.foldl_nil, pof, hq, twoPoint, if_true, pofAt, if_neg hone]
    rw [sub_self, zero_div, hphi, max_eq_left (by linarith), one_div, Real.log_inv, zero_add]
  have fB : logpofs (fun _ => 1) [q] [0] = log β := by
    simp only [logpofs, List.zip_cons_cons, List.zip_nil_left, List.map_cons, List.map_nil, List.foldl_cons,
      List.foldl_nil, pof, hq, twoPoint, one_ne_zero, if_false, pofAt, if_neg hone]
    rw [zero_sub, neg_neg, Real.sqrt_one, div_one, ← hβ, max_eq_left (by linarith), zero_add]
  -- general values of the objective
  have key : ∀ α : ℝ, 0 ≤ α →
      let s := twoPoint (0, 2 * π * exp (2 * (1 + α))) (0, 2 * π * exp (2 * α))
      objective .logEi true [fun _ => 0] s [q] [0] 0 true 1 = .ok (fun x =>
        evalInfillObjWithCstrs .logEi x s [q] [0] 0 (1 + α - log 2) 1 true 1) ∧
      evalInfillObjWithCstrs .logEi (fun _ => 0) s [q] [0] 0 (1 + α - log 2) 1 true 1 =
        .ok (-(1 + α) / (1 + α - log 2) + log 2) ∧
      evalInfillObjWithCstrs .logEi (fun _ => 1) s [q] [0] 0 (1 + α - log 2) 1 true 1 =
        .ok (-α / (1 + α - log 2) - log β) := by
    intro α hα s
    have eA : ∀ sc, evalInfillObj .logEi (fun _ => 0) s 0 sc 1 1 = .ok (-(1 + α) / sc) := by
      intro sc
      simp only [evalInfillObj, Crit.value, Except.map, logEiValue, s, twoPoint, if_true]
      rw [hlog (1 + α) (by linarith)]
    have eB : ∀ sc, evalInfillObj .logEi (fun _ => 1) s 0 sc 1 1 = .ok (-α / sc) := by
      intro sc
      simp only [evalInfillObj, Crit.value, Except.map, logEiValue, s, twoPoint, one_ne_zero, if_false]
      rw [hlog α hα]
    have hsc : objScale .logEi true [fun _ => 0] s [q] [0] 0 1 1 = .ok (1 + α - log 2) := by
      simp only [objScale, List.mapM_cons, List.mapM_nil, eA, bind, Except.bind, pure, Except.pure, infillObjScale,
        List.map_cons, List.map_nil, List.foldl_nil, orZero, Crit.isLogEi, if_true, fA]
      rw [show -(1 + α) / 1 - -log 2 = -(1 + α - log 2) by ring, abs_neg, abs_of_pos (by linarith)]
      rw [if_neg (by linarith)]
    refine ⟨?_, ?_, ?_⟩
    · simp [objective, scaleIc, hsc, bind, Except.bind]
    · simp [evalInfillObjWithCstrs, eA, Except.map, Crit.isLogEi, fA]
    · simp [evalInfillObjWithCstrs, eB, Except.map, Crit.isLogEi, fB]
  obtain ⟨k1, k2, k3⟩ := key 0 le_rfl
  obtain ⟨l1, l2, l3⟩ := key L (by linarith)
  refine ⟨exp L, twoPoint (0, 2 * π * exp (2 * (1 + 0))) (0, 2 * π * exp (2 * 0)),
    twoPoint (0, 2 * π * exp (2 * (1 + L))) (0, 2 * π * exp (2 * L)), q, [fun _ => 0], fun _ => 0, fun _ => 1, fun x =>
      evalInfillObjWithCstrs .logEi x (twoPoint (0, 2 * π * exp (2 * (1 + 0))) (0, 2 * π * exp (2 * 0)))
        [q] [0] 0 (1 + 0 - log 2) 1 true 1, fun x =>
      evalInfillObjWithCstrs .logEi x (twoPoint (0, 2 * π * exp (2 * (1 + L))) (0, 2 * π * exp (2 * L)))
        [q] [0] 0 (1 + L - log 2) 1 true 1, _, _, _, _, Real.exp_pos L, ?_, ?_, k1, ?_, k2, k3, ?_, l2, l3, ?_⟩
  · have := twoPoint_rescaled (exp L) 0 (0, 2 * π * exp (2 * (1 + 0))) (0, 2 * π * exp (2 * 0))
    simp only [mul_zero, zero_add] at this
    have e : ∀ t, exp L ^ 2 * (2 * π * exp (2 * t)) = 2 * π * exp (2 * (t + L)) := by
      intro t
      rw [mul_add, Real.exp_add, ← Real.exp_nat_mul]
      push_cast
      ring
    have e1 := e (1 + 0)
    have e2 := e 0
    simp only [mul_zero, zero_add] at e1 e2
    rw [e1, e2] at this
    simpa using this
  · intro x
    have hL2 : 1 ≤ exp L ^ 2 := one_le_pow₀ (Real.one_le_exp (by linarith))
    have g : ∀ t : ℝ, 0 ≤ t → eps ≤ 2 * π * exp (2 * t) ∧ eps ≤ exp L ^ 2 * (2 * π * exp (2 * t)) := by
      intro t ht
      have h1 : 1 ≤ exp (2 * t) := Real.one_le_exp (by linarith)
      have h2 : eps ≤ 2 * π * exp (2 * t) := by nlinarith
      exact ⟨h2, h2.trans (le_mul_of_one_le_left (by positivity) hL2)⟩
    by_cases hx : x 0 = 0
    · exact ⟨0, _, by simp only [twoPoint, if_pos hx], g (1 + 0) (by norm_num)⟩
    · exact ⟨0, _, by simp only [twoPoint, if_neg hx], g 0 le_rfl⟩
  · rw [mul_zero, add_zero]
    exact l1
  · have h1 : 1 ≤ 1 / (1 - log 2) := by rw [le_div_iff₀ (by linarith)]; linarith
    have h2 : -(1 + 0) / (1 + 0 - log 2) = -(1 / (1 - log 2)) := by ring
    rw [h2]
    simp only [neg_zero, zero_div]
    linarith
  · have hS : 1 / log (2 * β) < 1 + L - log 2 := by linarith
    have h1 : 1 / (1 + L - log 2) < log (2 * β) := by
      rw [div_lt_iff₀ (by linarith)]
      rw [div_lt_iff₀ hδ] at hS
      linarith
    have h2 : -(1 + L) / (1 + L - log 2) = -L / (1 + L - log 2) - 1 / (1 + L - log 2) := by ring
    rw [h2]
    linarith

/-- C142, part. Whether a step of the trust region is a success depends on the unit of the objective, not on its
origin: the required decrease is `sigma ^ 2` in any unit. -/
theorem C142_trego_partial (ha : 0 < a) (sigma y yPrev : ℝ) :
    (Steps.success sigma (a * y + b) (a * yPrev + b) ↔ y < yPrev - sigma ^ 2 / a) ∧
    (Steps.success sigma (y + b) (yPrev + b) ↔ Steps.success sigma y yPrev) := by
  unfold Steps.success
  constructor
  · rw [show a * yPrev + b - sigma * sigma = a * (yPrev - sigma ^ 2 / a) + b by field_simp; ring,
      add_lt_add_iff_right, mul_lt_mul_iff_right₀ ha]
  · constructor <;> intro h <;> linarith

/-- C142, refuted. Every improvement is a success in some units and a failure in others. -/
theorem C142_refuted_trego (sigma y yPrev : ℝ) (hs : 0 < sigma) (hy : y < yPrev) :
    ∃ a a' : ℝ, 0 < a ∧ 0 < a' ∧ Steps.success sigma (a * y) (a * yPrev) ∧
      ¬ Steps.success sigma (a' * y) (a' * yPrev) := by
  have hd : 0 < yPrev - y := by linarith
  refine ⟨2 * sigma ^ 2 / (yPrev - y), sigma ^ 2 / (yPrev - y), by positivity, by positivity, ?_, ?_⟩
  · unfold Steps.success
    have : 2 * sigma ^ 2 / (yPrev - y) * (yPrev - y) = 2 * sigma ^ 2 := by field_simp
    nlinarith [sq_pos_of_pos hs]
  · unfold Steps.success
    have : sigma ^ 2 / (yPrev - y) * (yPrev - y) = sigma ^ 2 := by field_simp
    nlinarith

/-! ## Best result -/

section Best

open FindResult

variable {f : Flt → Flt} {tol : List Flt}

theorem relabel_append {r : List Flt} (hr : r ≠ []) (c : List Flt) : relabel f r ++ c = relabel f (r ++ c) := by
  cases r with
  | nil => exact absurd rfl hr
  | cons o cs => rfl

theorem zipWith_relabel : ∀ (y c : List (List Flt)), (∀ r ∈ y, r ≠ []) →
    List.zipWith (· ++ ·) (y.map (relabel f)) c = (List.zipWith (· ++ ·) y c).map (relabel f)
  | [], _, _ => rfl
  | _ :: _, [], _ => rfl
  | r :: y, b :: c, h => by
    simp only [List.map_cons, List.zipWith_cons_cons]
    rw [relabel_append (h r (by simp)), zipWith_relabel y c fun r hr => h r (List.mem_cons_of_mem _ hr)]

theorem cstrMin_relabel (hf : Increasing f) (y1 y2 : List Flt) :
    cstrMin (relabel f y1) (relabel f y2) tol = cstrMin y1 y2 tol := by
  have ho : objCmp (relabel f y1) (relabel f y2) = objCmp y1 y2 := by
    cases y1 <;> cases y2 <;> simp [relabel, objCmp, hf.cmp]
  have hs : ∀ y, cstrSum (relabel f y) tol = cstrSum y tol := by intro y; cases y <;> rfl
  have hl : (relabel f y1).length = y1.length := by cases y1 <;> rfl
  simp only [cstrMin, ho, hs, hl]

theorem minFold_relabel (hf : Increasing f) : ∀ (rows : List (List Flt)) (k : Option ℕ) (best : List Flt) (i : ℕ),
    minFold tol (k, relabel f best) i (rows.map (relabel f)) =
      (minFold tol (k, best) i rows).map fun m => (m.1, relabel f m.2)
  | [], _, _, _ => rfl
  | r :: rows, k, best, i => by
    simp only [List.map_cons, minFold, cstrMin_relabel hf]
    cases cstrMin best r tol with
    | error e => rfl
    | ok o => cases o <;> simp only [bind, Except.bind, minFold_relabel hf rows]

theorem findBestFrom_relabel (hf : Increasing f) (current offset : ℕ) (y c : Mat Flt) (hy : ∀ r ∈ y.rows, r ≠ []) :
    findBestFrom current offset ⟨y.ncols, y.rows.map (relabel f)⟩ c tol = findBestFrom current offset y c tol := by
  by_cases hl : y.rows.length = c.rows.length
  · simp only [findBestFrom, Mat.hcat, List.length_map, hl, if_true, bind, Except.bind, zipWith_relabel _ _ hy,
      List.getElem?_map]
    split_ifs with h
    · rfl
    · cases (List.zipWith (· ++ ·) y.rows c.rows)[current]? with
      | none => rfl
      | some best =>
        simp only [Option.map_some, ← List.map_drop, minFold_relabel hf]
        cases minFold tol (none, best) 0 ((List.zipWith (· ++ ·) y.rows c.rows).drop offset) with
        | error e => rfl
        | ok m => rfl
  · simp [findBestFrom, Mat.hcat, hl, bind, Except.bind]

theorem nan_of_increasing (hf : Increasing f) : f .nan = .nan := by
  have := hf.cmp .nan .nan
  cases h : f .nan <;> rw [h] at this <;> simp [Flt.cmp] at this ⊢

theorem headD_relabel (hf : Increasing f) (r : List Flt) : (relabel f r).headD .nan = f (r.headD .nan) := by
  cases r with
  | nil => exact (nan_of_increasing hf).symm
  | cons o cs => rfl

theorem argminLoop_map (hf : Increasing f) : ∀ (l : List Flt) (cur : Flt) (ci i : ℕ),
    argminLoop (f cur) ci i (l.map f) = argminLoop cur ci i l
  | [], _, _, _ => rfl
  | e :: l, cur, ci, i => by
    simp only [List.map_cons, argminLoop, hf.cmp]
    cases Flt.cmp e cur with
    | none => rfl
    | some o => cases o <;> simp only [argminLoop_map hf l]

theorem argmin_map_increasing (hf : Increasing f) (l : List Flt) : argmin (l.map f) = argmin l := by
  cases l with
  | nil => rfl
  | cons e l => exact argminLoop_map hf (e :: l) e 0 0

theorem scanFeasible_map (hf : Increasing f) : ∀ (l : List (Flt × Flt)) (best : Flt) (bi i : ℕ),
    scanFeasible (f best) bi i (l.map fun p => (p.1, f p.2)) = scanFeasible best bi i l
  | [], _, _, _ => rfl
  | (s, o) :: l, best, bi, i => by
    simp only [List.map_cons, scanFeasible, Flt.lt, hf.cmp, scanFeasible_map hf l]
    rfl

theorem fallback_relabel (hf : Increasing f) (rows : List (List Flt)) :
    fallback (rows.map (relabel f)) tol = fallback rows tol := by
  have hz : (rows.map (relabel f)).zipIdx = rows.zipIdx.map fun p => (relabel f p.1, p.2) := by
    rw [List.zipIdx_map]
    rfl
  have hm : ((rows.map (relabel f)).zipIdx.mergeSort fun a b => !(Flt.lt (b.1.headD .nan) (a.1.headD .nan))) =
      (rows.zipIdx.mergeSort fun a b => !(Flt.lt (b.1.headD .nan) (a.1.headD .nan))).map
        fun p => (relabel f p.1, p.2) := by
    rw [hz, List.map_mergeSort]
    intro a _ b _
    simp only [headD_relabel hf, Flt.lt, hf.cmp]
  simp only [fallback, hm]
  generalize rows.zipIdx.mergeSort _ = idx
  rw [List.find?_map]
  have hb : ((fun p : List Flt × ℕ => strictlyBelow (p.1.drop 1) tol) ∘ fun p : List Flt × ℕ => (relabel f p.1, p.2)) =
      fun p : List Flt × ℕ => strictlyBelow (p.1.drop 1) tol := by
    funext p
    obtain ⟨r, i⟩ := p
    cases r <;> rfl
  rw [hb]
  cases idx.find? _ with
  | some p => rfl
  | none => cases idx <;> rfl

theorem findBest_relabel (hf : Increasing f) (y c : Mat Flt) (hy : ∀ r ∈ y.rows, r ≠ []) :
    findBest ⟨y.ncols, y.rows.map (relabel f)⟩ c tol = findBest y c tol := by
  unfold findBest
  by_cases hc : y.ncols > 1 ∨ c.ncols > 0
  · simp only [hc, if_true]
    by_cases hl : y.rows.length = c.rows.length
    · simp only [Mat.hcat, List.length_map, hl, if_true, bind, Except.bind, zipWith_relabel _ _ hy, fallback_relabel hf]
      generalize List.zipWith (· ++ ·) y.rows c.rows = rows
      have h1 : ((rows.map (relabel f)).map fun r => (csumZip .zero (r.drop 1) tol, r.headD .nan)) =
          (rows.map fun r => (csumZip .zero (r.drop 1) tol, r.headD .nan)).map fun p => (p.1, f p.2) := by
        simp only [List.map_map]
        refine List.map_congr_left fun r _ => ?_
        simp only [Function.comp, headD_relabel hf]
        cases r <;> rfl
      rw [h1]
      generalize (rows.map fun r => (csumZip .zero (r.drop 1) tol, r.headD .nan)) = cobj
      have h2 : (cobj.map fun p => (p.1, f p.2)).map Prod.fst = cobj.map Prod.fst := by
        simp [List.map_map, Function.comp_def]
      rw [h2]
      cases argmin (cobj.map Prod.fst) with
      | error e => rfl
      | ok mi =>
        simp only [List.getElem?_map]
        cases cobj[mi]? with
        | none => rfl
        | some p =>
          have := scanFeasible_map hf cobj .pinf 0 0
          rw [hf.pinf] at this
          simp only [Option.map_some, this]
    · simp [Mat.hcat, hl, bind, Except.bind]
  · simp only [hc, if_false]
    have : (y.rows.map (relabel f)).map (fun r => r.headD .nan) = (y.rows.map fun r => r.headD .nan).map f := by
      simp only [List.map_map]
      exact List.map_congr_left fun r _ => headD_relabel hf r
    rw [this, argmin_map_increasing hf]

/-- C142. The best result stays the best in any unit and from any origin: whatever the constraints and tolerances,
undefined and infinite values included, an increasing change of the objective leaves the chosen rows unchanged. -/
theorem C142_best_index (hf : Increasing f) (y c : Mat Flt) (hy : ∀ r ∈ y.rows, r ≠ []) :
    findBest ⟨y.ncols, y.rows.map (relabel f)⟩ c tol = findBest y c tol ∧
      ∀ current offset, findBestFrom current offset ⟨y.ncols, y.rows.map (relabel f)⟩ c tol =
        findBestFrom current offset y c tol :=
  ⟨findBest_relabel hf y c hy, fun current offset => findBestFrom_relabel hf current offset y c hy⟩

/-- Change of unit and origin. -/
def affine (a b : ℚ) : Flt → Flt
  | .fin x => .fin (a * x + b)
  | v => v

theorem increasing_affine {a b : ℚ} (ha : 0 < a) : Increasing (affine a b) := by
  refine ⟨fun u v => ?_, rfl⟩
  cases u <;> cases v <;> try rfl
  rename_i x y
  have h : ∀ p q : ℚ, a * p + b < a * q + b ↔ p < q := by
    intro p q
    rw [add_lt_add_iff_right, mul_lt_mul_iff_right₀ ha]
  simp only [affine, Flt.cmp, h]

/-- Meets the hypothesis of `C142_best_index`. -/
example : Increasing (affine 2 5) ∧
    findBest ⟨1, [[.fin 1], [.nan], [.fin (-3)]]⟩ ⟨1, [[.fin 0], [.fin 0], [.fin 0]]⟩ [.fin 0] = .ok 2 :=
  ⟨increasing_affine (by norm_num), by decide +kernel⟩

end Best

end Verif.Props
