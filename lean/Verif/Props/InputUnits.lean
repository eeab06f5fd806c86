import Verif.Props.Units
import Verif.Props.GpEquiv
import Verif.Props.Steps
import Verif.Props.Result

/-!
# C146: units and origins of the variables
-/

set_option autoImplicit false

namespace Verif.Spec

open Verif Criteria

variable {d : ℕ}

/-- The same point in other units: `s j` is the number of new units in an old one, `t j` the new value of the old
origin. -/
def moved (s t : Fin d → ℝ) (x : Fin d → ℝ) : Fin d → ℝ := fun j => s j * x j + t j

/-- The second surrogate predicts at a point, in the new units, what the first predicts in the old ones; its gradients
are divided by the units. -/
structure Moved (s t : Fin d → ℝ) (f f' : Surrogate d) : Prop where
  predict : ∀ x, f'.predict (moved s t x) = f.predict x
  valvar : ∀ x, f'.valvar (moved s t x) = f.valvar x
  predictGrad : ∀ x, f'.predictGrad (moved s t x) = (f.predictGrad x).map fun g j => g j / s j
  valvarGrad : ∀ x, f'.valvarGrad (moved s t x) =
    (f.valvarGrad x).map fun g => (fun j => g.1 j / s j, fun j => g.2 j / s j)

/-- The list of labels a density based clustering gives in the two extreme cases, for a tolerance of `√d` and clusters of
two points or more: all points are in one cluster if they are close to one another, all are outliers if they are far from
one another. -/
structure DensityLabels (d : ℕ) (labels : List (Fin d → ℝ) → List (Option ℕ)) : Prop where
  close : ∀ xs, 2 ≤ xs.length → (∀ a ∈ xs, ∀ b ∈ xs, euclid a b < √d) → ∃ l, labels xs = List.replicate xs.length (some l)
  far : ∀ xs, xs.Pairwise (fun a b => √d < euclid a b) → labels xs = List.replicate xs.length none

end Verif.Spec

namespace Verif.Props

open Verif Spec Criteria Real

variable {n d h : ℕ} {s t : Fin d → ℝ} {f f' : Surrogate d}

/-! ## Designs and starts -/

/-- C146, part. A design sampled in other units is the same design. -/
theorem C146_design_partial (s t l u : Fin d → ℝ) (z : Doe.Design n d) :
    Doe.sample (moved s t l) (moved s t u) z = fun i => moved s t (Doe.sample l u z i) := by
  funext i j
  simp only [Doe.sample, moved]
  ring

theorem scaledDist_moved (hs : ∀ j, 0 < s j) (t l u a b : Fin d → ℝ) :
    Steps.scaledDist (fun j => moved s t u j - moved s t l j) (moved s t a) (moved s t b) =
      Steps.scaledDist (fun j => u j - l j) a b := by
  unfold Steps.scaledDist
  congr 1
  refine Finset.sum_congr rfl fun j _ => ?_
  congr 1
  simp only [moved]
  rw [show s j * a j + t j - (s j * b j + t j) = s j * (a j - b j) by ring,
    show s j * u j + t j - (s j * l j + t j) = s j * (u j - l j) by ring, mul_div_mul_left _ _ (hs j).ne']

theorem middle_moved (s t a b : Fin d → ℝ) : Steps.middle (moved s t a) (moved s t b) = moved s t (Steps.middle a b) := by
  funext j
  simp only [Steps.middle, moved]
  ring

theorem isGood_moved (hs : ∀ j, 0 < s j) (t l u : Fin d → ℝ) (x : Doe.Design n d) (st : List (Fin d → ℝ)) (i j : Fin n) :
    Steps.isGood (fun k => moved s t (x k)) (fun j => moved s t u j - moved s t l j) (st.map (moved s t)) i j ↔
      Steps.isGood x (fun j => u j - l j) st i j := by
  simp only [Steps.isGood, middle_moved, scaledDist_moved hs, List.forall_mem_map]

theorem startLoop_moved (hs : ∀ j, 0 < s j) (t l u : Fin d → ℝ) (x : Doe.Design n d) (m : Option ℕ)
    (ps : List (Fin n × Fin n)) : ∀ st : List (Fin d → ℝ),
    Steps.startLoop (fun k => moved s t (x k)) (fun j => moved s t u j - moved s t l j) m ps (st.map (moved s t)) =
      (Steps.startLoop x (fun j => u j - l j) m ps st).map (moved s t) := by
  induction ps with
  | nil => intro st; rfl
  | cons p ps ih =>
    intro st
    obtain ⟨i, j⟩ := p
    by_cases hg : Steps.isGood x (fun j => u j - l j) st i j
    · have hg' := (isGood_moved hs t l u x st i j).2 hg
      have e : List.map (moved s t) st ++ [moved s t (Steps.middle (x i) (x j))] =
          (st ++ [Steps.middle (x i) (x j)]).map (moved s t) := by simp
      simp only [Steps.startLoop, if_pos hg, if_pos hg', middle_moved, e, ih]
      rw [List.length_map]
      split_ifs <;> rfl
    · have hg' := fun hh => hg ((isGood_moved hs t l u x st i j).1 hh)
      simp only [Steps.startLoop, if_neg hg, if_neg hg', ih]
      rw [List.length_map]
      split_ifs <;> rfl

/-- C146, part. The starts of the internal optimization are the same points in all units. -/
theorem C146_starts_partial (hs : ∀ j, 0 < s j) (t l u : Fin d → ℝ) (x : Doe.Design n d) (k : ℕ)
    (lhs : (m : ℕ) → Doe.Draw m d × List (Doe.Draw m d)) :
    Steps.multistart (fun i => moved s t (x i)) (moved s t l) (moved s t u) k lhs =
      (Steps.multistart x l u k lhs).map (List.map (moved s t)) := by
  have hst : Steps.startPoints (fun i => moved s t (x i)) (moved s t l) (moved s t u) (some k) =
      (Steps.startPoints x l u (some k)).map (moved s t) := by
    unfold Steps.startPoints
    have e : Steps.sortedPairs (fun i => moved s t (x i)) (fun j => moved s t u j - moved s t l j) =
        Steps.sortedPairs x (fun j => u j - l j) := by
      simp only [Steps.sortedPairs, scaledDist_moved hs]
    simp only [e]
    exact startLoop_moved hs t l u x (some k) _ []
  unfold Steps.multistart
  simp only
  generalize Steps.startPoints (fun i => moved s t (x i)) (moved s t l) (moved s t u) (some k) = A at *
  generalize Steps.startPoints x l u (some k) = B at *
  have hl : A.length = B.length := by rw [hst, List.length_map]
  generalize A.length = N' at *
  generalize B.length = N at *
  subst hl hst
  split_ifs
  · rfl
  · cases Doe.lhsSample (.maximin (lhs (max (k - N') 3)).1 (lhs (max (k - N') 3)).2) with
    | error e => rfl
    | ok z =>
      simp only [bind, Except.bind, Except.map, C146_design_partial, List.map_append, List.map_take, List.map_ofFn,
        Function.comp_def]

/-! ## Criteria -/

theorem ei_moved (hf : Moved s t f f') (x : Pt d) (fmin : ℝ) (w : Option ℝ) :
    eiValue (moved s t x) f' fmin w = eiValue x f fmin w := by unfold eiValue; rw [hf.valvar]

theorem value_moved (hf : Moved s t f f') (c : Crit) (x : Pt d) (fmin : ℝ) (w sc : Option ℝ) :
    c.value (moved s t x) f' fmin w sc = c.value x f fmin w sc := by
  cases c with
  | ei => simp only [Crit.value, ei_moved hf]
  | logEi => simp only [Crit.value, logEiValue, hf.valvar]
  | wb2 k => simp only [Crit.value, ei_moved hf, hf.predict]

theorem pof_moved (hf : Moved s t f f') (x : Pt d) (tol : ℝ) : pof (moved s t x) f' tol = pof x f tol := by
  unfold pof; rw [hf.valvar]

theorem zip_moved {α : Type} (g : Surrogate d → ℝ → α) (g' : Surrogate d → ℝ → α) {cs cs' : List (Surrogate d)}
    (hc : List.Forall₂ (Moved s t) cs cs') (h : ∀ f f' tol, Moved s t f f' → g' f' tol = g f tol) :
    ∀ tols : List ℝ, (cs'.zip tols).map (fun m => g' m.1 m.2) = (cs.zip tols).map fun m => g m.1 m.2 := by
  induction hc with
  | nil => intro tols; rfl
  | cons h1 _ ih =>
    intro tols
    cases tols with
    | nil => rfl
    | cons a l => simp only [List.zip_cons_cons, List.map_cons, ih, h _ _ a h1]

theorem pofs_moved {cs cs' : List (Surrogate d)} (hc : List.Forall₂ (Moved s t) cs cs') (x : Pt d) (tols : List ℝ) :
    pofs (moved s t x) cs' tols = pofs x cs tols ∧ logpofs (moved s t x) cs' tols = logpofs x cs tols := by
  constructor
  · unfold pofs
    rw [zip_moved (fun f tol => pof x f tol) (fun f tol => pof (moved s t x) f tol) hc
      fun f f' tol hf => pof_moved hf x tol]
  · unfold logpofs
    rw [zip_moved (fun f tol => log (max (pof x f tol) eps)) (fun f tol => log (max (pof (moved s t x) f tol) eps)) hc
      fun f f' tol hf => by rw [pof_moved hf x tol]]

theorem argmax_moved (g : Pt d → ℝ) (xs : List (Pt d)) :
    argmax ((xs.map (moved s t)).map fun x => (x, g x)) =
      (argmax (xs.map fun x => (x, g (moved s t x)))).map fun p => (moved s t p.1, p.2) := by
  have key : ∀ (l : List (Pt d)) (a : Pt d × ℝ),
      ((l.map (moved s t)).map fun x => (x, g x)).foldl (fun m b => if m.2 < b.2 then b else m) (moved s t a.1, a.2) =
        (moved s t (((l.map fun x => (x, g (moved s t x))).foldl (fun m b => if m.2 < b.2 then b else m) a).1),
          ((l.map fun x => (x, g (moved s t x))).foldl (fun m b => if m.2 < b.2 then b else m) a).2) := by
    intro l
    induction l with
    | nil => intro a; rfl
    | cons b l ih =>
      intro a
      simp only [List.map_cons, List.foldl_cons]
      by_cases hab : a.2 < g (moved s t b)
      · simp only [if_pos hab]
        exact ih (b, g (moved s t b))
      · simp only [if_neg hab]
        exact ih a
  cases xs with
  | nil => rfl
  | cons a l =>
    simp only [List.map_cons, argmax, Except.map]
    exact congrArg _ (key l (a, g (moved s t a)))

theorem scaleIc_moved (hf : Moved s t f f') (c : Crit) (xs : List (Pt d)) (fmin w : ℝ) :
    Units.scaleIc c (xs.map (moved s t)) f' fmin w = Units.scaleIc c xs f fmin w := by
  cases c with
  | ei => rfl
  | logEi => rfl
  | wb2 k =>
    cases k with
    | some k => rfl
    | none =>
      simp only [Units.scaleIc, wb2sScale]
      rw [argmax_moved (fun x => eiValue x f' fmin (some w)) xs]
      simp only [ei_moved hf]
      cases argmax (xs.map fun x => (x, eiValue x f fmin (some w))) with
      | error e => rfl
      | ok p => simp only [Except.map, bind, Except.bind, hf.predict]

theorem mapM_moved {β : Type} (g g' : Pt d → Except Panic β) (h : ∀ x, g' (moved s t x) = g x) (xs : List (Pt d)) :
    (xs.map (moved s t)).mapM g' = xs.mapM g := by
  induction xs with
  | nil => rfl
  | cons x xs ih => rw [List.map_cons, List.mapM_cons, List.mapM_cons, h, ih]

/-- C146, part. The function given to the internal optimizer has the same values at the same points in all units, with all
criteria, with or without constraints in the criterion. -/
theorem C146_objective_partial (hf : Moved s t f f') {cs cs' : List (Surrogate d)}
    (hc : List.Forall₂ (Moved s t) cs cs') (c : Crit) (ci : Bool) (xs : List (Pt d)) (tols : List ℝ) (fmin : ℝ)
    (feas : Bool) (w : ℝ) (F : Pt d → Except Panic ℝ) (hF : Units.objective c ci xs f cs tols fmin feas w = .ok F) :
    ∃ F', Units.objective c ci (xs.map (moved s t)) f' cs' tols fmin feas w = .ok F' ∧
      ∀ x, F' (moved s t x) = F x := by
  have hobj : ∀ sc sic x, evalInfillObj c (moved s t x) f' fmin sc sic w = evalInfillObj c x f fmin sc sic w := by
    intro sc sic x
    simp only [evalInfillObj, value_moved hf]
  unfold Units.objective at hF ⊢
  rw [scaleIc_moved hf]
  cases h1 : Units.scaleIc c xs f fmin w with
  | error e => simp [h1, bind, Except.bind] at hF
  | ok sic =>
    have h2 : Units.objScale c ci (xs.map (moved s t)) f' cs' tols fmin sic w =
        Units.objScale c ci xs f cs tols fmin sic w := by
      unfold Units.objScale
      rw [mapM_moved _ _ (hobj 1 sic)]
      cases (xs.mapM fun x => evalInfillObj c x f fmin 1 sic w) with
      | error e => rfl
      | ok v =>
        simp only [bind, Except.bind, infillObjScale, List.map_map, Function.comp_def, hobj, (pofs_moved hc _ tols).1,
          (pofs_moved hc _ tols).2]
    rw [h1] at hF
    simp only [bind, Except.bind, h2] at hF ⊢
    cases h3 : Units.objScale c ci xs f cs tols fmin sic w with
    | error e => simp [h3] at hF
    | ok sc =>
      simp only [h3, Except.ok.injEq] at hF ⊢
      subst hF
      refine ⟨_, rfl, fun x => ?_⟩
      cases ci with
      | false => simpa using hobj sc sic x
      | true =>
        simp only [if_true, evalInfillObjWithCstrs, hobj, (pofs_moved hc x tols).1, (pofs_moved hc x tols).2]

/-- C146, part. The constraints given to the internal optimizer have the same values in all units. -/
theorem C146_constraints_partial (hf : Moved s t f f') (x : Pt d) (sc : ℝ) :
    meanCstr f' (moved s t x) sc = meanCstr f x sc ∧ utbCstr f' (moved s t x) sc = utbCstr f x sc ∧
      meanCstrGrad f' (moved s t x) sc = (meanCstrGrad f x sc).map fun g j => g j / s j := by
  refine ⟨by simp only [meanCstr, hf.predict], by simp only [utbCstr, hf.valvar], ?_⟩
  simp only [meanCstrGrad, hf.predictGrad]
  cases f.predictGrad x with
  | none => rfl
  | some g =>
    simp only [Option.map_some, unwrap, Except.map]
    congr 1
    funext j
    ring

theorem eiGradAt_div (fmin k p v : ℝ) (y w : Pt d) (s : Fin d → ℝ) :
    eiGradAt fmin k p v (fun j => y j / s j) (fun j => w j / s j) = fun j => eiGradAt fmin k p v y w j / s j := by
  funext j
  simp only [eiGradAt]
  ring

theorem logEiGradAt_div (fmin p v : ℝ) (y w : Pt d) (s : Fin d → ℝ) :
    logEiGradAt fmin p v (fun j => y j / s j) (fun j => w j / s j) = fun j => logEiGradAt fmin p v y w j / s j := by
  funext j
  simp only [logEiGradAt]
  ring

theorem pofGradAt_div (tol p v : ℝ) (y w : Pt d) (s : Fin d → ℝ) :
    pofGradAt tol p v (fun j => y j / s j) (fun j => w j / s j) = fun j => pofGradAt tol p v y w j / s j := by
  funext j
  simp only [pofGradAt]
  ring

theorem unwrap_map {α β : Type} (o : Option α) (g : α → β) : unwrap (o.map g) = (unwrap o).map g := by
  cases o <;> rfl

theorem eiGrad_moved (hf : Moved s t f f') (x : Pt d) (fmin : ℝ) (w : Option ℝ) :
    eiGrad (moved s t x) f' fmin w = (eiGrad x f fmin w).map fun g j => g j / s j := by
  unfold eiGrad
  rw [hf.valvar, hf.valvarGrad, unwrap_map]
  cases f.valvar x with
  | none => simp only [Except.map]; congr 1; funext j; simp
  | some pv =>
    simp only
    split_ifs
    · simp only [Except.map]; congr 1; funext j; simp
    · cases unwrap (f.valvarGrad x) with
      | error e => rfl
      | ok g => simp only [Except.map, eiGradAt_div]

/-- C146, part. The gradient given to the internal optimizer is divided by the units; with the logarithm of the expected
improvement, where the predicted variance is not negligible. -/
theorem C146_gradient_partial (hf : Moved s t f f') (c : Crit) (x : Pt d)
    (hx : c = .logEi → ∃ p v, f.valvar x = some (p, v) ∧ eps ≤ v) (fmin sc sic : ℝ) :
    evalGradInfillObj c (moved s t x) f' fmin sc sic =
      (evalGradInfillObj c x f fmin sc sic).map fun g j => g j / s j := by
  have key : ∀ r : Except Panic (Pt d), (r.map fun g j => g j / s j).map (fun g : Pt d => fun j => -g j / sc) =
      (r.map fun g : Pt d => fun j => -g j / sc).map fun g j => g j / s j := by
    intro r
    cases r with
    | error e => rfl
    | ok g => simp only [Except.map]; congr 1; funext j; ring
  unfold evalGradInfillObj
  rw [← key]
  congr 1
  cases c with
  | ei => exact eiGrad_moved hf x fmin none
  | logEi =>
    obtain ⟨p, v, h1, h2⟩ := hx rfl
    simp only [Crit.grad, logEiGrad, hf.valvar, hf.valvarGrad, h1, if_neg (not_lt.2 h2), unwrap_map]
    cases unwrap (f.valvarGrad x) with
    | error e => rfl
    | ok g => simp only [Except.map, logEiGradAt_div]
  | wb2 k =>
    simp only [Crit.grad, eiGrad_moved hf, hf.predictGrad, unwrap_map]
    cases eiGrad x f fmin none with
    | error e => rfl
    | ok g =>
      cases unwrap (f.predictGrad x) with
      | error e => rfl
      | ok q =>
        simp only [Except.map, bind, Except.bind]
        congr 1
        funext j
        ring

theorem pofGrad_moved (hf : Moved s t f f') (x : Pt d) (tol : ℝ) :
    pofGrad (moved s t x) f' tol = (pofGrad x f tol).map fun g j => g j / s j := by
  unfold pofGrad
  rw [hf.valvar, hf.valvarGrad, unwrap_map]
  cases f.valvar x with
  | none => simp only [Except.map]; congr 1; funext j; simp
  | some pv =>
    simp only
    split_ifs
    · simp only [Except.map]; congr 1; funext j; simp
    · cases unwrap (f.valvarGrad x) with
      | error e => rfl
      | ok g => simp only [Except.map, pofGradAt_div]

theorem logpofGrad_moved (hf : Moved s t f f') (x : Pt d) (tol : ℝ) :
    logpofGrad (moved s t x) f' tol = (logpofGrad x f tol).map fun g j => g j / s j := by
  unfold logpofGrad
  rw [pofGrad_moved hf, pof_moved hf]
  cases pofGrad x f tol with
  | error e => rfl
  | ok g => simp only [Except.map]; congr 1; funext j; ring

theorem zip_mapM_moved (g g' : Surrogate d → ℝ → Except Panic (Pt d)) {cs cs' : List (Surrogate d)}
    (hc : List.Forall₂ (Moved s t) cs cs')
    (h : ∀ f f' tol, Moved s t f f' → g' f' tol = (g f tol).map fun v j => v j / s j) :
    ∀ tols : List ℝ, ((cs'.zip tols).mapM fun m => g' m.1 m.2) =
      ((cs.zip tols).mapM fun m => g m.1 m.2).map (List.map fun v j => v j / s j) := by
  induction hc with
  | nil => intro tols; rfl
  | @cons a b la lb h1 _ ih =>
    intro tols
    cases tols with
    | nil => rfl
    | cons u l =>
      simp only [List.zip_cons_cons, List.mapM_cons, ih, h _ _ u h1]
      cases g a u with
      | error e => rfl
      | ok v =>
        simp only [Except.map, bind, Except.bind]
        cases ((la.zip l).mapM fun m => g m.1 m.2) with
        | error e => rfl
        | ok vs => rfl

theorem pofsGrad_moved {cs cs' : List (Surrogate d)} (hc : List.Forall₂ (Moved s t) cs cs') (x : Pt d) (tols : List ℝ) :
    pofsGrad (moved s t x) cs' tols = (pofsGrad x cs tols).map fun g j => g j / s j := by
  unfold pofsGrad
  rw [zip_moved (fun f tol => pof x f tol) (fun f tol => pof (moved s t x) f tol) hc fun f f' tol hf => pof_moved hf x tol,
    zip_mapM_moved (fun f tol => pofGrad x f tol) (fun f tol => pofGrad (moved s t x) f tol) hc
      fun f f' tol hf => pofGrad_moved hf x tol]
  cases ((cs.zip tols).mapM fun m => pofGrad x m.1 m.2) with
  | error e => rfl
  | ok gs =>
    simp only [Except.map]
    congr 1
    generalize ((cs.zip tols).map fun m => pof x m.1 m.2) = V
    have key : ∀ (l : List (Pt d)) (k : ℕ) (acc : Pt d),
        ((l.map fun (v : Pt d) j => v j / s j).zipIdx k).foldl (fun (acc : Pt d) g => fun j => acc j + g.1 j * othersProduct V g.2)
          (fun j => acc j / s j) =
        fun j => (l.zipIdx k).foldl (fun (acc : Pt d) g => fun j => acc j + g.1 j * othersProduct V g.2) acc j / s j := by
      intro l
      induction l with
      | nil => intro k acc; rfl
      | cons v l ih =>
        intro k acc
        simp only [List.map_cons, List.zipIdx_cons, List.foldl_cons]
        rw [← ih]
        congr 1
        funext j
        ring
    have := key gs 0 0
    rw [← this]
    congr 1
    funext j
    simp

theorem logpofsGrad_moved {cs cs' : List (Surrogate d)} (hc : List.Forall₂ (Moved s t) cs cs') (x : Pt d)
    (tols : List ℝ) : logpofsGrad (moved s t x) cs' tols = (logpofsGrad x cs tols).map fun g j => g j / s j := by
  unfold logpofsGrad
  rw [zip_mapM_moved (fun f tol => logpofGrad x f tol) (fun f tol => logpofGrad (moved s t x) f tol) hc
      fun f f' tol hf => logpofGrad_moved hf x tol]
  cases ((cs.zip tols).mapM fun m => logpofGrad x m.1 m.2) with
  | error e => rfl
  | ok gs =>
    simp only [Except.map]
    congr 1
    have key : ∀ (l : List (Pt d)) (acc : Pt d),
        (l.map fun (v : Pt d) j => v j / s j).foldl (fun (acc : Pt d) g => fun j => acc j + g j) (fun j => acc j / s j) =
        fun j => l.foldl (fun (acc : Pt d) g => fun j => acc j + g j) acc j / s j := by
      intro l
      induction l with
      | nil => intro acc; rfl
      | cons v l ih =>
        intro acc
        simp only [List.map_cons, List.foldl_cons]
        rw [← ih]
        congr 1
        funext j
        ring
    have := key gs 0
    rw [← this]
    congr 1
    funext j
    simp

/-- C146, part. The same for the gradient of the criterion with constraints. -/
theorem C146_constrained_gradient_partial (hf : Moved s t f f') {cs cs' : List (Surrogate d)}
    (hc : List.Forall₂ (Moved s t) cs cs') (c : Crit) (x : Pt d)
    (hx : c = .logEi → ∃ p v, f.valvar x = some (p, v) ∧ eps ≤ v) (tols : List ℝ) (fmin sc sic : ℝ) (feas : Bool)
    (w : ℝ) :
    evalGradInfillObjWithCstrs c (moved s t x) f' cs' tols fmin sc sic feas w =
      (evalGradInfillObjWithCstrs c x f cs tols fmin sc sic feas w).map fun g j => g j / s j := by
  have hg := C146_gradient_partial hf c x hx fmin sc sic
  have hv : evalInfillObj c (moved s t x) f' fmin sc sic w = evalInfillObj c x f fmin sc sic w := by
    simp only [evalInfillObj, value_moved hf]
  unfold evalGradInfillObjWithCstrs
  have he : cs'.isEmpty = cs.isEmpty := by cases hc <;> rfl
  rw [he, hg, pofsGrad_moved hc, logpofsGrad_moved hc]
  split_ifs
  · rfl
  · cases evalGradInfillObj c x f fmin sc sic with
    | error e => rfl
    | ok g =>
      cases logpofsGrad x cs tols with
      | error e => rfl
      | ok lg => simp only [Except.map, bind, Except.bind]; congr 1; funext j; ring
  · cases logpofsGrad x cs tols with
    | error e => rfl
    | ok lg =>
      simp only [Except.map, bind, Except.bind]
      congr 1
      funext j
      simp only [Pi.zero_apply]
      ring
  · unfold infillAndGrad
    rw [hv, hg]
    cases feas with
    | true =>
      simp only [if_true]
      cases evalInfillObj c x f fmin sc sic w with
      | error e => rfl
      | ok v =>
        cases evalGradInfillObj c x f fmin sc sic with
        | error e => rfl
        | ok g =>
          cases pofsGrad x cs tols with
          | error e => rfl
          | ok pg =>
            simp only [Except.map, bind, Except.bind, (pofs_moved hc x tols).1]
            congr 1
            funext j
            ring
    | false =>
      simp only [Bool.false_eq_true, if_false]
      cases pofsGrad x cs tols with
      | error e => rfl
      | ok pg =>
        simp only [Except.map, bind, Except.bind]
        congr 1
        funext j
        simp only [Pi.zero_apply]
        ring

/-! ## Gaussian processes -/

/-- C146, part. Gaussian processes trained on the same points in two units are as supposed above, if the variables whose
unit changes are not constant in the data. -/
theorem C146_gp_partial (la la' : Gp.LinAlg) (kernel : Kernels.Kernel) (mean : Means.Mean) (nugget : ℝ) (theta : Fin h → ℝ)
    (w : Fin d → Fin h → ℝ) (x : Fin n → Fin d → ℝ) (y : Fin n → ℝ) (hs : ∀ j, 0 < s j) (t : Fin d → ℝ)
    (hx : ∀ j, s j = 1 ∨ ∃ i i', x i j ≠ x i' j) :
    (Gp.fitWith la kernel mean nugget theta w x y = none ↔
      Gp.fitWith la kernel mean nugget theta w (fun i => moved s t (x i)) y = none) ∧
    ∀ g g', Gp.fitWith la kernel mean nugget theta w x y = some g →
      Gp.fitWith la kernel mean nugget theta w (fun i => moved s t (x i)) y = some g' →
        Moved s t (Units.gpSurr la' g) (Units.gpSurr la' g') := by
  obtain ⟨h1, h2⟩ := C105_input_units la kernel mean nugget theta w x y s t hs hx
  refine ⟨h1, fun g g' hg hg' => ?_⟩
  obtain ⟨_, hp⟩ := h2 g g' hg hg'
  have p1 : ∀ x', g'.predict (moved s t x') = g.predict x' := fun x' => (hp la' x').1
  have p2 : ∀ x', Gp.Model.predictVar la' g' (moved s t x') = Gp.Model.predictVar la' g x' := fun x' => (hp la' x').2.1
  have p3 : ∀ x', g'.predictGradient (moved s t x') = (g.predictGradient x').map fun v j => v j / s j :=
    fun x' => (hp la' x').2.2.1
  have p4 : ∀ x', Gp.Model.predictVarGradient la' g' (moved s t x') =
      (Gp.Model.predictVarGradient la' g x').map fun v j => v j / s j := fun x' => (hp la' x').2.2.2.1
  constructor
  · intro x'; exact congrArg some (p1 x')
  · intro x'
    simp only [Units.gpSurr, p1, p2]
  · intro x'; exact p3 x'
  · intro x'
    simp only [Units.gpSurr, p3, p4]
    cases g.predictGradient x' with
    | none => rfl
    | some a => cases g.predictVarGradient la' x' <;> rfl

/-! ## What depends on the units -/

/-- C146. The local area of the trust region is the same in another unit exactly when the unit is the same, or its
distances are zero, or it is cut by the bounds in both units. -/
theorem C146_local_area_iff (l u x a b : ℝ) (dist : ℝ × ℝ) (ha : 0 < a) :
    Steps.localBox (a * l + b, a * u + b) dist (a * x + b) =
      (a * (Steps.localBox (l, u) dist x).1 + b, a * (Steps.localBox (l, u) dist x).2 + b) ↔
    (a = 1 ∨ dist.1 = 0 ∨ x - dist.1 ≤ l ∧ a * (x - l) ≤ dist.1) ∧
    (a = 1 ∨ dist.2 = 0 ∨ u ≤ x + dist.2 ∧ a * (u - x) ≤ dist.2) := by
  obtain ⟨p, q⟩ := dist
  simp only [Steps.localBox, Prod.mk.injEq]
  apply and_congr
  · rcases le_or_gt (x - p) l with h1 | h1
    · rw [max_eq_left h1, max_eq_left_iff]
      constructor
      · intro h; exact Or.inr (Or.inr ⟨h1, by linarith⟩)
      · rintro (rfl | rfl | ⟨_, h⟩)
        · linarith
        · have := mul_le_mul_of_nonneg_left h1 ha.le
          simp only [sub_zero] at this ⊢
          linarith
        · linarith
    · rw [max_eq_right h1.le]
      have h2 : a * l < a * (x - p) := mul_lt_mul_of_pos_left h1 ha
      constructor
      · intro h
        rcases max_choice (a * l + b) (a * x + b - p) with h3 | h3
        · rw [h3] at h; linarith
        · rw [h3] at h
          have h4 : (a - 1) * p = 0 := by linarith
          rcases mul_eq_zero.1 h4 with h4 | h4
          · exact Or.inl (by linarith)
          · exact Or.inr (Or.inl h4)
      · rintro (rfl | rfl | ⟨h, _⟩)
        · rw [max_eq_right (by linarith)]; ring
        · simp only [sub_zero] at h2 ⊢
          exact max_eq_right (by linarith)
        · linarith
  · rcases le_or_gt u (x + q) with h1 | h1
    · rw [min_eq_left h1, min_eq_left_iff]
      constructor
      · intro h; exact Or.inr (Or.inr ⟨h1, by linarith⟩)
      · rintro (rfl | rfl | ⟨_, h⟩)
        · linarith
        · have := mul_le_mul_of_nonneg_left h1 ha.le
          simp only [add_zero] at this ⊢
          linarith
        · linarith
    · rw [min_eq_right h1.le]
      have h2 : a * (x + q) < a * u := mul_lt_mul_of_pos_left h1 ha
      constructor
      · intro h
        rcases min_choice (a * u + b) (a * x + b + q) with h3 | h3
        · rw [h3] at h; linarith
        · rw [h3] at h
          have h4 : (a - 1) * q = 0 := by linarith
          rcases mul_eq_zero.1 h4 with h4 | h4
          · exact Or.inl (by linarith)
          · exact Or.inr (Or.inl h4)
      · rintro (rfl | rfl | ⟨h, _⟩)
        · rw [min_eq_right (by linarith)]; ring
        · simp only [add_zero] at h2 ⊢
          exact min_eq_right (by linarith)
        · linarith

/-- C146, refuted. For any interior point and any distances there is a unit in which the local area is another one. -/
theorem C146_refuted_local_area (l u x : ℝ) (dist : ℝ × ℝ) (hx : l < x) (hd : 0 < dist.1) :
    ∃ a : ℝ, 0 < a ∧ Steps.localBox (a * l, a * u) dist (a * x) ≠
      (a * (Steps.localBox (l, u) dist x).1, a * (Steps.localBox (l, u) dist x).2) := by
  have h0 : 0 < x - l := by linarith
  have h1 : 0 < dist.1 / (x - l) := by positivity
  refine ⟨dist.1 / (x - l) + 1, by linarith, fun h => ?_⟩
  have := (C146_local_area_iff l u x (dist.1 / (x - l) + 1) 0 dist (by linarith)).1 (by simpa using h)
  rcases this.1 with h2 | h2 | ⟨_, h2⟩
  · linarith
  · linarith
  · have : (dist.1 / (x - l) + 1) * (x - l) = dist.1 + (x - l) := by field_simp
    linarith

theorem l1_scaled (a b : ℚ) (ha : 0 ≤ a) (x y : List ℚ) :
    l1 (x.map fun v => a * v + b) (y.map fun v => a * v + b) = a * l1 x y := by
  unfold l1
  induction x generalizing y with
  | nil => simp
  | cons u x ih =>
    cases y with
    | nil => simp
    | cons v y =>
      simp only [List.map_cons, List.zipWith_cons_cons, List.sum_cons, ih, mul_add]
      congr 1
      rw [show a * u + b - (a * v + b) = a * (u - v) by ring, abs_mul, abs_of_nonneg ha]

theorem isUpdateOk_total (x : List ℚ) (rs : List (List ℚ)) (hx : x ≠ []) (hl : ∀ r ∈ rs, r.length = x.length) :
    (Run.isUpdateOk x rs = .ok true ∧ ∀ r ∈ rs, minSep ≤ l1 r x) ∨
      Run.isUpdateOk x rs = .ok false ∧ ∃ r ∈ rs, l1 r x < minSep := by
  induction rs with
  | nil => exact Or.inl ⟨rfl, by simp⟩
  | cons r rs ih =>
    have hr := hl r (by simp)
    have h1 : Run.l1dist r x = .ok (l1 r x) := by
      unfold Run.l1dist
      rw [if_neg (by rintro rfl; exact hx (List.length_eq_zero_iff.1 hr.symm)), if_neg (by simp [hr])]
      rfl
    simp only [Run.isUpdateOk, h1, bind, Except.bind]
    by_cases hlt : l1 r x < Run.minDist
    · rw [if_pos hlt]
      exact Or.inr ⟨rfl, r, by simp, hlt⟩
    · rw [if_neg hlt]
      rcases ih fun a ha => hl a (by simp [ha]) with ⟨h2, h3⟩ | ⟨h2, a, ha, h3⟩
      · refine Or.inl ⟨h2, fun a ha => ?_⟩
        rcases List.mem_cons.1 ha with rfl | ha
        · exact not_lt.1 hlt
        · exact h3 a ha
      · exact Or.inr ⟨h2, a, by simp [ha], h3⟩

/-- C146. In a unit `a` times smaller, a point is new if and only if it is at a distance of at least `100 * epsilon / a` of
the known points in the first unit. -/
theorem C146_new_point_iff (a b : ℚ) (ha : 0 < a) (x : List ℚ) (rs : List (List ℚ)) (hx : x ≠ [])
    (hl : ∀ r ∈ rs, r.length = x.length) :
    Run.isUpdateOk (x.map fun v => a * v + b) (rs.map (List.map fun v => a * v + b)) = .ok true ↔
      ∀ r ∈ rs, minSep / a ≤ l1 r x := by
  have h := isUpdateOk_total (x.map fun v => a * v + b) (rs.map (List.map fun v => a * v + b)) (by simpa using hx)
    (by simpa using hl)
  rw [List.forall_mem_map] at h
  simp only [List.mem_map, exists_exists_and_eq_and, l1_scaled a b ha.le] at h
  have e : ∀ r, minSep / a ≤ l1 r x ↔ minSep ≤ a * l1 r x := fun r => by rw [div_le_iff₀' ha]
  simp only [e]
  rcases h with ⟨h1, h2⟩ | ⟨h1, r, hr, h2⟩
  · exact ⟨fun _ => h2, fun _ => h1⟩
  · constructor
    · intro h3; rw [h1] at h3; cases h3
    · intro h3; exact absurd (h3 r hr) (not_le.2 h2)

/-- C146, refuted. Any two different points are two points in some units and one in others. -/
theorem C146_refuted_new_point (x r : List ℚ) (hx : x ≠ []) (hl : r.length = x.length) (hne : 0 < l1 r x) :
    ∃ a a' : ℚ, 0 < a ∧ 0 < a' ∧ Run.isUpdateOk (x.map (a * ·)) [r.map (a * ·)] = .ok true ∧
      Run.isUpdateOk (x.map (a' * ·)) [r.map (a' * ·)] ≠ .ok true := by
  have hm : 0 < minSep := by unfold minSep; norm_num
  refine ⟨minSep / l1 r x, minSep / (2 * l1 r x), by positivity, by positivity, ?_, ?_⟩
  · have := (C146_new_point_iff (minSep / l1 r x) 0 (by positivity) x [r] hx (by simpa using hl)).2 (by
      simp only [List.mem_singleton, forall_eq]
      exact le_of_eq (by field_simp))
    simpa using this
  · intro h
    have := (C146_new_point_iff (minSep / (2 * l1 r x)) 0 (by positivity) x [r] hx (by simpa using hl)).1 (by simpa using h)
    simp only [List.mem_singleton, forall_eq] at this
    have e : minSep / (minSep / (2 * l1 r x)) = 2 * l1 r x := by field_simp
    rw [e] at this
    linarith

theorem l1_le_widths (lim : List (ℚ × ℚ)) : ∀ a b : List ℚ, InLimits lim a → InLimits lim b →
    l1 a b ≤ (lim.map fun p => p.2 - p.1).sum := by
  induction lim with
  | nil =>
    intro a b ha hb
    cases ha; cases hb
    simp [l1]
  | cons p lim ih =>
    intro a b ha hb
    cases ha with
    | cons h1 h2 =>
      cases hb with
      | cons h3 h4 =>
        have := ih _ _ h2 h4
        simp only [l1, List.zipWith_cons_cons, List.sum_cons, List.map_cons] at this ⊢
        have : ∀ u v : ℚ, p.1 ≤ u ∧ u ≤ p.2 → p.1 ≤ v ∧ v ≤ p.2 → |u - v| ≤ p.2 - p.1 := by
          intro u v hu hv
          rw [abs_le]
          constructor <;> linarith [hu.1, hu.2, hv.1, hv.2]
        linarith [this _ _ h1 h3]

/-- C146, refuted. In units where the widths of the domain add up to less than `100 * epsilon`, no run adds any point to its
initial design, whatever the optimizer proposes. -/
theorem C146_refuted_run (cfg : Run.Cfg) (P : Run.Prob) (x0 : List (List ℚ)) (os : List Run.Oracle) (st : Run.St)
    (h : Run.run cfg P (.points x0) os = .ok st) (lim : List (ℚ × ℚ)) (hdoe : ∀ x ∈ x0, InLimits lim x)
    (hprop : ∀ o ∈ os, InLimits lim o.loc ∧ ∀ k i c, o.sel k i = some c → InLimits lim c.x)
    (hne : x0 ≠ []) (hsmall : (lim.map fun p => p.2 - p.1).sum < minSep) : st.data.x = x0 := by
  have hin := data_in_limits h hdoe hprop
  obtain ⟨s0, xs, h0, h1, _⟩ := Run.run_ext h
  obtain ⟨⟨i1, _⟩, _⟩ := Run.init_spec h0
  have hx := h1.x
  rw [i1] at hx
  cases xs with
  | nil => simpa using hx
  | cons x xs =>
    have hlen : x0.length < st.data.x.length := by rw [hx]; simp
    have hpos : 0 < x0.length := List.length_pos_iff.2 hne
    have hfar := C16_no_near_duplicate cfg P (.points x0) os st h 0 x0.length hpos le_rfl hlen
    have := l1_le_widths lim _ _ (hin _ (List.getElem_mem (hpos.trans hlen))) (hin _ (List.getElem_mem hlen))
    exact absurd (hfar.trans this) (not_le.2 hsmall)

/-! ## Portfolio -/

theorem euclid_moved_uniform (a : ℝ) (ha : 0 ≤ a) (t x y : Fin d → ℝ) :
    euclid (moved (fun _ => a) t x) (moved (fun _ => a) t y) = a * euclid x y := by
  unfold euclid
  rw [show ∑ j, (moved (fun _ => a) t x j - moved (fun _ => a) t y j) ^ 2 = a ^ 2 * ∑ j, (x j - y j) ^ 2 by
    rw [Finset.mul_sum]
    refine Finset.sum_congr rfl fun j _ => ?_
    simp only [moved]
    ring, Real.sqrt_mul (sq_nonneg a), Real.sqrt_sq ha]

theorem portfolio_first (labels : List (Fin d → ℝ) → List (Option ℕ)) (hL : DensityLabels d labels)
    (order : List (Option ℕ) → List ℕ) (ho : ∀ l, (order l).Nodup ∧ ∀ k, k ∈ order l ↔ some k ∈ l)
    (xs : List (Fin d → ℝ)) (x : Fin d → ℝ)
    (h : (∀ a ∈ x :: xs, ∀ b ∈ x :: xs, euclid a b < √d) ∨ (x :: xs).Pairwise fun a b => √d < euclid a b) :
    Steps.selectFromPortfolio (x :: xs) (labels (x :: xs)) (order (labels (x :: xs))) = .ok [x] := by
  have hone : (order (labels (x :: xs))).length ≤ 1 := by
    obtain ⟨hnd, hmem⟩ := ho (labels (x :: xs))
    have hall : ∀ k ∈ order (labels (x :: xs)), ∀ k' ∈ order (labels (x :: xs)), k = k' := by
      intro k hk k' hk'
      rw [hmem] at hk hk'
      rcases h with h | h
      · cases xs with
        | nil =>
          have := hL.far [x] (by simp)
          rw [this] at hk
          simp at hk
        | cons y ys =>
          obtain ⟨l, hl⟩ := hL.close (x :: y :: ys) (by simp) h
          rw [hl] at hk hk'
          have e1 := (List.eq_of_mem_replicate hk)
          have e2 := (List.eq_of_mem_replicate hk')
          simp only [Option.some.injEq] at e1 e2
          rw [e1, e2]
      · rw [hL.far _ h] at hk
        have := List.eq_of_mem_replicate hk
        cases this
    generalize order (labels (x :: xs)) = L at *
    match L, hnd, hall with
    | [], _, _ => simp
    | [_], _, _ => simp
    | a :: b :: _, hnd, hall =>
      have := hall a (by simp) b (by simp)
      subst this
      simp at hnd
  unfold Steps.selectFromPortfolio Steps.clusterIndices
  simp only [List.length_map]
  rw [if_neg (by omega)]

/-- C146, refuted. Whatever the members of a portfolio, there are units below which and units above which only the first
member is proposed. -/
theorem C146_refuted_portfolio (hd : 0 < d) (labels : List (Fin d → ℝ) → List (Option ℕ)) (hL : DensityLabels d labels)
    (order : List (Option ℕ) → List ℕ) (ho : ∀ l, (order l).Nodup ∧ ∀ k, k ∈ order l ↔ some k ∈ l)
    (x : Fin d → ℝ) (xs : List (Fin d → ℝ)) (hne : (x :: xs).Nodup) :
    ∃ a b : ℝ, 0 < a ∧ 0 < b ∧ ∀ c : ℝ, 0 < c → c ≤ a ∨ b ≤ c →
      let ys := (x :: xs).map (moved (fun _ => c) fun _ => 0)
      Steps.selectFromPortfolio ys (labels ys) (order (labels ys)) = .ok [moved (fun _ => c) (fun _ => 0) x] := by
  have hq : 0 < √(d : ℝ) := Real.sqrt_pos.2 (by exact_mod_cast hd)
  have hpos : ∀ u v : Fin d → ℝ, u ≠ v → 0 < euclid u v := by
    intro u v huv
    unfold euclid
    refine Real.sqrt_pos.2 ?_
    obtain ⟨j, hj⟩ := Function.ne_iff.1 huv
    exact lt_of_lt_of_le (by positivity [sub_ne_zero.2 hj])
      (Finset.single_le_sum (f := fun j => (u j - v j) ^ 2) (fun i _ => sq_nonneg _) (Finset.mem_univ j))
  -- an upper bound of all distances
  obtain ⟨M, hM0, hM⟩ : ∃ M : ℝ, 0 < M ∧ ∀ u ∈ x :: xs, ∀ v ∈ x :: xs, euclid u v ≤ M := by
    have : ∃ M : ℝ, ∀ p ∈ (x :: xs) ×ˢ (x :: xs), euclid p.1 p.2 ≤ M := by
      generalize (x :: xs) ×ˢ (x :: xs) = L
      induction L with
      | nil => exact ⟨0, by simp⟩
      | cons p L ih =>
        obtain ⟨M, hM⟩ := ih
        refine ⟨max M (euclid p.1 p.2), fun q hq => ?_⟩
        rcases List.mem_cons.1 hq with rfl | hq
        · exact le_max_right _ _
        · exact (hM q hq).trans (le_max_left _ _)
    obtain ⟨M, hM⟩ := this
    exact ⟨max M 1, lt_of_lt_of_le one_pos (le_max_right _ _), fun u hu v hv =>
      (hM (u, v) (List.mem_product.2 ⟨hu, hv⟩)).trans (le_max_left _ _)⟩
  -- a lower bound of the distances between different points
  obtain ⟨m, hm0, hm⟩ : ∃ m : ℝ, 0 < m ∧ ∀ u ∈ x :: xs, ∀ v ∈ x :: xs, u ≠ v → m ≤ euclid u v := by
    have : ∃ m : ℝ, 0 < m ∧ ∀ p ∈ (x :: xs) ×ˢ (x :: xs), p.1 ≠ p.2 → m ≤ euclid p.1 p.2 := by
      generalize (x :: xs) ×ˢ (x :: xs) = L
      induction L with
      | nil => exact ⟨1, one_pos, by simp⟩
      | cons p L ih =>
        obtain ⟨m, hm0, hm⟩ := ih
        by_cases hp : p.1 = p.2
        · refine ⟨m, hm0, fun q hq hq' => ?_⟩
          rcases List.mem_cons.1 hq with rfl | hq
          · exact absurd hp hq'
          · exact hm q hq hq'
        · refine ⟨min m (euclid p.1 p.2), lt_min hm0 (hpos _ _ hp), fun q hq hq' => ?_⟩
          rcases List.mem_cons.1 hq with rfl | hq
          · exact min_le_right _ _
          · exact (min_le_left _ _).trans (hm q hq hq')
    obtain ⟨m, hm0, hm⟩ := this
    exact ⟨m, hm0, fun u hu v hv huv => hm (u, v) (List.mem_product.2 ⟨hu, hv⟩) huv⟩
  refine ⟨√d / (2 * M), 2 * √d / m, by positivity, by positivity, fun c hc hcab => ?_⟩
  intro ys
  refine portfolio_first labels hL order ho (xs.map (moved (fun _ => c) fun _ => 0)) _ ?_
  rcases hcab with h | h
  · left
    have e : moved (fun _ => c) (fun _ => 0) x :: xs.map (moved (fun _ => c) fun _ => 0) =
        (x :: xs).map (moved (fun _ => c) fun _ => 0) := rfl
    rw [e]
    simp only [List.forall_mem_map]
    intro u hu v hv
    rw [euclid_moved_uniform c hc.le]
    calc c * euclid u v ≤ √d / (2 * M) * M := mul_le_mul h (hM u hu v hv) (Real.sqrt_nonneg _) (by positivity)
      _ = √d / 2 := by field_simp
      _ < √d := by linarith
  · right
    have e : moved (fun _ => c) (fun _ => 0) x :: xs.map (moved (fun _ => c) fun _ => 0) =
        (x :: xs).map (moved (fun _ => c) fun _ => 0) := rfl
    rw [e, List.pairwise_map]
    refine List.Pairwise.imp_of_mem ?_ hne
    intro u v hu hv huv
    rw [euclid_moved_uniform c hc.le]
    calc √(d : ℝ) < 2 * √d := by linarith
      _ = 2 * √d / m * m := by field_simp
      _ ≤ c * euclid u v := mul_le_mul h (hm u hu v hv huv) hm0.le hc.le

/-- C146, C34. In the unit cube only the first member of a portfolio is proposed, unless two members are opposite
corners. -/
theorem C146_portfolio_unit_cube (labels : List (Fin d → ℝ) → List (Option ℕ)) (hL : DensityLabels d labels)
    (order : List (Option ℕ) → List ℕ) (ho : ∀ l, (order l).Nodup ∧ ∀ k, k ∈ order l ↔ some k ∈ l)
    (x : Fin d → ℝ) (xs : List (Fin d → ℝ)) (hin : ∀ u ∈ x :: xs, ∀ j, 0 ≤ u j ∧ u j ≤ 1)
    (hc : ∀ u ∈ x :: xs, ∀ v ∈ x :: xs, ∃ j, |u j - v j| < 1) :
    Steps.selectFromPortfolio (x :: xs) (labels (x :: xs)) (order (labels (x :: xs))) = .ok [x] := by
  refine portfolio_first labels hL order ho xs x (Or.inl fun u hu v hv => ?_)
  unfold euclid
  refine Real.sqrt_lt_sqrt (Finset.sum_nonneg fun j _ => sq_nonneg _) ?_
  have h1 : ∀ j, (u j - v j) ^ 2 ≤ 1 := by
    intro j
    rw [sq_le_one_iff_abs_le_one, abs_le]
    have := hin u hu j; have := hin v hv j
    constructor <;> linarith
  obtain ⟨k, hk⟩ := hc u hu v hv
  calc ∑ j, (u j - v j) ^ 2 < ∑ _j : Fin d, (1 : ℝ) :=
        Finset.sum_lt_sum (fun j _ => h1 j) ⟨k, Finset.mem_univ k, (sq_lt_one_iff_abs_lt_one _).2 hk⟩
    _ = d := by simp

/-! ## Cases -/

/-- Case: temperatures, in degrees Celsius and Fahrenheit. -/
example : Moved (fun _ : Fin 1 => 9 / 5) (fun _ => 32)
    ⟨fun x => some (x 0), fun _ => some fun _ => 1, fun x => some (x 0, x 0 ^ 2), fun x => some (fun _ => 1, fun _ => 2 * x 0)⟩
    ⟨fun x => some ((x 0 - 32) / (9 / 5)), fun _ => some fun _ => 5 / 9,
      fun x => some ((x 0 - 32) / (9 / 5), ((x 0 - 32) / (9 / 5)) ^ 2),
      fun x => some (fun _ => 5 / 9, fun _ => 2 * ((x 0 - 32) / (9 / 5)) / (9 / 5))⟩ := by
  constructor <;> intro x <;> simp [moved]

/-- Case: a clustering. -/
example (d : ℕ) : ∃ labels, DensityLabels d labels := by
  classical
  refine ⟨fun xs => if xs.Pairwise fun a b => √d < euclid a b then List.replicate xs.length none
    else List.replicate xs.length (some 0), ⟨fun xs h2 h => ⟨0, if_neg fun hp => ?_⟩, fun xs h => if_pos h⟩⟩
  match xs, h2 with
  | a :: b :: l, _ =>
    have h1 := (List.pairwise_cons.1 hp).1 b (by simp)
    exact absurd (h a (by simp) b (by simp)) (not_lt.2 h1.le)

/-- Case: a local area in metres and in millimetres. -/
example : Steps.localBox (0, 10) (1, 1) 5 = ((4, 6) : ℝ × ℝ) ∧
    Steps.localBox (1000 * 0 + 0, 1000 * 10 + 0) (1, 1) (1000 * 5 + 0) = ((4999, 5001) : ℝ × ℝ) := by
  constructor <;> norm_num [Steps.localBox]

/-- Case: a run in a domain of width `10⁻¹⁵`, where the optimizer proposes other points than those of the design. -/
example : ((Run.run { exCfg with nOut := 1, tol := [], xtypes := [.float 0 (1 / 10 ^ 15)] }
      { f := fun x => x.map .fin, g := [] } (.points [[0], [1 / 10 ^ 15]])
      [⟨fun _ _ => some ⟨[1 / 10 ^ 16], [.nan], []⟩, [1 / 10 ^ 15]⟩]).map fun s => s.data.x) =
    .ok [[0], [1 / 10 ^ 15]] := by decide +kernel

end Verif.Props
