import Verif.Lemmas.LogEi
import Verif.Spec.Criteria

/-!
# Derivatives of the criteria along a curve
-/

set_option autoImplicit false

namespace Verif.Criteria

open Verif Verif.Gauss Real Set Filter Topology Spec

variable {d : ℕ}

theorem eps_pos : 0 < eps := by unfold eps; positivity

theorem eiAt_eq {fmin k pred var : ℝ} (hv : eps ≤ var) :
    eiAt fmin k pred var = k * √var * h ((fmin - pred) / (k * √var)) := by
  unfold eiAt h
  rw [if_neg (not_lt.2 hv)]

theorem sqrt_pos_of_eps {v : ℝ} (hv : eps ≤ v) : 0 < √v := Real.sqrt_pos.2 (lt_of_lt_of_le eps_pos hv)

theorem hasDerivAt_sigma {w : ℝ → ℝ} {w' t : ℝ} (k : ℝ) (hw : HasDerivAt w w' t) (hv : eps < w t) :
    HasDerivAt (fun t => k * √(w t)) (k * w' / (2 * √(w t))) t := by
  have := (hw.sqrt (lt_trans eps_pos hv).ne').const_mul k
  refine this.congr_deriv ?_
  ring

theorem eventually_eps {w : ℝ → ℝ} {w' t : ℝ} (hw : HasDerivAt w w' t) (hv : eps < w t) :
    ∀ᶠ s in 𝓝 t, eps ≤ w s := by
  filter_upwards [hw.continuousAt.eventually (Ioi_mem_nhds hv)] with s hs
  exact le_of_lt hs

theorem hasDerivAt_arg {p w : ℝ → ℝ} {p' w' t : ℝ} {k : ℝ} (hk : 0 < k) (c : ℝ) (hp : HasDerivAt p p' t)
    (hw : HasDerivAt w w' t) (hv : eps < w t) :
    HasDerivAt (fun t => (c - p t) / (k * √(w t)))
      (p' / (-k * √(w t)) - (c - p t) * ((k * w' / (2 * √(w t))) / (k * √(w t) * k * √(w t)))) t := by
  have hs := sqrt_pos_of_eps hv.le
  have := (hp.const_sub c).div (hasDerivAt_sigma k hw hv) (by positivity)
  refine this.congr_deriv ?_
  field_simp

theorem normPdf_exp (a : ℝ) : rexp (-(a * a) / 2) = normPdf a * √(2 * π) := by
  unfold normPdf
  rw [div_mul_cancel₀ _ (by positivity)]
  congr 1; ring

theorem hasDerivAt_eiAt {p w : ℝ → ℝ} {p' w' t : ℝ} {k : ℝ} (hk : 0 < k) (fmin : ℝ)
    (hp : HasDerivAt p p' t) (hw : HasDerivAt w w' t) (hv : eps < w t) :
    HasDerivAt (fun t => eiAt fmin k (p t) (w t))
      (eiGradAt (d := 1) fmin k (p t) (w t) (fun _ => p') (fun _ => w') 0) t := by
  have hs := sqrt_pos_of_eps hv.le
  have hd := (hasDerivAt_sigma k hw hv).mul
    ((hasDerivAt_h ((fmin - p t) / (k * √(w t)))).comp t (hasDerivAt_arg hk fmin hp hw hv))
  have he : (fun t => eiAt fmin k (p t) (w t)) =ᶠ[𝓝 t]
      fun t => k * √(w t) * h ((fmin - p t) / (k * √(w t))) := by
    filter_upwards [eventually_eps hw hv] with s hs
    exact eiAt_eq hs
  refine (hd.congr_of_eventuallyEq he).congr_deriv ?_
  simp only [eiGradAt, normPdf_exp, h, Function.comp]
  have : √(2 * π) ≠ 0 := by positivity
  generalize hA : normCdf ((fmin - p t) / (k * √(w t))) = A
  generalize hB : normPdf ((fmin - p t) / (k * √(w t))) = B
  field_simp
  ring

theorem hasDerivAt_logEiAt {p w : ℝ → ℝ} {p' w' t : ℝ} (fmin : ℝ)
    (hp : HasDerivAt p p' t) (hw : HasDerivAt w w' t) (hv : eps < w t)
    (hu : (fmin - p t) / √(w t) ≠ -10 ^ 6) :
    HasDerivAt (fun t => logEiAt fmin (p t) (w t))
      (logEiGradAt (d := 1) fmin (p t) (w t) (fun _ => p') (fun _ => w') 0) t := by
  have hs := sqrt_pos_of_eps hv.le
  have ha := hasDerivAt_arg one_pos fmin hp hw hv
  have hsg := hasDerivAt_sigma 1 hw hv
  simp only [one_mul, mul_one, neg_mul] at ha hsg
  have hd := ((hasDerivAt_logEiHelper hu).comp t ha).add (hsg.log hs.ne')
  have he : (fun t => logEiAt fmin (p t) (w t)) =ᶠ[𝓝 t]
      (logEiHelper ∘ fun t => (fmin - p t) / √(w t)) + fun t => log √(w t) := by
    filter_upwards [eventually_eps hw hv] with s hs
    simp [logEiAt, not_lt.2 hs]
  exact hd.congr_of_eventuallyEq he

theorem pofAt_eq {tol pred var : ℝ} (hv : eps ≤ var) : pofAt tol pred var = normCdf ((tol - pred) / √var) := by
  unfold pofAt
  rw [if_neg (not_lt.2 hv)]

theorem hasDerivAt_pofAt {p w : ℝ → ℝ} {p' w' t : ℝ} (tol : ℝ)
    (hp : HasDerivAt p p' t) (hw : HasDerivAt w w' t) (hv : eps < w t) :
    HasDerivAt (fun t => pofAt tol (p t) (w t))
      (normPdf ((tol - p t) / √(w t)) *
        (p' / -√(w t) - (tol - p t) * (w' / (2 * √(w t)) / (√(w t) * √(w t))))) t := by
  have ha := hasDerivAt_arg one_pos tol hp hw hv
  simp only [one_mul, mul_one, neg_mul] at ha
  have hd := (hasDerivAt_normCdf ((tol - p t) / √(w t))).comp t ha
  have he : (fun t => pofAt tol (p t) (w t)) =ᶠ[𝓝 t] normCdf ∘ fun t => (tol - p t) / √(w t) := by
    filter_upwards [eventually_eps hw hv] with s hs
    exact pofAt_eq hs
  exact hd.congr_of_eventuallyEq he

theorem IsGradient.unique {f : Pt d → ℝ} {g g' x : Pt d} (h : IsGradient f g x) (h' : IsGradient f g' x) :
    g = g' := by
  funext j
  exact (h j).unique (h' j)

theorem update_self' (x : Pt d) (j : Fin d) : Function.update x j (x j) = x := Function.update_eq_self j x

/-! ### Products and sums over constraints -/

theorem hasDerivAt_prod {fs : List (ℝ → ℝ)} {gs : List ℝ} {t : ℝ}
    (H : List.Forall₂ (fun f g => HasDerivAt f g t) fs gs) :
    HasDerivAt (fun s => (fs.map fun f => f s).prod)
      ((gs.zipIdx.map fun g => g.1 * ((fs.map fun f => f t).eraseIdx g.2).prod).sum) t := by
  induction H with
  | nil => simpa using hasDerivAt_const t (1 : ℝ)
  | @cons f g fs gs hf _ ih =>
    have := hf.mul ih
    simp only [List.map_cons, List.prod_cons, List.zipIdx_cons, List.eraseIdx_zero, List.tail_cons,
      List.sum_cons]
    refine this.congr_deriv ?_
    congr 1
    rw [zero_add, show gs.zipIdx 1 = gs.zipIdx (1 + 0) from rfl,
      ← List.map_snd_add_zipIdx_eq_zipIdx (n := 1) (k := 0), List.map_map, ← List.sum_map_mul_left]
    congr 1
    refine List.map_congr_left fun a _ => ?_
    simp [Prod.map]
    ring

theorem foldl_mul (l : List ℝ) : l.foldl (· * ·) 1 = l.prod := by
  rw [List.prod_eq_foldl]

theorem foldl_add (l : List ℝ) : l.foldl (· + ·) 0 = l.sum := by
  rw [List.sum_eq_foldl]

theorem othersProduct_eq (vals : List ℝ) (i : ℕ) : othersProduct vals i = (vals.eraseIdx i).prod := by
  unfold othersProduct
  rw [foldl_mul]
  congr 1
  have key : ∀ (vals : List ℝ) (k i : ℕ),
      ((vals.zipIdx k).filter fun p => decide (p.2 ≠ k + i)).map Prod.fst = vals.eraseIdx i := by
    intro vals
    induction vals with
    | nil => intro k i; rfl
    | cons v vs ih =>
      intro k i
      rw [List.zipIdx_cons]
      cases i with
      | zero =>
        rw [List.filter_cons_of_neg (by simp), List.eraseIdx_zero, List.tail_cons]
        have : (vs.zipIdx (k + 1)).filter (fun p => decide (p.2 ≠ k + 0)) = vs.zipIdx (k + 1) := by
          rw [List.filter_eq_self]
          intro a ha
          have := List.le_snd_of_mem_zipIdx ha
          simp; omega
        rw [this]
        exact List.zipIdx_map_fst _ _
      | succ i =>
        rw [List.filter_cons_of_pos (by simp), List.map_cons, List.eraseIdx_cons_succ, ← ih (k + 1) i]
        congr 3
        funext p
        congr 1
        rw [show k + 1 + i = k + (i + 1) by omega]
  have := key vals 0 i
  simpa using this

theorem foldl_acc_apply {β : Type} (l : List β) (F : β → Pt d) (a : Pt d) (j : Fin d) :
    l.foldl (fun acc b => fun j => acc j + F b j) a j = a j + (l.map fun b => F b j).sum := by
  induction l generalizing a with
  | nil => simp
  | cons b l ih => rw [List.foldl_cons, ih]; simp [add_assoc]

theorem mapM_exists {α β : Type} {f : α → Except Panic β} {R : α → β → Prop} (l : List α)
    (H : ∀ a ∈ l, ∃ b, f a = .ok b ∧ R a b) : ∃ bs, l.mapM f = .ok bs ∧ List.Forall₂ R l bs := by
  induction l with
  | nil => exact ⟨[], rfl, .nil⟩
  | cons a l ih =>
    obtain ⟨b, hb, hr⟩ := H a (by simp)
    obtain ⟨bs, hbs, hrs⟩ := ih fun a ha => H a (by simp [ha])
    refine ⟨b :: bs, ?_, .cons hr hrs⟩
    rw [List.mapM_cons, hb, hbs]; rfl

theorem pofs_eq (x : Pt d) (ms : List (Surrogate d)) (tols : List ℝ) :
    pofs x ms tols = ((ms.zip tols).map fun m => pof x m.1 m.2).prod := foldl_mul _

theorem logpofs_eq (x : Pt d) (ms : List (Surrogate d)) (tols : List ℝ) :
    logpofs x ms tols = ((ms.zip tols).map fun m => log (max (pof x m.1 m.2) eps)).sum := foldl_add _

theorem pofsGrad_spec (x : Pt d) (ms : List (Surrogate d)) (tols : List ℝ)
    (H : ∀ p ∈ ms.zip tols, ∃ g, pofGrad x p.1 p.2 = .ok g ∧ IsGradient (fun z => pof z p.1 p.2) g x) :
    ∃ g, pofsGrad x ms tols = .ok g ∧ IsGradient (fun z => pofs z ms tols) g x := by
  obtain ⟨gs, hgs, hr⟩ := mapM_exists (f := fun p : Surrogate d × ℝ => pofGrad x p.1 p.2)
    (R := fun p g => IsGradient (fun z => pof z p.1 p.2) g x) (ms.zip tols) H
  refine ⟨_, by rw [pofsGrad, hgs]; rfl, fun j => ?_⟩
  beta_reduce
  rw [foldl_acc_apply gs.zipIdx (fun g => fun j => g.1 j *
    othersProduct ((ms.zip tols).map fun m => pof x m.1 m.2) g.2) 0 j]
  have hd := hasDerivAt_prod (t := x j)
    (fs := (ms.zip tols).map fun p => fun t => pof (Function.update x j t) p.1 p.2) (gs := gs.map fun g => g j) (by
      rw [List.forall₂_map_left_iff, List.forall₂_map_right_iff]
      exact hr.imp fun _ _ h => h j)
  simp only [pofs_eq]
  simp only [List.map_map, Function.comp_def, update_self'] at hd
  refine hd.congr_deriv ?_
  simp only [Pi.zero_apply, zero_add, othersProduct_eq]
  rw [List.zipIdx_map, List.map_map]
  rfl

theorem hasDerivAt_sum {fs : List (ℝ → ℝ)} {gs : List ℝ} {t : ℝ}
    (H : List.Forall₂ (fun f g => HasDerivAt f g t) fs gs) :
    HasDerivAt (fun s => (fs.map fun f => f s).sum) gs.sum t := by
  induction H with
  | nil => simpa using hasDerivAt_const t (0 : ℝ)
  | @cons f g fs gs hf _ ih =>
    simp only [List.map_cons, List.sum_cons]
    exact hf.add ih

theorem logpofsGrad_spec (x : Pt d) (ms : List (Surrogate d)) (tols : List ℝ)
    (H : ∀ p ∈ ms.zip tols, ∃ g, pofGrad x p.1 p.2 = .ok g ∧ IsGradient (fun z => pof z p.1 p.2) g x)
    (hp : ∀ p ∈ ms.zip tols, eps < pof x p.1 p.2) :
    ∃ g, logpofsGrad x ms tols = .ok g ∧ IsGradient (fun z => logpofs z ms tols) g x := by
  obtain ⟨gs, hgs, hr⟩ := mapM_exists (f := fun p : Surrogate d × ℝ => logpofGrad x p.1 p.2)
    (R := fun p g => IsGradient (fun z => log (max (pof z p.1 p.2) eps)) g x) (ms.zip tols) (by
      intro p hpm
      obtain ⟨g, hg, hgr⟩ := H p hpm
      refine ⟨_, by rw [logpofGrad, hg]; rfl, fun j => ?_⟩
      have hpos := hp p hpm
      have h1 := hgr j
      have hc : eps < pof (Function.update x j (x j)) p.1 p.2 := by rwa [update_self']
      have h2 := h1.log (lt_trans eps_pos hc).ne'
      have he : (fun t => log (max (pof (Function.update x j t) p.1 p.2) eps)) =ᶠ[𝓝 (x j)]
          fun t => log (pof (Function.update x j t) p.1 p.2) := by
        filter_upwards [h1.continuousAt.eventually (Ioi_mem_nhds hc)] with t ht
        rw [max_eq_left (le_of_lt ht)]
      refine (h2.congr_of_eventuallyEq he).congr_deriv ?_
      rw [update_self', max_eq_left hpos.le])
  refine ⟨_, by rw [logpofsGrad, hgs]; rfl, fun j => ?_⟩
  beta_reduce
  rw [foldl_acc_apply gs (fun g => g) 0 j]
  have hd := hasDerivAt_sum (t := x j)
    (fs := (ms.zip tols).map fun p => fun t => log (max (pof (Function.update x j t) p.1 p.2) eps))
    (gs := gs.map fun g => g j) (by
      rw [List.forall₂_map_left_iff, List.forall₂_map_right_iff]
      exact hr.imp fun _ _ h => h j)
  simp only [logpofs_eq]
  simp only [List.map_map, Function.comp_def] at hd
  simpa using hd

end Verif.Criteria
