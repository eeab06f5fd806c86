import Verif.Lemmas.Run
import Verif.Props.Gp
import Verif.Props.GpUtils
import Verif.Spec.Batch

set_option autoImplicit false

/-!
# C112: predictions at several points, joint predictions
-/

namespace Verif.Props
open Verif Verif.Batch Verif.Spec Matrix

variable {n m d h t : ℕ}

/-! ## Loops -/

theorem unwrap_ok {α : Type} {o : Option α} {a : α} : unwrap o = .ok a ↔ o = some a := by
  cases o <;> simp [unwrap]

theorem forRows_ok {α : Type} {f : Fin t → Except Panic α} {r : Fin t → α} :
    forRows f = .ok r ↔ ∀ i, f i = .ok (r i) := by
  induction t with
  | zero => simpa [forRows] using Subsingleton.elim _ _
  | succ t ih =>
    simp only [forRows, bind_ok, Except.ok.injEq]
    constructor
    · rintro ⟨a, h1, q, h2, rfl⟩ i
      refine Fin.cases ?_ (fun j => ?_) i
      · exact h1
      · exact ih.1 h2 j
    · intro hf
      exact ⟨r 0, hf 0, fun i => r i.succ, ih.2 fun i => hf i.succ, Fin.cons_self_tail r⟩

theorem atPoint_ok {α : Type} {f : Points 1 d → Except Panic (Fin 1 → α)} {x : Fin d → ℝ} {a : α} :
    atPoint f x = .ok a ↔ f (fun _ => x) = .ok fun _ => a := by
  simp only [atPoint, bind_ok, Except.ok.injEq]
  constructor
  · rintro ⟨r, h1, rfl⟩
    rw [h1]
    exact congrArg _ (funext fun i => congrArg r (Subsingleton.elim _ _))
  · exact fun h1 => ⟨_, h1, rfl⟩

theorem atPoint2_ok {α : Type} {f : Points 1 d → Except Panic ((Fin 1 → α) × (Fin 1 → α))} {x : Fin d → ℝ} {a b : α} :
    atPoint2 f x = .ok (a, b) ↔ f (fun _ => x) = .ok (fun _ => a, fun _ => b) := by
  simp only [atPoint2, bind_ok, Except.ok.injEq, Prod.mk.injEq]
  constructor
  · rintro ⟨r, h1, rfl, rfl⟩
    rw [h1]
    exact congrArg _ (Prod.ext (funext fun i => congrArg r.1 (Subsingleton.elim _ _))
      (funext fun i => congrArg r.2 (Subsingleton.elim _ _)))
  · exact fun h1 => ⟨_, h1, rfl, rfl⟩

theorem foldlM_add_ok {α β : Type} [AddCommMonoid β] {f : α → Except Panic β} {l : List α} {a s : β} :
    l.foldlM (fun acc k => f k >>= fun v => (.ok (acc + v) : Except Panic β)) a = .ok s ↔
      ∃ v : List β, List.Forall₂ (fun k b => f k = .ok b) l v ∧ s = a + v.sum := by
  induction l generalizing a with
  | nil => simp [pure, Except.pure, eq_comm]
  | cons k l ih =>
    simp only [List.foldlM_cons, bind_ok, Except.ok.injEq, ih]
    constructor
    · rintro ⟨_, ⟨b, h1, rfl⟩, v, h2, rfl⟩
      exact ⟨b :: v, .cons h1 h2, by rw [List.sum_cons, add_assoc]⟩
    · rintro ⟨v, h1, rfl⟩
      cases h1 with
      | cons h1 h2 => exact ⟨_, ⟨_, h1, rfl⟩, _, h2, by rw [List.sum_cons, add_assoc]⟩

theorem forall₂_finRange {β : Type} {P : Fin n → β → Prop} {v : List β} :
    List.Forall₂ P (List.finRange n) v ↔ ∃ w : Fin n → β, (∀ k, P k (w k)) ∧ v = List.ofFn w := by
  constructor
  · intro hv
    have hl : v.length = n := by rw [← hv.length_eq, List.length_finRange]
    subst hl
    refine ⟨v.get, fun k => ?_, (List.ofFn_get v).symm⟩
    have := hv.get (i := k) (by simp) k.2
    simpa using this
  · rintro ⟨w, hw, rfl⟩
    rw [List.ofFn_eq_map, List.forall₂_map_right_iff]
    exact List.forall₂_same.2 fun k _ => hw k

theorem foldlM_finRange {β : Type} [AddCommMonoid β] {f : Fin n → Except Panic β} {s : β} :
    (List.finRange n).foldlM (fun acc k => f k >>= fun v => (.ok (acc + v) : Except Panic β)) 0 = .ok s ↔
      ∃ v : Fin n → β, (∀ k, f k = .ok (v k)) ∧ s = ∑ k, v k := by
  rw [foldlM_add_ok]
  constructor
  · rintro ⟨v, h1, rfl⟩
    obtain ⟨w, hw, rfl⟩ := forall₂_finRange.1 h1
    exact ⟨w, hw, by rw [zero_add, List.sum_ofFn]⟩
  · rintro ⟨v, h1, rfl⟩
    exact ⟨_, forall₂_finRange.2 ⟨v, h1, rfl⟩, by rw [zero_add, List.sum_ofFn]⟩

theorem local_of_rows {α : Type} {f : {t : ℕ} → Points t d → Except Panic (Fin t → α)}
    {R : (Fin d → ℝ) → α → Prop} (hf : Rows f R) : Local f := by
  intro t xs v
  rw [hf]
  exact forall_congr' fun i => by rw [hf]; simp

theorem rows_forRows {α : Type} (φ : (Fin d → ℝ) → Except Panic α) :
    Rows (fun {t} (xs : Points t d) => forRows fun i => φ (xs i)) fun x v => φ x = .ok v :=
  fun _ _ _ => forRows_ok

/-! ## Gaussian processes -/

theorem kernelTable_ok {p q : ℕ} (k : Kernels.Kernel) (theta : Fin h → ℝ) (w : Fin d → Fin h → ℝ) (a : Points p d)
    (b : Points q d) :
    kernelTable k theta w a b = .ok (Matrix.of fun i j => k.value theta w fun l => a i l - b j l) := by
  obtain ⟨N, D, h1, -, h2⟩ := C44_pairwise a b
  rw [kernelTable, h1]
  refine congrArg Except.ok (Matrix.ext fun i j => ?_)
  exact congrArg (k.value theta w) (funext fun l => h2 i j l)

theorem tri_inj {p k : ℕ} {l : Matrix (Fin p) (Fin p) ℝ} (hl : ∀ i j, i < j → l i j = 0) (hd : ∀ i, l i i ≠ 0)
    {x y : Matrix (Fin p) (Fin k) ℝ} (hxy : l * x = l * y) : x = y := by
  have hdet : IsUnit l.det := by
    rw [Matrix.det_of_isLowerTriangular l (fun i j hij => hl i j (by simpa using hij)), isUnit_iff_ne_zero]
    exact Finset.prod_ne_zero_iff.2 fun i _ => hd i
  have := congrArg (l⁻¹ * ·) hxy
  simpa [← Matrix.mul_assoc, Matrix.nonsing_inv_mul _ hdet] using this

theorem solve_lower_iff (la : Gp.LinAlg) {p k : ℕ} {l : Matrix (Fin p) (Fin p) ℝ} (hl : ∀ i j, i < j → l i j = 0)
    (hd : ∀ i, l i i ≠ 0) {b x : Matrix (Fin p) (Fin k) ℝ} : la.solve .lower l b = some x ↔ l * x = b := by
  constructor
  · intro hx
    have := (la.solve_spec _ _ _ _ hx).2
    rwa [Gp.tri_lower hl] at this
  · rintro rfl
    obtain ⟨y, hy⟩ := la.solve_total .lower l (l * x) hd
    have h2 := (la.solve_spec _ _ _ _ hy).2
    rw [Gp.tri_lower hl] at h2
    rw [hy, tri_inj hl hd h2]

section
variable {la : Gp.LinAlg} {kernel : Kernels.Kernel} {mean : Means.Mean} {nugget : ℝ} {theta : Fin h → ℝ}
  {w : Fin d → Fin h → ℝ} {x : Fin n → Fin d → ℝ} {y : Fin n → ℝ} {g : Gp.Model n d h}

theorem gpPredict_rows (g : Gp.Model n d h) : Rows (gpPredict g) fun x v => v = g.predict x := by
  intro t xs v
  simp only [gpPredict, kernelTable_ok, bind_ok, Except.ok.injEq, exists_eq_left', funext_iff]
  refine forall_congr' fun i => ?_
  rw [eq_comm]
  rfl

theorem gpRtU_ok (ok : Gp.FitOk kernel mean nugget theta w x y g) (la' : Gp.LinAlg) (xn : Points t d) :
    ∃ ru, gpRtU la' g xn (Matrix.of fun i j => g.kernel.value g.theta g.w fun l => xn i l - g.xtData j l) = .ok ru ∧
      ∀ i, g.rtU la' (xn i) = some (Matrix.of fun a _ => ru.1 a i, Matrix.of fun a _ => ru.2 a i) := by
  have hd : ∀ i, g.inner.rChol i i ≠ 0 := fun i => (ok.inner.diag i).ne'
  have hl := ok.inner.lower
  have hd' : ∀ i, g.inner.ftQrRᵀ i i ≠ 0 := fun i => ok.inner.rdiag i
  have hl' : ∀ i j, i < j → g.inner.ftQrRᵀ i j = 0 := fun i j hij => ok.inner.upper j i hij
  obtain ⟨rt, h1⟩ := la'.solve_total .lower g.inner.rChol
    (Matrix.of fun i j => g.kernel.value g.theta g.w fun l => xn i l - g.xtData j l)ᵀ hd
  obtain ⟨u, h2⟩ := la'.solve_total .lower g.inner.ftQrRᵀ (g.inner.ftᵀ * rt - (Gp.meanMat g.mean xn)ᵀ) hd'
  refine ⟨(rt, u), ?_, fun i => ?_⟩
  · simp only [gpRtU, bind_ok, unwrap_ok]
    exact ⟨rt, h1, u, h2, rfl⟩
  · rw [solve_lower_iff la' hl hd] at h1
    rw [solve_lower_iff la' hl' hd'] at h2
    have e1 : la'.solve .lower g.inner.rChol (fun k (_ : Fin 1) => g.corr (xn i) k) =
        some (Matrix.of fun a _ => rt a i) := by
      refine (solve_lower_iff la' hl hd).2 ?_
      ext a b
      exact congrFun (congrFun h1 a) i
    simp only [Gp.Model.rtU, e1, Option.bind_eq_bind, Option.bind_some]
    have e2 : la'.solve .lower g.inner.ftQrRᵀ (g.inner.ftᵀ * (Matrix.of fun a (_ : Fin 1) => rt a i) -
        Matrix.of fun a _ => g.f (xn i) a) = some (Matrix.of fun a _ => u a i) := by
      refine (solve_lower_iff la' hl' hd').2 ?_
      ext a b
      exact congrFun (congrFun h2 a) i
    rw [e2, Option.bind_some]

/-- After a successful fit, the variances of several points are computed for all of them, and are those of the
points. -/
theorem gpPredictVar_ok (ok : Gp.FitOk kernel mean nugget theta w x y g) (la' : Gp.LinAlg) (xs : Points t d) :
    ∃ v, gpPredictVar la' g xs = .ok v ∧ gpPredictValvar la' g xs = .ok (fun i => g.predict (xs i), v) ∧
      ∀ i, g.predictVar la' (xs i) = some (v i) := by
  obtain ⟨ru, h1, h2⟩ := gpRtU_ok ok la' fun i => g.xnorm (xs i)
  refine ⟨gpMse g ru, ?_, ?_, fun i => ?_⟩
  · simp only [gpPredictVar, kernelTable_ok, bind_ok, Except.ok.injEq, exists_eq_left']
    exact ⟨ru, h1, rfl⟩
  · simp only [gpPredictValvar, kernelTable_ok, bind_ok, Except.ok.injEq, exists_eq_left']
    exact ⟨ru, h1, rfl⟩
  · simp only [Gp.Model.predictVar, Gp.Model.mse, h2 i, Option.map_some]
    rfl

/-- Fitted Gaussian processes: the values, variances and gradients at several points are those of the points. -/
theorem C112_gp_rows (hg : Gp.fitWith la kernel mean nugget theta w x y = some g) (la' : Gp.LinAlg) :
    Rows (gpSurrogate la' g).predict (fun x' v => v = g.predict x') ∧
    Rows (gpSurrogate la' g).predictVar (fun x' v => g.predictVar la' x' = some v) ∧
    Rows (gpSurrogate la' g).predictGradients (fun x' v => g.predictGradient x' = some v) ∧
    Rows (gpSurrogate la' g).predictVarGradients (fun x' v => g.predictVarGradient la' x' = some v) := by
  refine ⟨gpPredict_rows g, fun t xs v => ?_, fun t xs v => ?_, fun t xs v => ?_⟩
  · obtain ⟨v', h1, -, h3⟩ := gpPredictVar_ok (Gp.fitWith_ok hg) la' xs
    show gpPredictVar la' g xs = _ ↔ _
    simp only [h1, h3, Except.ok.injEq, Option.some.injEq, funext_iff]
  · exact forRows_ok.trans (forall_congr' fun i => unwrap_ok)
  · exact forRows_ok.trans (forall_congr' fun i => unwrap_ok)

/-- Fitted Gaussian processes predict row by row, and joint predictions are the separate ones. -/
theorem C112_gp (hg : Gp.fitWith la kernel mean nugget theta w x y = some g) (la' : Gp.LinAlg) :
    Consistent (gpSurrogate la' g) := by
  obtain ⟨h1, h2, h3, h4⟩ := C112_gp_rows hg la'
  refine ⟨local_of_rows h1, local_of_rows h2, local_of_rows h3, local_of_rows h4, fun t xs v s => ?_,
    fun t xs v s => ?_⟩
  · obtain ⟨v', e1, e2, -⟩ := gpPredictVar_ok (Gp.fitWith_ok hg) la' xs
    show gpPredictValvar la' g xs = _ ↔ _ ∧ gpPredictVar la' g xs = _
    rw [h1, e1, e2]
    simp only [Except.ok.injEq, Prod.mk.injEq, funext_iff]
    exact and_congr_left fun _ => forall_congr' fun i => eq_comm
  · simp only [gpSurrogate, bind_ok, forRows_ok, unwrap_ok, Except.ok.injEq, Prod.mk.injEq]
    constructor
    · rintro ⟨r, hr, rfl, rfl⟩
      refine ⟨fun i => ?_, fun i => ?_⟩ <;> obtain ⟨a, ha, b, hb, hab⟩ := hr i <;> simp only [← hab]
      · exact ha
      · exact hb
    · rintro ⟨hv, hs⟩
      exact ⟨fun i => (v i, s i), fun i => ⟨_, hv i, _, hs i, rfl⟩, rfl, rfl⟩
end

/-! ## Sparse Gaussian processes -/

section
variable (g : Sparse.Model n m d h)

theorem sgpPredict_rows : Rows (sgpPredict g) fun x v => v = g.predict x := by
  intro t xs v
  simp only [sgpPredict, kernelTable_ok, bind_ok, Except.ok.injEq, exists_eq_left', funext_iff]
  refine forall_congr' fun i => ?_
  rw [eq_comm]
  refine Eq.congr_right ?_
  simp only [Sparse.Model.predict, Matrix.mul_apply]
  refine Finset.sum_congr rfl fun a _ => congrArg (· * g.data.vec a 0) ?_
  exact mul_comm _ _

theorem sgpPredictVar_rows : Rows (sgpPredictVar g) fun x v => v = g.predictVar x := by
  intro t xs v
  simp only [sgpPredictVar, kernelTable_ok, bind_ok, Except.ok.injEq, exists_eq_left', funext_iff]
  refine forall_congr' fun i => ?_
  rw [eq_comm]
  refine Eq.congr_right ?_
  have e : ∀ a, (g.sigma2 • (Matrix.of fun i j => g.kernel.value g.theta g.w fun l => g.inducings i l - xs j l) :
      Matrix (Fin m) (Fin t) ℝ) a i =
      Sparse.computeK g.kernel g.inducings (fun _ : Fin 1 => xs i) g.w g.theta g.sigma2 a 0 := fun a => mul_comm _ _
  simp only [Sparse.Model.predictVar, Matrix.mul_apply, e]
  rfl

theorem atPoint_rows {α : Type} {f : {t : ℕ} → Points t d → Except Panic (Fin t → α)} {φ : (Fin d → ℝ) → α}
    (hf : Rows f fun x v => v = φ x) (x : Fin d → ℝ) : atPoint f x = .ok (φ x) := by
  rw [atPoint_ok, hf]
  exact fun _ => rfl

theorem centralDiff_rows {f : {t : ℕ} → Points t d → Except Panic (Fin t → ℝ)} {φ : (Fin d → ℝ) → ℝ}
    (hf : Rows f fun x v => v = φ x) (step : ℝ) (x : Fin d → ℝ) :
    centralDiff step (atPoint f) x = .ok (Sparse.Model.centralDiff step φ x) := by
  rw [centralDiff, forRows_ok]
  intro j
  rw [atPoint_rows hf, atPoint_rows hf]
  rfl

/-- Sparse Gaussian processes: the values, variances and gradients at several points are those of the points, and
never panic. -/
theorem C112_sparse_rows (step : ℝ) :
    Rows (sgpSurrogate g step).predict (fun x v => v = g.predict x) ∧
    Rows (sgpSurrogate g step).predictVar (fun x v => v = g.predictVar x) ∧
    Rows (sgpSurrogate g step).predictGradients (fun x v => v = g.predictGradients step x) ∧
    Rows (sgpSurrogate g step).predictVarGradients (fun x v => v = g.predictVarGradients step x) := by
  refine ⟨sgpPredict_rows g, sgpPredictVar_rows g, fun t xs v => ?_, fun t xs v => ?_⟩
  · refine forRows_ok.trans (forall_congr' fun i => ?_)
    rw [centralDiff_rows (sgpPredict_rows g), Except.ok.injEq, eq_comm]
    rfl
  · refine forRows_ok.trans (forall_congr' fun i => ?_)
    rw [centralDiff_rows (sgpPredictVar_rows g), Except.ok.injEq, eq_comm]
    rfl

theorem together_bind {α : Type} (f k : {t : ℕ} → Points t d → Except Panic (Fin t → α)) :
    Together (fun {t} (xs : Points t d) => f xs >>= fun v => k xs >>= fun s => .ok (v, s)) f k := by
  intro t xs v s
  simp only [bind_ok, Except.ok.injEq, Prod.mk.injEq]
  constructor
  · rintro ⟨_, h1, _, h2, rfl, rfl⟩
    exact ⟨h1, h2⟩
  · rintro ⟨h1, h2⟩
    exact ⟨_, h1, _, h2, rfl, rfl⟩

/-- Sparse Gaussian processes predict row by row, and joint predictions are the separate ones. -/
theorem C112_sparse (step : ℝ) : Consistent (sgpSurrogate g step) := by
  obtain ⟨h1, h2, h3, h4⟩ := C112_sparse_rows g step
  exact ⟨local_of_rows h1, local_of_rows h2, local_of_rows h3, local_of_rows h4, together_bind _ _, together_bind _ _⟩
end

/-! ## Mixtures -/

section
variable (q : Mixture.Gmx n d)

theorem probas_row (xs : Points t d) (i : Fin t) : probas q xs i = q.probas (xs i) := by
  by_cases hn : n = 1
  · funext k
    exact (congrFun (congrFun (if_pos hn) i) k).trans (if_pos hn).symm
  · funext k
    exact (congrFun (congrFun (if_neg hn) i) k).trans (if_neg hn).symm

theorem clusterOf_row (xs : Points t d) (i : Fin t) : clusterOf q xs i = q.predict (xs i) := rfl

variable {M : Mix n d}

theorem predictSmooth_ok {xs : Points t d} {s : Fin t → ℝ} :
    predictSmooth M xs = .ok s ↔ ∃ v : Fin n → Fin t → ℝ, (∀ k, (M.experts k).predict xs = .ok (v k)) ∧
      ∀ i, s i = ∑ k, v k i * M.gmx.probas (xs i) k := by
  simp only [predictSmooth, sumExperts, foldlM_finRange, bind_ok, Except.ok.injEq, probas_row]
  constructor
  · rintro ⟨v, hv, rfl⟩
    choose u h1 h2 using hv
    exact ⟨u, h1, fun i => by rw [Finset.sum_apply]; exact Finset.sum_congr rfl fun k _ => by rw [← h2]⟩
  · rintro ⟨u, h1, h2⟩
    refine ⟨_, fun k => ⟨_, h1 k, rfl⟩, funext fun i => ?_⟩
    rw [h2, Finset.sum_apply]

theorem predictVarSmooth_ok {xs : Points t d} {s : Fin t → ℝ} :
    predictVarSmooth M xs = .ok s ↔ ∃ v : Fin n → Fin t → ℝ, (∀ k, (M.experts k).predictVar xs = .ok (v k)) ∧
      ∀ i, s i = ∑ k, v k i * M.gmx.probas (xs i) k * M.gmx.probas (xs i) k := by
  simp only [predictVarSmooth, sumExperts, foldlM_finRange, bind_ok, Except.ok.injEq, probas_row]
  constructor
  · rintro ⟨v, hv, rfl⟩
    choose u h1 h2 using hv
    exact ⟨u, h1, fun i => by rw [Finset.sum_apply]; exact Finset.sum_congr rfl fun k _ => by rw [← h2]⟩
  · rintro ⟨u, h1, h2⟩
    refine ⟨_, fun k => ⟨_, h1 k, rfl⟩, funext fun i => ?_⟩
    rw [h2, Finset.sum_apply]

/-- A weighted sum of predictions made row by row is made row by row. -/
theorem local_sum {f : {t : ℕ} → Points t d → Except Panic (Fin t → ℝ)}
    {e : Fin n → {t : ℕ} → Points t d → Except Panic (Fin t → ℝ)} {c : (Fin d → ℝ) → Fin n → ℝ → ℝ}
    (hf : ∀ (t : ℕ) (xs : Points t d) (s : Fin t → ℝ), f xs = .ok s ↔
      ∃ v : Fin n → Fin t → ℝ, (∀ k, e k xs = .ok (v k)) ∧ ∀ i, s i = ∑ k, c (xs i) k (v k i))
    (he : ∀ k, Local (e k)) : Local f := by
  intro t xs s
  simp only [hf]
  constructor
  · rintro ⟨v, h1, h2⟩ i
    exact ⟨fun k _ => v k i, fun k => (he k t xs _).1 (h1 k) i, fun _ => h2 i⟩
  · intro hi
    choose v h1 h2 using hi
    refine ⟨fun k i => v i k 0, fun k => (he k t xs _).2 fun i => ?_, fun i => h2 i 0⟩
    refine (h1 i k).trans ?_
    exact congrArg _ (funext fun j => congrArg (v i k) (Subsingleton.elim _ _))

theorem together_at {s : Surrogate d} (hs : Together s.predictValvar s.predict s.predictVar) {x : Fin d → ℝ} {r : ℝ × ℝ} :
    atPoint2 s.predictValvar x = .ok r ↔ atPoint s.predict x = .ok r.1 ∧ atPoint s.predictVar x = .ok r.2 := by
  rw [← Prod.mk.eta (p := r), atPoint2_ok, hs, atPoint_ok, atPoint_ok]

theorem together_grad_at {s : Surrogate d}
    (hs : Together s.predictValvarGradients s.predictGradients s.predictVarGradients) {x : Fin d → ℝ}
    {r : (Fin d → ℝ) × (Fin d → ℝ)} :
    atPoint2 s.predictValvarGradients x = .ok r ↔
      atPoint s.predictGradients x = .ok r.1 ∧ atPoint s.predictVarGradients x = .ok r.2 := by
  rw [← Prod.mk.eta (p := r), atPoint2_ok, hs, atPoint_ok, atPoint_ok]

/-- The two halves of a loop giving two results. -/
theorem together_loop {α : Type} {f : {t : ℕ} → Points t d → Fin t → Except Panic (α × α)}
    {g k : {t : ℕ} → Points t d → Fin t → Except Panic α}
    (hf : ∀ (t : ℕ) (xs : Points t d) (i : Fin t) (r : α × α), f xs i = .ok r ↔ g xs i = .ok r.1 ∧ k xs i = .ok r.2) :
    Together (fun {t} (xs : Points t d) => forRows (f xs) >>= fun r => .ok (fun i => (r i).1, fun i => (r i).2))
      (fun {t} (xs : Points t d) => forRows (g xs)) fun {t} (xs : Points t d) => forRows (k xs) := by
  intro t xs v s
  simp only [bind_ok, forRows_ok, hf, Except.ok.injEq, Prod.mk.injEq]
  constructor
  · rintro ⟨r, hr, rfl, rfl⟩
    exact ⟨fun i => (hr i).1, fun i => (hr i).2⟩
  · rintro ⟨hv, hs⟩
    exact ⟨fun i => (v i, s i), fun i => ⟨hv i, hs i⟩, rfl, rfl⟩

theorem hard_rows {α : Type} (f : Surrogate d → Points 1 d → Except Panic (Fin 1 → α)) :
    Rows (fun {t} (xs : Points t d) => hard M f xs)
      fun x v => (M.expert (M.gmx.predict x) >>= fun e => atPoint (f e) x) = .ok v :=
  fun _ _ _ => forRows_ok

theorem gradients_rows : Rows (fun {t} (xs : Points t d) => predictGradientsSmooth M xs) fun x v =>
    (forRows (fun k => atPoint (M.experts k).predict x) >>= fun preds =>
      forRows (fun k => atPoint (M.experts k).predictGradients x) >>= fun drvs =>
        rowGradient preds drvs (M.gmx.probas x) (M.gmx.probasDerivatives x)) = .ok v := by
  intro t xs v
  simp only [predictGradientsSmooth, forRows_ok, probas_row]

theorem varGradients_rows : Rows (fun {t} (xs : Points t d) => predictVarGradientsSmooth M xs) fun x v =>
    (forRows (fun k => atPoint (M.experts k).predictVar x) >>= fun preds =>
      forRows (fun k => atPoint (M.experts k).predictVarGradients x) >>= fun drvs =>
        rowVarGradient preds drvs (M.gmx.probas x) (M.gmx.probasDerivatives x)) = .ok v := by
  intro t xs v
  simp only [predictVarGradientsSmooth, forRows_ok, probas_row]

theorem valvarSmooth (hs : ∀ k, Together (M.experts k).predictValvar (M.experts k).predict (M.experts k).predictVar) :
    Together (fun {t} (xs : Points t d) => predictValvarSmooth M xs) (fun {t} (xs : Points t d) => predictSmooth M xs)
      fun {t} (xs : Points t d) => predictVarSmooth M xs := by
  intro t xs v w
  have e : predictValvarSmooth M xs = (List.finRange n).foldlM (fun (acc : (Fin t → ℝ) × (Fin t → ℝ)) k =>
      ((M.experts k).predictValvar xs >>= fun v => .ok ((fun i => v.1 i * probas M.gmx xs i k,
        fun i => v.2 i * probas M.gmx xs i k * probas M.gmx xs i k) : (Fin t → ℝ) × (Fin t → ℝ))) >>=
        fun u => (.ok (acc + u) : Except Panic _)) 0 := by
    unfold predictValvarSmooth
    congr 1
    funext acc k
    cases (M.experts k).predictValvar xs <;> rfl
  show predictValvarSmooth M xs = _ ↔ predictSmooth M xs = _ ∧ predictVarSmooth M xs = _
  rw [e, foldlM_finRange, predictSmooth_ok, predictVarSmooth_ok]
  simp only [bind_ok, Except.ok.injEq, probas_row]
  constructor
  · rintro ⟨u, hu, h2⟩
    choose r h3 h4 using hu
    have h5 := fun k => (hs k t xs (r k).1 (r k).2).1 (h3 k)
    refine ⟨⟨fun k => (r k).1, fun k => (h5 k).1, fun i => ?_⟩, fun k => (r k).2, fun k => (h5 k).2, fun i => ?_⟩
    · have := congrFun (congrArg Prod.fst h2) i
      rw [Prod.fst_sum, Finset.sum_apply] at this
      refine this.trans ?_
      exact Finset.sum_congr rfl fun k _ => by rw [← h4]
    · have := congrFun (congrArg Prod.snd h2) i
      rw [Prod.snd_sum, Finset.sum_apply] at this
      refine this.trans ?_
      exact Finset.sum_congr rfl fun k _ => by rw [← h4]
  · rintro ⟨⟨a, ha, hv⟩, b, hb, hw⟩
    refine ⟨_, fun k => ⟨(a k, b k), (hs k t xs _ _).2 ⟨ha k, hb k⟩, rfl⟩, ?_⟩
    refine Prod.ext (funext fun i => ?_) (funext fun i => ?_)
    · rw [Prod.fst_sum, Finset.sum_apply]
      exact hv i
    · rw [Prod.snd_sum, Finset.sum_apply]
      exact hw i

theorem valvarGradientsSmooth (hs : ∀ k, Consistent (M.experts k)) :
    Together (fun {t} (xs : Points t d) => predictValvarGradientsSmooth M xs)
      (fun {t} (xs : Points t d) => predictGradientsSmooth M xs)
      fun {t} (xs : Points t d) => predictVarGradientsSmooth M xs := by
  refine together_loop fun t xs i r => ?_
  simp only [bind_ok, forRows_ok, together_at (hs _).predictValvar, together_grad_at (hs _).predictValvarGradients,
    Except.ok.injEq]
  constructor
  · rintro ⟨pv, h1, dv, h2, g, h3, v, h4, rfl⟩
    exact ⟨⟨_, fun k => (h1 k).1, _, fun k => (h2 k).1, h3⟩, _, fun k => (h1 k).2, _, fun k => (h2 k).2, h4⟩
  · rintro ⟨⟨p, h1, g, h2, h3⟩, p', h4, g', h5, h6⟩
    exact ⟨fun k => (p k, p' k), fun k => ⟨h1 k, h4 k⟩, fun k => (g k, g' k), fun k => ⟨h2 k, h5 k⟩, _, h3, _, h6, rfl⟩

/-- Mixtures predict row by row, and joint predictions are the separate ones, when their experts do. -/
theorem C112_mixture (hs : ∀ k, Consistent (M.experts k)) : Consistent (mixSurrogate M) := by
  have hc : ∀ c e, M.expert c = .ok e → Consistent e := by
    intro c e he
    unfold Mix.expert at he
    split_ifs at he
    cases he
    exact hs _
  cases hr : M.recombination with
  | hard =>
    refine ⟨?_, ?_, ?_, ?_, ?_, ?_⟩ <;> simp only [mixSurrogate, hr]
    · exact local_of_rows (hard_rows _)
    · exact local_of_rows (hard_rows _)
    · exact local_of_rows (hard_rows _)
    · exact local_of_rows (hard_rows _)
    · refine together_loop fun t xs i r => ?_
      simp only [bind_ok]
      constructor
      · rintro ⟨e, h1, h2⟩
        rw [together_at (hc _ _ h1).predictValvar] at h2
        exact ⟨⟨e, h1, h2.1⟩, e, h1, h2.2⟩
      · rintro ⟨⟨e, h1, h2⟩, e', h3, h4⟩
        obtain rfl : e = e' := by rw [h1] at h3; exact Except.ok.inj h3
        exact ⟨e, h1, (together_at (hc _ _ h1).predictValvar).2 ⟨h2, h4⟩⟩
    · refine together_loop fun t xs i r => ?_
      simp only [bind_ok]
      constructor
      · rintro ⟨e, h1, h2⟩
        rw [together_grad_at (hc _ _ h1).predictValvarGradients] at h2
        exact ⟨⟨e, h1, h2.1⟩, e, h1, h2.2⟩
      · rintro ⟨⟨e, h1, h2⟩, e', h3, h4⟩
        obtain rfl : e = e' := by rw [h1] at h3; exact Except.ok.inj h3
        exact ⟨e, h1, (together_grad_at (hc _ _ h1).predictValvarGradients).2 ⟨h2, h4⟩⟩
  | smooth f =>
    refine ⟨?_, ?_, ?_, ?_, ?_, ?_⟩ <;> simp only [mixSurrogate, hr]
    · exact local_sum (e := fun k => (M.experts k).predict) (c := fun x k v => v * M.gmx.probas x k)
        (fun t xs s => predictSmooth_ok) fun k => (hs k).predict
    · exact local_sum (e := fun k => (M.experts k).predictVar)
        (c := fun x k v => v * M.gmx.probas x k * M.gmx.probas x k)
        (fun t xs s => predictVarSmooth_ok) fun k => (hs k).predictVar
    · exact local_of_rows gradients_rows
    · exact local_of_rows varGradients_rows
    · exact valvarSmooth fun k => (hs k).predictValvar
    · exact valvarGradientsSmooth hs

/-- Mixtures: the values, variances and gradients at several points are those of the points (`GpMixture`), when this is
so for the experts. -/
theorem C112_mixture_rows (e : Fin n → Mixture.Expert d)
    (h1 : ∀ k, Rows (M.experts k).predict fun x v => v = (e k).predict x)
    (h2 : ∀ k, Rows (M.experts k).predictVar fun x v => v = (e k).predictVar x)
    (h3 : ∀ k, Rows (M.experts k).predictGradients fun x v => v = (e k).predictGradients x)
    (h4 : ∀ k, Rows (M.experts k).predictVarGradients fun x v => v = (e k).predictVarGradients x) :
    let G : Mixture.GpMixture n d := ⟨M.recombination, e, M.gmx⟩
    Rows (mixSurrogate M).predict (fun x v => G.predict x = .ok v) ∧
    Rows (mixSurrogate M).predictVar (fun x v => G.predictVar x = .ok v) ∧
    Rows (mixSurrogate M).predictGradients (fun x v => G.predictGradients x = .ok v) ∧
    Rows (mixSurrogate M).predictVarGradients (fun x v => G.predictVarGradients x = .ok v) := by
  intro G
  have hexp : ∀ {α : Type} (f : Surrogate d → Points 1 d → Except Panic (Fin 1 → α))
      (φ : Mixture.Expert d → (Fin d → ℝ) → α), (∀ k x, atPoint (f (M.experts k)) x = .ok (φ (e k) x)) →
      ∀ x v, (M.expert (M.gmx.predict x) >>= fun s => atPoint (f s) x) = .ok v ↔
        (G.expert (G.gmx.predict x) >>= fun s => (.ok (φ s x) : Except Panic α)) = .ok v := by
    intro α f φ hf x v
    simp only [Mix.expert, Mixture.GpMixture.expert]
    show (dite _ _ _ >>= _) = _ ↔ (dite (M.gmx.predict x < n) _ _ >>= _) = _
    split_ifs with hc
    · show atPoint _ _ = _ ↔ _
      rw [hf]
      rfl
    · rfl
  cases hr : M.recombination with
  | hard =>
    refine ⟨?_, ?_, ?_, ?_⟩ <;> intro t xs v <;>
      simp only [mixSurrogate, hr, G, Mixture.GpMixture.predict, Mixture.GpMixture.predictVar,
        Mixture.GpMixture.predictGradients, Mixture.GpMixture.predictVarGradients]
    · exact (hard_rows _ t xs v).trans (forall_congr' fun i => hexp _ _ (fun k x => atPoint_rows (h1 k) x) _ _)
    · exact (hard_rows _ t xs v).trans (forall_congr' fun i => hexp _ _ (fun k x => atPoint_rows (h2 k) x) _ _)
    · exact (hard_rows _ t xs v).trans (forall_congr' fun i => hexp _ _ (fun k x => atPoint_rows (h3 k) x) _ _)
    · exact (hard_rows _ t xs v).trans (forall_congr' fun i => hexp _ _ (fun k x => atPoint_rows (h4 k) x) _ _)
  | smooth f =>
    refine ⟨?_, ?_, ?_, ?_⟩ <;> intro t xs v <;>
      simp only [mixSurrogate, hr, G, Mixture.GpMixture.predict, Mixture.GpMixture.predictVar,
        Mixture.GpMixture.predictGradients, Mixture.GpMixture.predictVarGradients]
    · rw [predictSmooth_ok]
      simp only [Except.ok.injEq, Mixture.GpMixture.predictSmooth]
      constructor
      · rintro ⟨u, hu, hv⟩ i
        rw [hv]
        exact Finset.sum_congr rfl fun k _ => by rw [(h1 k _ _ _).1 (hu k) i]
      · exact fun hv => ⟨fun k i => (e k).predict (xs i), fun k => (h1 k _ _ _).2 fun i => rfl, fun i => (hv i).symm⟩
    · rw [predictVarSmooth_ok]
      simp only [Except.ok.injEq, Mixture.GpMixture.predictVarSmooth]
      constructor
      · rintro ⟨u, hu, hv⟩ i
        rw [hv]
        exact Finset.sum_congr rfl fun k _ => by rw [(h2 k _ _ _).1 (hu k) i]
      · exact fun hv => ⟨fun k i => (e k).predictVar (xs i), fun k => (h2 k _ _ _).2 fun i => rfl, fun i => (hv i).symm⟩
    · refine (gradients_rows t xs v).trans (forall_congr' fun i => ?_)
      simp only [atPoint_rows (h1 _), atPoint_rows (h3 _)]
      rw [forRows_ok.2 fun k => rfl, forRows_ok.2 fun k => rfl]
      rfl
    · refine (varGradients_rows t xs v).trans (forall_congr' fun i => ?_)
      simp only [atPoint_rows (h2 _), atPoint_rows (h4 _)]
      rw [forRows_ok.2 fun k => rfl, forRows_ok.2 fun k => rfl]
      rfl
end

/-! ## Consequences -/

/-- Appending points to a set appends their predictions. -/
theorem C112_append {α : Type} {f : {t : ℕ} → Points t d → Except Panic (Fin t → α)} (hf : Local f) {t' : ℕ}
    (xs : Points t d) (ys : Points t' d) (v : Fin t → α) (w : Fin t' → α) :
    f (Fin.append xs ys) = .ok (Fin.append v w) ↔ f xs = .ok v ∧ f ys = .ok w := by
  rw [hf, hf t xs, hf t' ys]
  constructor
  · intro hi
    exact ⟨fun i => by simpa using hi (Fin.castAdd t' i), fun i => by simpa using hi (Fin.natAdd t i)⟩
  · rintro ⟨h1, h2⟩ i
    refine Fin.addCases (fun i => ?_) (fun i => ?_) i
    · simpa using h1 i
    · simpa using h2 i

/-- Two sets of points with a common point have the same prediction there, whatever the other points. -/
theorem C112_independent {α : Type} {f : {t : ℕ} → Points t d → Except Panic (Fin t → α)} (hf : Local f) {t' : ℕ}
    {xs : Points t d} {ys : Points t' d} {v : Fin t → α} {w : Fin t' → α} (hv : f xs = .ok v) (hw : f ys = .ok w)
    (i : Fin t) (j : Fin t') (hij : xs i = ys j) : v i = w j := by
  have h1 := (hf _ _ _).1 hv i
  have h2 := (hf _ _ _).1 hw j
  rw [hij, h2, Except.ok.injEq] at h1
  exact (congrFun h1 0).symm

/-- A mixture of two sparse Gaussian processes. -/
example (g g' : Sparse.Model n m d h) (q : Mixture.Gmx 2 d) :
    Consistent (mixSurrogate ⟨.smooth none, ![sgpSurrogate g 1, sgpSurrogate g' 1], q⟩) :=
  C112_mixture fun k => by fin_cases k <;> exact C112_sparse _ _

/-- A mixture of three times the same fitted Gaussian process. -/
example : ∃ g, Gp.fitWith Gp.exact .squaredExponential .constant 0 (fun _ : Fin 1 => 1) (fun (_ : Fin 1) (_ : Fin 1) => 1)
    (fun (i : Fin 2) (_ : Fin 1) => (i : ℝ)) ![3, 5] = some g ∧
      ∀ (q : Mixture.Gmx 3 1), Consistent (mixSurrogate ⟨.hard, fun _ => gpSurrogate Gp.exact g, q⟩) := by
  obtain ⟨g, hg⟩ := fit_two_points 1 one_pos ![3, 5]
  exact ⟨g, hg, fun q => C112_mixture fun _ => C112_gp hg _⟩

end Verif.Props
