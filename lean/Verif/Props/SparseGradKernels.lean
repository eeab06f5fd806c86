import Verif.Props.SparseGrad
import Verif.Props.Continuity

/-!
# C110: errors of the gradients of sparse Gaussian processes with every kernel
-/

set_option autoImplicit false

namespace Verif.Props

open Matrix Kernels Sparse Spec Real Filter Topology

variable {n m d h : ℕ}

/-! ## Central differences of functions with a Lipschitz second derivative -/

theorem bound_of_deriv_on {f f' B B' : ℝ → ℝ} {e : ℝ} (h0 : f 0 = 0) (hB0 : B 0 = 0)
    (hf : ∀ s ∈ Set.Icc 0 e, HasDerivAt f (f' s) s) (hB : ∀ s, HasDerivAt B (B' s) s)
    (hb : ∀ s ∈ Set.Icc 0 e, |f' s| ≤ B' s) : ∀ s ∈ Set.Icc 0 e, |f s| ≤ B s := by
  intro s hs
  have hin : ∀ u, 0 ≤ u → u ≤ s → u ∈ Set.Icc 0 e := fun u h1 h2 => ⟨h1, h2.trans hs.2⟩
  have := image_norm_le_of_norm_deriv_right_le_deriv_boundary (f := f) (a := 0) (b := s) (f' := f')
    (fun u hu => (hf u (hin u hu.1 hu.2)).continuousAt.continuousWithinAt)
    (fun u hu => (hf u (hin u hu.1 hu.2.le)).hasDerivWithinAt) (by simp [h0, hB0]) hB
    (fun u hu => by simpa using hb u (hin u hu.1 hu.2.le)) (x := s) ⟨hs.1, le_rfl⟩
  simpa using this

/-- A central difference differs from the derivative by at most the Lipschitz constant of the second derivative times the
square of the step, divided by six. -/
theorem central_diff_lip {g g1 g2 : ℝ → ℝ} {t ε M : ℝ} (hε : 0 < ε)
    (h1 : ∀ s ∈ Set.Icc (t - ε) (t + ε), HasDerivAt g (g1 s) s)
    (h2 : ∀ s ∈ Set.Icc (t - ε) (t + ε), HasDerivAt g1 (g2 s) s)
    (hM : ∀ s ∈ Set.Icc (t - ε) (t + ε), ∀ u ∈ Set.Icc (t - ε) (t + ε), |g2 s - g2 u| ≤ M * |s - u|) :
    |(g (t + ε) - g (t - ε)) / (2 * ε) - g1 t| ≤ M * ε ^ 2 / 6 := by
  have ip : ∀ s ∈ Set.Icc 0 ε, t + s ∈ Set.Icc (t - ε) (t + ε) := fun s hs =>
    ⟨by linarith [hs.1, hs.2], by linarith [hs.1, hs.2]⟩
  have im : ∀ s ∈ Set.Icc 0 ε, t - s ∈ Set.Icc (t - ε) (t + ε) := fun s hs =>
    ⟨by linarith [hs.1, hs.2], by linarith [hs.1, hs.2]⟩
  have b2 : ∀ s ∈ Set.Icc 0 ε, |g2 (t + s) - g2 (t - s)| ≤ 2 * M * s := by
    intro s hs
    refine (hM _ (ip s hs) _ (im s hs)).trans (le_of_eq ?_)
    rw [show t + s - (t - s) = 2 * s by ring, abs_of_nonneg (by linarith [hs.1])]
    ring
  have b1 : ∀ s ∈ Set.Icc 0 ε, |g1 (t + s) + g1 (t - s) - 2 * g1 t| ≤ M * s ^ 2 :=
    bound_of_deriv_on (f' := fun s => g2 (t + s) + -g2 (t - s)) (B' := fun s => 2 * M * s) (by simp; ring) (by simp)
      (fun s hs => (((h2 _ (ip s hs)).comp_const_add t s).add ((h2 _ (im s hs)).comp_const_sub t s)).sub_const _)
      (fun s => by
        have := (hasDerivAt_pow 2 s).const_mul M
        refine this.congr_deriv ?_
        simp; ring)
      (fun s hs => by simpa [sub_eq_add_neg] using b2 s hs)
  have b0 : ∀ s ∈ Set.Icc 0 ε, |g (t + s) - g (t - s) - 2 * g1 t * s| ≤ M * s ^ 3 / 3 :=
    bound_of_deriv_on (f' := fun s => g1 (t + s) - -g1 (t - s) - 2 * g1 t) (B' := fun s => M * s ^ 2) (by simp) (by simp)
      (fun s hs => (((h1 _ (ip s hs)).comp_const_add t s).sub ((h1 _ (im s hs)).comp_const_sub t s)).sub
        (by simpa using (hasDerivAt_id s).const_mul (2 * g1 t)))
      (fun s => by
        have := ((hasDerivAt_pow 3 s).const_mul M).div_const 3
        refine this.congr_deriv ?_
        simp; ring)
      (fun s hs => by simpa [sub_eq_add_neg] using b1 s hs)
  have hb := b0 ε ⟨hε.le, le_rfl⟩
  have e : (g (t + ε) - g (t - ε)) / (2 * ε) - g1 t = (g (t + ε) - g (t - ε) - 2 * g1 t * ε) / (2 * ε) := by
    field_simp
  rw [e, abs_div, abs_of_pos (by positivity : (0 : ℝ) < 2 * ε), div_le_iff₀ (by positivity)]
  refine hb.trans (le_of_eq ?_)
  ring

/-! ## Functions of a scale -/

/-- Bounded by one, with derivatives of orders one and two bounded by powers of the scale `A` and the second derivative
Lipschitz. -/
def Smooth3On (S : Set ℝ) (A : ℝ) (f : ℝ → ℝ) : Prop :=
  ∃ f1 f2 : ℝ → ℝ, (∀ t ∈ S, HasDerivAt f (f1 t) t) ∧ (∀ t ∈ S, HasDerivAt f1 (f2 t) t) ∧ (∀ t ∈ S, |f t| ≤ 1) ∧
    (∀ t ∈ S, |f1 t| ≤ A) ∧ (∀ t ∈ S, |f2 t| ≤ A ^ 2) ∧ ∀ s ∈ S, ∀ t ∈ S, |f2 s - f2 t| ≤ A ^ 3 * |s - t|

theorem lip_of_deriv {S : Set ℝ} (hS : Convex ℝ S) {f f' : ℝ → ℝ} {A : ℝ} (hf : ∀ t ∈ S, HasDerivAt f (f' t) t)
    (hb : ∀ t ∈ S, |f' t| ≤ A) : ∀ s ∈ S, ∀ t ∈ S, |f s - f t| ≤ A * |s - t| := fun s hs t ht => by
  simpa using hS.norm_image_sub_le_of_norm_hasDerivWithin_le (f := f) (f' := f') (C := A)
    (fun u hu => (hf u hu).hasDerivWithinAt) (fun u hu => by simpa using hb u hu) ht hs

theorem Smooth3On.one (S : Set ℝ) : Smooth3On S 0 fun _ => 1 :=
  ⟨fun _ => 0, fun _ => 0, fun t _ => hasDerivAt_const t 1, fun t _ => hasDerivAt_const t 0, by simp, by simp, by simp,
    by simp⟩

theorem abs_mul_le_mul {a b A B : ℝ} (ha : |a| ≤ A) (hb : |b| ≤ B) : |a * b| ≤ A * B := by
  rw [abs_mul]
  exact mul_le_mul ha hb (abs_nonneg _) ((abs_nonneg _).trans ha)

theorem Smooth3On.mul {S : Set ℝ} (hS : Convex ℝ S) {A B : ℝ} {f g : ℝ → ℝ} (hf : Smooth3On S A f)
    (hg : Smooth3On S B g) : Smooth3On S (A + B) fun t => f t * g t := by
  obtain ⟨f1, f2, df, df1, bf, bf1, bf2, lf⟩ := hf
  obtain ⟨g1, g2, dg, dg1, bg, bg1, bg2, lg⟩ := hg
  refine ⟨fun t => f1 t * g t + f t * g1 t, fun t => (f2 t * g t + f1 t * g1 t) + (f1 t * g1 t + f t * g2 t),
    fun t ht => (df t ht).mul (dg t ht),
    fun t ht => ((df1 t ht).mul (dg t ht)).add ((df t ht).mul (dg1 t ht)), fun t ht => ?_, fun t ht => ?_, fun t ht => ?_,
    fun s hs t ht => ?_⟩
  · simpa using abs_mul_le_mul (bf t ht) (bg t ht)
  · refine (abs_add_le _ _).trans ?_
    linarith [abs_mul_le_mul (bf1 t ht) (bg t ht), abs_mul_le_mul (bf t ht) (bg1 t ht)]
  · refine (abs_add_le _ _).trans ?_
    have e1 := abs_add_le (f2 t * g t) (f1 t * g1 t)
    have e2 := abs_add_le (f1 t * g1 t) (f t * g2 t)
    nlinarith [abs_mul_le_mul (bf2 t ht) (bg t ht), abs_mul_le_mul (bf1 t ht) (bg1 t ht), abs_mul_le_mul (bf t ht) (bg2 t ht)]
  · have q : ∀ {u v : ℝ → ℝ} {U V P Q : ℝ}, |u s| ≤ U → |v t| ≤ V → |u s - u t| ≤ P * |s - t| → |v s - v t| ≤ Q * |s - t| →
        |u s * v s - u t * v t| ≤ (U * Q + P * V) * |s - t| := by
      intro u v U V P Q h1 h2 h3 h4
      rw [show u s * v s - u t * v t = u s * (v s - v t) + (u s - u t) * v t by ring]
      refine (abs_add_le _ _).trans ?_
      have := abs_mul_le_mul h1 h4
      have := abs_mul_le_mul h3 h2
      nlinarith
    have L0 := lip_of_deriv hS df bf1 s hs t ht
    have L1 := lip_of_deriv hS df1 bf2 s hs t ht
    have M0 := lip_of_deriv hS dg bg1 s hs t ht
    have M1 := lip_of_deriv hS dg1 bg2 s hs t ht
    have q1 := q (bf2 s hs) (bg t ht) (lf s hs t ht) M0
    have q2 := q (bf1 s hs) (bg1 t ht) L1 M1
    have q3 := q (bf s hs) (bg2 t ht) L0 (lg s hs t ht)
    have e : f2 s * g s + f1 s * g1 s + (f1 s * g1 s + f s * g2 s) - (f2 t * g t + f1 t * g1 t + (f1 t * g1 t + f t * g2 t)) =
        (f2 s * g s - f2 t * g t) + 2 * (f1 s * g1 s - f1 t * g1 t) + (f s * g2 s - f t * g2 t) := by ring
    rw [e]
    refine (abs_add_le _ _).trans ?_
    have e1 := abs_add_le (f2 s * g s - f2 t * g t) (2 * (f1 s * g1 s - f1 t * g1 t))
    rw [abs_mul 2, abs_of_pos (by norm_num : (0 : ℝ) < 2)] at e1
    nlinarith

theorem Smooth3On.prod {ι : Type} {S : Set ℝ} (hS : Convex ℝ S) {A : ι → ℝ} {f : ι → ℝ → ℝ} (s : Finset ι)
    (hf : ∀ i ∈ s, Smooth3On S (A i) (f i)) : Smooth3On S (∑ i ∈ s, A i) fun t => ∏ i ∈ s, f i t := by
  classical
  induction s using Finset.induction_on with
  | empty => simpa using Smooth3On.one S
  | insert i s hi ih =>
    simp only [Finset.prod_insert hi, Finset.sum_insert hi]
    exact (hf i (Finset.mem_insert_self _ _)).mul hS (ih fun k hk => hf k (Finset.mem_insert_of_mem hk))

theorem Smooth3On.const_mul {S : Set ℝ} {A : ℝ} {f : ℝ → ℝ} {c : ℝ} (hf : Smooth3On S A f) (hc : |c| ≤ 1) :
    Smooth3On S A fun t => c * f t := by
  obtain ⟨f1, f2, df, df1, bf, bf1, bf2, lf⟩ := hf
  have k : ∀ {a B : ℝ}, |a| ≤ B → |c * a| ≤ B := fun ha => by simpa using abs_mul_le_mul hc ha
  refine ⟨fun t => c * f1 t, fun t => c * f2 t, fun t ht => (df t ht).const_mul c, fun t ht => (df1 t ht).const_mul c,
    fun t ht => k (bf t ht), fun t ht => k (bf1 t ht), fun t ht => k (bf2 t ht), fun s hs t ht => ?_⟩
  rw [← mul_sub]
  exact k (lf s hs t ht)

/-- Central difference of a combination. -/
theorem smooth_sum_error {ι : Type} [Fintype ι] {f : ι → ℝ → ℝ} {A t ε : ℝ} (k : ℝ) (a : ι → ℝ) (hε : 0 < ε)
    (hf : ∀ i, Smooth3On (Set.Icc (t - ε) (t + ε)) A (f i)) :
    DifferentiableAt ℝ (fun s => k + ∑ i, a i * f i s) t ∧
    |((k + ∑ i, a i * f i (t + ε)) - (k + ∑ i, a i * f i (t - ε))) / (2 * ε) - deriv (fun s => k + ∑ i, a i * f i s) t| ≤
      ε ^ 2 / 6 * ((∑ i, |a i|) * A ^ 3) := by
  choose f1 f2 df df1 bf bf1 bf2 lf using hf
  have h1 : ∀ s ∈ Set.Icc (t - ε) (t + ε), HasDerivAt (fun s => k + ∑ i, a i * f i s) (∑ i, a i * f1 i s) s := fun s hs =>
    (HasDerivAt.fun_sum fun i _ => (df i s hs).const_mul (a i)).const_add k
  have h2 : ∀ s ∈ Set.Icc (t - ε) (t + ε), HasDerivAt (fun s => ∑ i, a i * f1 i s) (∑ i, a i * f2 i s) s := fun s hs =>
    HasDerivAt.fun_sum fun i _ => (df1 i s hs).const_mul (a i)
  have ht : t ∈ Set.Icc (t - ε) (t + ε) := ⟨by linarith, by linarith⟩
  refine ⟨(h1 t ht).differentiableAt, ?_⟩
  rw [(h1 t ht).deriv]
  refine (central_diff_lip (M := (∑ i, |a i|) * A ^ 3) hε h1 h2 fun s hs u hu => ?_).trans (le_of_eq (by ring))
  rw [← Finset.sum_sub_distrib]
  refine (Finset.abs_sum_le_sum_abs _ _).trans ?_
  rw [Finset.sum_mul, Finset.sum_mul]
  refine Finset.sum_le_sum fun i _ => ?_
  rw [← mul_sub, abs_mul, mul_assoc]
  exact mul_le_mul_of_nonneg_left (lf i s hs u hu) (abs_nonneg _)

/-! ## One component, one direction -/

theorem Smooth3On.shift {A c : ℝ} {f : ℝ → ℝ} (hf : Smooth3On Set.univ A f) (S : Set ℝ) :
    Smooth3On S A fun t => f (t - c) := by
  obtain ⟨f1, f2, df, df1, bf, bf1, bf2, lf⟩ := hf
  refine ⟨fun t => f1 (t - c), fun t => f2 (t - c), fun t _ => (df _ trivial).comp_sub_const t c,
    fun t _ => (df1 _ trivial).comp_sub_const t c, fun t _ => bf _ trivial, fun t _ => bf1 _ trivial, fun t _ => bf2 _ trivial,
    fun s _ t _ => ?_⟩
  simpa using lf (s - c) trivial (t - c) trivial

theorem even_lip {ψ ψ' : ℝ → ℝ} {a K C : ℝ} (ha : 0 ≤ a) (hC : 0 ≤ C) (hψ : ∀ u, HasDerivAt ψ (ψ' u) u)
    (hb : ∀ u, 0 ≤ u → |ψ' u| ≤ K) (s t : ℝ) : |C * ψ (a * |s|) - C * ψ (a * |t|)| ≤ C * K * a * |s - t| := by
  have hl := lip_of_deriv (convex_Ici (0 : ℝ)) (fun u _ => hψ u) (fun u hu => hb u hu) (a * |s|)
    (mul_nonneg ha (abs_nonneg _)) (a * |t|) (mul_nonneg ha (abs_nonneg _))
  have hK : 0 ≤ K := (abs_nonneg _).trans (hb 0 le_rfl)
  have h3 : abs (a * |s| - a * |t|) ≤ a * |s - t| := by
    rw [← mul_sub, abs_mul, abs_of_nonneg ha]
    exact mul_le_mul_of_nonneg_left (abs_abs_sub_abs_le_abs_sub s t) ha
  rw [← mul_sub, abs_mul, abs_of_nonneg hC, mul_assoc, mul_assoc]
  refine mul_le_mul_of_nonneg_left (hl.trans ?_) hC
  exact mul_le_mul_of_nonneg_left h3 hK

/-- `|p| exp(-u) ≤ K`. -/
theorem mul_exp_neg_le {p u K : ℝ} (hp : |p| ≤ K * rexp u) : |p * rexp (-u)| ≤ K := by
  rw [abs_mul, abs_of_pos (exp_pos _), exp_neg, ← div_eq_mul_inv, div_le_iff₀ (exp_pos _)]
  exact hp

theorem m32_smooth {a : ℝ} (ha : 0 ≤ a) : Smooth3On Set.univ (4 / 3 * a) (evenOne a 1 a 0) := by
  have e1 : ∀ t, oddOne a (2 * 0 - a ^ 2 * 1) (-a * 0) t = -(a * ((a * t) * rexp (-(a * |t|)))) := fun t => by
    unfold oddOne; ring
  have e2 : ∀ t, evenOne a (2 * 0 - a ^ 2 * 1) (2 * (-a * 0) - a * (2 * 0 - a ^ 2 * 1)) (-a * (-a * 0)) t =
      -(a ^ 2 * ((1 - a * |t|) * rexp (-(a * |t|)))) := fun t => by unfold evenOne; ring
  have hu : ∀ t : ℝ, 0 ≤ a * |t| := fun t => mul_nonneg ha (abs_nonneg t)
  have hE : ∀ u : ℝ, 0 ≤ u → 1 + u ≤ rexp u := fun u _ => by linarith [add_one_le_exp u]
  refine ⟨_, _, fun t _ => by
      have := hasDerivAt_evenOne a 1 0 t
      rwa [show a * 1 = a from mul_one a] at this, fun t _ => hasDerivAt_oddOne a _ _ t, fun t _ => ?_, fun t _ => ?_,
    fun t _ => ?_, fun s _ t _ => ?_⟩
  · have := hE _ (hu t)
    simp only [evenOne, zero_mul, add_zero]
    refine mul_exp_neg_le ?_
    rw [abs_of_nonneg (by linarith [hu t])]
    linarith
  · rw [e1, abs_neg, abs_mul, abs_of_nonneg ha]
    have h1 : |a * t * rexp (-(a * |t|))| ≤ 1 := by
      refine mul_exp_neg_le ?_
      rw [abs_mul, abs_of_nonneg ha]
      linarith [hE _ (hu t)]
    nlinarith
  · rw [e2, abs_neg, abs_mul, abs_of_nonneg (sq_nonneg a)]
    have h1 : |(1 - a * |t|) * rexp (-(a * |t|))| ≤ 1 := by
      refine mul_exp_neg_le ?_
      have := hE _ (hu t)
      rw [abs_le]
      constructor <;> linarith [hu t]
    nlinarith [sq_nonneg a]
  · rw [e2, e2, neg_sub_neg, abs_sub_comm]
    have hd : ∀ u : ℝ, HasDerivAt (fun u => (1 - u) * rexp (-u)) ((u - 2) * rexp (-u)) u := fun u => by
      have := ((hasDerivAt_id u).const_sub 1).mul (hasDerivAt_id u).neg.exp
      refine this.congr_deriv ?_
      simp
      ring
    have := even_lip ha (sq_nonneg a) hd (K := 2) (fun u h0 => by
      refine mul_exp_neg_le ?_
      have := hE u h0
      rw [abs_le]
      constructor <;> linarith) s t
    refine this.trans (mul_le_mul_of_nonneg_right ?_ (abs_nonneg _))
    nlinarith [pow_nonneg ha 3]

theorem m52_smooth {a : ℝ} (ha : 0 ≤ a) : Smooth3On Set.univ a (evenOne a 1 a (a ^ 2 / 3)) := by
  have e1 : ∀ t, oddOne a (2 * (a ^ 2 / 3) - a ^ 2 * 1) (-a * (a ^ 2 / 3)) t =
      -(a / 3 * ((a * t * (1 + a * |t|)) * rexp (-(a * |t|)))) := fun t => by
    unfold oddOne; ring
  have e2 : ∀ t, evenOne a (2 * (a ^ 2 / 3) - a ^ 2 * 1) (2 * (-a * (a ^ 2 / 3)) - a * (2 * (a ^ 2 / 3) - a ^ 2 * 1))
      (-a * (-a * (a ^ 2 / 3))) t =
      -(a ^ 2 / 3 * ((1 + a * |t| - (a * |t|) ^ 2) * rexp (-(a * |t|)))) := fun t => by
    unfold evenOne; rw [mul_pow, sq_abs]; ring
  have hu : ∀ t : ℝ, 0 ≤ a * |t| := fun t => mul_nonneg ha (abs_nonneg t)
  have hE : ∀ u : ℝ, 0 ≤ u → 1 + u + u ^ 2 / 2 ≤ rexp u := fun u h0 => Real.quadratic_le_exp_of_nonneg h0
  have a2 : 0 ≤ a ^ 2 / 3 := by positivity
  refine ⟨_, _, fun t _ => by
      have := hasDerivAt_evenOne a 1 (a ^ 2 / 3) t
      rwa [show a * 1 = a from mul_one a] at this, fun t _ => hasDerivAt_oddOne a _ _ t, fun t _ => ?_,
    fun t _ => ?_, fun t _ => ?_, fun s _ t _ => ?_⟩
  · have := hE _ (hu t)
    simp only [evenOne]
    refine mul_exp_neg_le ?_
    rw [show 1 + a * |t| + a ^ 2 / 3 * t ^ 2 = 1 + a * |t| + (a * |t|) ^ 2 / 3 by rw [mul_pow, sq_abs]; ring]
    rw [abs_of_nonneg (by have := hu t; positivity)]
    nlinarith [sq_nonneg (a * |t|)]
  · rw [e1, abs_neg, abs_mul, abs_of_nonneg (by positivity)]
    have h1 : |a * t * (1 + a * |t|) * rexp (-(a * |t|))| ≤ 3 := by
      refine mul_exp_neg_le ?_
      rw [abs_mul, abs_mul, abs_of_nonneg ha, abs_of_nonneg (by linarith [hu t] : 0 ≤ 1 + a * |t|)]
      nlinarith [hE _ (hu t), hu t, sq_nonneg (a * |t|)]
    nlinarith
  · rw [e2, abs_neg, abs_mul, abs_of_nonneg a2]
    have h1 : |(1 + a * |t| - (a * |t|) ^ 2) * rexp (-(a * |t|))| ≤ 3 := by
      refine mul_exp_neg_le ?_
      have := hE _ (hu t)
      rw [abs_le]
      constructor <;> nlinarith [hu t, sq_nonneg (a * |t|)]
    nlinarith [sq_nonneg a]
  · rw [e2, e2, neg_sub_neg, abs_sub_comm]
    have hd : ∀ u : ℝ, HasDerivAt (fun u => (1 + u - u ^ 2) * rexp (-u)) ((u ^ 2 - 3 * u) * rexp (-u)) u := fun u => by
      have := (((hasDerivAt_id u).const_add 1).sub (hasDerivAt_pow 2 u)).mul (hasDerivAt_id u).neg.exp
      refine this.congr_deriv ?_
      simp
      ring
    have := even_lip ha a2 hd (K := 3) (fun u h0 => by
      refine mul_exp_neg_le ?_
      have := hE u h0
      rw [abs_le]
      constructor <;> nlinarith [sq_nonneg u]) s t
    refine this.trans (mul_le_mul_of_nonneg_right ?_ (abs_nonneg _))
    nlinarith [pow_nonneg ha 3]

theorem se_smooth {a : ℝ} (ha : 0 ≤ a) : Smooth3On Set.univ (4 / 3 * a) (bump (a ^ 2) 0) := by
  have hv : ∀ t, bump (a ^ 2) 0 t = rexp (-((a * t) ^ 2 / 2)) := fun t => by rw [bump]; congr 1; ring
  have hE : ∀ v : ℝ, 1 + v ^ 2 / 2 + (v ^ 2 / 2) ^ 2 / 2 ≤ rexp (v ^ 2 / 2) := fun v =>
    Real.quadratic_le_exp_of_nonneg (by positivity)
  have b1 : ∀ t, |-(a ^ 2 * (t - 0)) * bump (a ^ 2) 0 t| ≤ a := fun t => by
    rw [show -(a ^ 2 * (t - 0)) * bump (a ^ 2) 0 t = -(a * (a * t * bump (a ^ 2) 0 t)) by ring, abs_neg, abs_mul, abs_of_nonneg ha, hv]
    have : |a * t * rexp (-((a * t) ^ 2 / 2))| ≤ 1 := by
      refine mul_exp_neg_le ?_
      have := hE (a * t)
      rw [abs_le]
      constructor <;> nlinarith [sq_nonneg (a * t - 1), sq_nonneg (a * t + 1), sq_nonneg ((a * t) ^ 2 / 2)]
    nlinarith
  refine ⟨_, _, fun t _ => bump_d1 _ _ _, fun t _ => bump_d2 _ _ _, fun t _ => ?_, fun t _ => ?_, fun t _ => ?_,
    fun s _ t _ => ?_⟩
  · rw [abs_of_nonneg (bump_nonneg _ _ _), hv]
    exact exp_le_one_iff.2 (by nlinarith [sq_nonneg (a * t)])
  · linarith [b1 t]
  · rw [show ((a ^ 2) ^ 2 * (t - 0) ^ 2 - a ^ 2) * bump (a ^ 2) 0 t = a ^ 2 * (((a * t) ^ 2 - 1) * bump (a ^ 2) 0 t) by ring,
      abs_mul, abs_of_nonneg (sq_nonneg a), hv]
    have : |((a * t) ^ 2 - 1) * rexp (-((a * t) ^ 2 / 2))| ≤ 1 := by
      refine mul_exp_neg_le ?_
      have := hE (a * t)
      rw [abs_le]
      constructor <;> nlinarith [sq_nonneg (a * t), sq_nonneg ((a * t) ^ 2 - 2)]
    nlinarith [sq_nonneg a]
  · have := lip_of_deriv convex_univ (fun u _ => bump_d3 (a ^ 2) 0 u) (fun u _ => bump_d3_le (a ^ 2) 0 u (sq_nonneg a)) s trivial t trivial
    rw [sqrt_sq ha] at this
    refine this.trans (mul_le_mul_of_nonneg_right ?_ (abs_nonneg _))
    nlinarith [pow_nonneg ha 3]

theorem abs_smooth {a c : ℝ} (ha : 0 ≤ a) {S : Set ℝ} (hS : Convex ℝ S) (hc : c ∉ S) :
    Smooth3On S a fun t => rexp (-(a * |t - c|)) := by
  have hside : ∃ σ : ℝ, σ * σ = 1 ∧ ∀ t ∈ S, HasDerivAt (fun t : ℝ => |t - c|) σ t := by
    have ho : S ⊆ Set.Iio c ∨ S ⊆ Set.Ioi c := by
      by_contra hno
      push Not at hno
      obtain ⟨⟨u, hu, hu'⟩, ⟨v, hv, hv'⟩⟩ := And.intro (Set.not_subset.1 hno.1) (Set.not_subset.1 hno.2)
      exact hc (hS.ordConnected.out hv hu ⟨not_lt.1 hv', not_lt.1 hu'⟩)
    rcases ho with ho | ho
    · refine ⟨-1, by norm_num, fun t ht => ?_⟩
      have := (hasDerivAt_abs_neg (sub_neg.2 (ho ht))).comp_sub_const t c
      exact this
    · refine ⟨1, by norm_num, fun t ht => ?_⟩
      have := (hasDerivAt_abs_pos (sub_pos.2 (ho ht))).comp_sub_const t c
      exact this
  obtain ⟨σ, hσ, hd⟩ := hside
  set f : ℝ → ℝ := fun t => rexp (-(a * |t - c|)) with hf
  have d0 : ∀ t ∈ S, HasDerivAt f (-(a * σ) * f t) t := fun t ht => by
    have := ((hd t ht).const_mul a).neg.exp
    refine this.congr_deriv ?_
    simp [hf]
    ring
  have d1 : ∀ t ∈ S, HasDerivAt (fun t => -(a * σ) * f t) (a ^ 2 * f t) t := fun t ht => by
    refine ((d0 t ht).const_mul _).congr_deriv ?_
    linear_combination (a ^ 2 * f t) * hσ
  have hb : ∀ t, |f t| ≤ 1 := fun t => by
    rw [abs_of_pos (exp_pos _)]
    exact exp_le_one_iff.2 (by have := mul_nonneg ha (abs_nonneg (t - c)); linarith)
  have hσ1 : |σ| = 1 := by
    rcases mul_self_eq_one_iff.1 hσ with rfl | rfl <;> simp
  have hb1 : ∀ t, |-(a * σ) * f t| ≤ a := fun t => by
    rw [abs_mul, abs_neg, abs_mul, hσ1, abs_of_nonneg ha, mul_one]
    exact mul_le_of_le_one_right ha (hb t)
  refine ⟨_, _, d0, d1, fun t _ => hb t, fun t _ => hb1 t, fun t _ => ?_, fun s hs t ht => ?_⟩
  · rw [abs_mul, abs_of_nonneg (sq_nonneg a)]
    exact mul_le_of_le_one_right (sq_nonneg a) (hb t)
  · rw [← mul_sub, abs_mul, abs_of_nonneg (sq_nonneg a)]
    have := lip_of_deriv hS d0 (fun t _ => hb1 t) s hs t ht
    calc a ^ 2 * |f s - f t| ≤ a ^ 2 * (a * |s - t|) := mul_le_mul_of_nonneg_left this (sq_nonneg a)
      _ = a ^ 3 * |s - t| := by ring

/-- Constant of a kernel. -/
noncomputable def kernelConst : Kernel → ℝ
  | .squaredExponential => 4 / 3
  | .absoluteExponential => 1
  | .matern32 => 4 / 3 * √3
  | .matern52 => √5

theorem kernelConst_pos (k : Kernel) : 0 < kernelConst k := by
  cases k <;> simp only [kernelConst] <;> positivity

theorem corr1_smooth (k : Kernel) {τ c : ℝ} (hτ : 0 ≤ τ) {S : Set ℝ} (hS : Convex ℝ S)
    (hc : k = .absoluteExponential → c ∉ S) : Smooth3On S (kernelConst k * τ) fun t => corr1 k (τ * |t - c|) := by
  cases k with
  | squaredExponential =>
    have e : (fun t => corr1 .squaredExponential (τ * |t - c|)) = fun t => bump (τ ^ 2) 0 (t - c) := by
      funext t
      rw [corr1, bump]
      congr 1
      rw [mul_pow, sq_abs]
      ring
    rw [e]
    exact (se_smooth hτ).shift S
  | absoluteExponential =>
    rw [kernelConst, one_mul]
    exact abs_smooth hτ hS (hc rfl)
  | matern32 =>
    have e : (fun t => corr1 .matern32 (τ * |t - c|)) = fun t => evenOne (√3 * τ) 1 (√3 * τ) 0 (t - c) := by
      funext t
      simp only [corr1, evenOne, zero_mul, add_zero]
      congr 1
      · ring
      · congr 1; ring
    rw [e, kernelConst, mul_assoc]
    exact (m32_smooth (by positivity)).shift S
  | matern52 =>
    have e : (fun t => corr1 .matern52 (τ * |t - c|)) =
        fun t => evenOne (√5 * τ) 1 (√5 * τ) ((√5 * τ) ^ 2 / 3) (t - c) := by
      funext t
      simp only [corr1, evenOne]
      congr 1
      · rw [mul_pow, mul_pow, sq_abs, sq_sqrt (by norm_num)]
        ring
      · congr 1; ring
    rw [e, kernelConst]
    exact (m52_smooth (by positivity)).shift S

/-! ## Sparse models -/

/-- What the other components contribute to the correlation. -/
noncomputable def othersProd (k : Kernel) (θ : Fin h → ℝ) (w : Fin d → Fin h → ℝ) (x z : Fin d → ℝ) (j : Fin d) : ℝ :=
  ∏ p ∈ Finset.univ.erase j, ∏ l, corr1 k (θ l * |w p l| * |x p - z p|)

theorem othersProd_range (k : Kernel) {θ : Fin h → ℝ} (hθ : ∀ l, 0 ≤ θ l) (w : Fin d → Fin h → ℝ) (x z : Fin d → ℝ)
    (j : Fin d) : 0 < othersProd k θ w x z j ∧ othersProd k θ w x z j ≤ 1 := by
  have key : ∀ p l, 0 < corr1 k (θ l * |w p l| * |x p - z p|) ∧ corr1 k (θ l * |w p l| * |x p - z p|) ≤ 1 :=
    fun p l => corr1_range k (mul_nonneg (mul_nonneg (hθ l) (abs_nonneg _)) (abs_nonneg _))
  exact ⟨Finset.prod_pos fun p _ => Finset.prod_pos fun l _ => (key p l).1,
    Finset.prod_le_one (fun p _ => Finset.prod_nonneg fun l _ => (key p l).1.le)
      fun p _ => Finset.prod_le_one (fun l _ => (key p l).1.le) fun l _ => (key p l).2⟩

theorem kernel_along (k : Kernel) (θ : Fin h → ℝ) (w : Fin d → Fin h → ℝ) (x z : Fin d → ℝ) (j : Fin d) (t : ℝ) :
    k.value θ w (fun l => Function.update x j t l - z l) =
      othersProd k θ w x z j * ∏ l, corr1 k (θ l * |w j l| * |t - z j|) := by
  rw [C40_documented, corr, ← Finset.mul_prod_erase _ _ (Finset.mem_univ j), Function.update_self, mul_comm, othersProd]
  congr 1
  exact Finset.prod_congr rfl fun p hp => by rw [Function.update_of_ne (Finset.ne_of_mem_erase hp)]

/-- The scale of the correlation along component `j`. -/
noncomputable def scaleAlong (k : Kernel) (θ : Fin h → ℝ) (w : Fin d → Fin h → ℝ) (j : Fin d) : ℝ :=
  kernelConst k * ∑ l, θ l * |w j l|

theorem kernel_smooth (k : Kernel) {θ : Fin h → ℝ} (hθ : ∀ l, 0 ≤ θ l) (w : Fin d → Fin h → ℝ) (x z : Fin d → ℝ) (j : Fin d)
    {S : Set ℝ} (hS : Convex ℝ S) (hc : k = .absoluteExponential → z j ∉ S) :
    Smooth3On S (scaleAlong k θ w j) fun t => k.value θ w (fun l => Function.update x j t l - z l) := by
  simp only [kernel_along]
  obtain ⟨o1, o2⟩ := othersProd_range k hθ w x z j
  refine Smooth3On.const_mul ?_ (by rw [abs_of_pos o1]; exact o2)
  rw [scaleAlong, Finset.mul_sum]
  exact Smooth3On.prod hS _ fun l _ => corr1_smooth k (mul_nonneg (hθ l) (abs_nonneg _)) hS hc

theorem far_notin {x z ε : ℝ} (h : ε < |x - z|) : z ∉ Set.Icc (x - ε) (x + ε) := fun hz => by
  have : |x - z| ≤ ε := abs_le.2 ⟨by linarith [hz.1, hz.2], by linarith [hz.1, hz.2]⟩
  linarith

/-- **C110** (mean; partial: exact arithmetic, away from the corners of the absolute exponential). The predicted gradient
differs from the derivative of the prediction by at most the square of the step times an explicit constant of the model. -/
theorem C110_mean_kernels_partial (g : Sparse.Model n m d h) (hs : 0 ≤ g.sigma2) (hθ : ∀ l, 0 ≤ g.theta l) (x : Fin d → ℝ)
    (j : Fin d) (ε : ℝ) (hε : 0 < ε) (hk : g.kernel = .absoluteExponential → ∀ i, ε < |x j - g.inducings i j|) :
    DifferentiableAt ℝ (fun t => g.predict (Function.update x j t)) (x j) ∧
    |g.predictGradients ε x j - deriv (fun t => g.predict (Function.update x j t)) (x j)| ≤
      ε ^ 2 / 6 * (g.sigma2 * (∑ i, |g.data.vec i 0|) * (kernelConst g.kernel * ∑ l, g.theta l * |g.w j l|) ^ 3) := by
  have e : ∀ t, g.predict (Function.update x j t) = 0 + ∑ i, (g.sigma2 * g.data.vec i 0) *
      g.kernel.value g.theta g.w (fun l => Function.update x j t l - g.inducings i l) := by
    intro t
    rw [zero_add]
    simp only [Sparse.Model.predict, Matrix.mul_apply, computeK, Matrix.of_apply]
    exact Finset.sum_congr rfl fun i _ => by ring
  simp only [Sparse.Model.predictGradients, Sparse.Model.centralDiff, e]
  obtain ⟨h1, h2⟩ := smooth_sum_error 0 (fun i => g.sigma2 * g.data.vec i 0) hε fun i =>
    kernel_smooth g.kernel hθ g.w x (g.inducings i) j (convex_Icc (x j - ε) (x j + ε)) fun e => far_notin (hk e i)
  refine ⟨h1, h2.trans (le_of_eq ?_)⟩
  simp only [abs_mul, abs_of_nonneg hs, ← Finset.mul_sum, scaleAlong]

/-- **C110** (variance; partial: exact arithmetic, points where the variance is above its lower bound, away from the corners
of the absolute exponential). The predicted gradient of the variance differs from the derivative of the predicted variance
by at most the square of the step times an explicit constant of the model. -/
theorem C110_variance_kernels_partial (g : Sparse.Model n m d h) (hθ : ∀ l, 0 ≤ g.theta l)
    (x : Fin d → ℝ) (j : Fin d) (ε : ℝ) (hε : 0 < ε)
    (hk : g.kernel = .absoluteExponential → ∀ i, ε < |x j - g.inducings i j|)
    (hv : ∀ t ∈ ({x j - ε, x j, x j + ε} : Set ℝ), 1e-15 + g.noise < g.predictVar (Function.update x j t)) :
    DifferentiableAt ℝ (fun t => g.predictVar (Function.update x j t)) (x j) ∧
    |g.predictVarGradients ε x j - deriv (fun t => g.predictVar (Function.update x j t)) (x j)| ≤
      ε ^ 2 / 6 * (g.sigma2 ^ 2 * (∑ a, ∑ b, |g.data.inv a b|) *
        (2 * (kernelConst g.kernel * ∑ l, g.theta l * |g.w j l|)) ^ 3) := by
  have hiff : ∀ t, 1e-15 + g.noise < g.predictVar (Function.update x j t) → 1e-15 < rawVar g (Function.update x j t) := by
    intro t ht
    rw [predictVar_raw g] at ht
    split_ifs at ht with hlt
    · exact absurd ht (lt_irrefl _)
    · linarith
  have hval : ∀ t, 1e-15 < rawVar g (Function.update x j t) →
      g.predictVar (Function.update x j t) = rawVar g (Function.update x j t) + g.noise := fun t ht => by
    rw [predictVar_raw g, if_neg (not_lt.2 ht.le)]
  have hraw : ∀ t, rawVar g (Function.update x j t) = g.sigma2 + ∑ p : Fin m × Fin m, (-(g.sigma2 ^ 2 * g.data.inv p.2 p.1)) *
      (g.kernel.value g.theta g.w (fun l => Function.update x j t l - g.inducings p.2 l) *
        g.kernel.value g.theta g.w (fun l => Function.update x j t l - g.inducings p.1 l)) := by
    intro t
    rw [rawVar, sub_eq_add_neg, ← Finset.sum_neg_distrib, Fintype.sum_prod_type]
    congr 1
    refine Finset.sum_congr rfl fun a _ => ?_
    rw [← Finset.sum_neg_distrib]
    exact Finset.sum_congr rfl fun b _ => by ring
  have hsm : ∀ i, Smooth3On (Set.Icc (x j - ε) (x j + ε)) (scaleAlong g.kernel g.theta g.w j) fun t =>
      g.kernel.value g.theta g.w (fun l => Function.update x j t l - g.inducings i l) := fun i =>
    kernel_smooth g.kernel hθ g.w x (g.inducings i) j (convex_Icc _ _) fun e => far_notin (hk e i)
  obtain ⟨h1, h2⟩ := smooth_sum_error g.sigma2 (fun p : Fin m × Fin m => -(g.sigma2 ^ 2 * g.data.inv p.2 p.1)) hε fun p =>
    (hsm p.2).mul (convex_Icc _ _) (hsm p.1)
  simp only [← hraw] at h1 h2
  have hnear : (fun t => g.predictVar (Function.update x j t)) =ᶠ[𝓝 (x j)]
      fun t => rawVar g (Function.update x j t) + g.noise := by
    have hcont : ContinuousAt (fun t => rawVar g (Function.update x j t)) (x j) := h1.continuousAt
    have := hcont.eventually (lt_mem_nhds (hiff (x j) (hv _ (by simp))))
    filter_upwards [this] with t ht using hval t ht
  refine ⟨(h1.add_const _).congr_of_eventuallyEq hnear, ?_⟩
  rw [hnear.deriv_eq, deriv_add_const]
  have hgrad : g.predictVarGradients ε x j =
      (rawVar g (Function.update x j (x j + ε)) - rawVar g (Function.update x j (x j - ε))) / (2 * ε) := by
    simp only [Sparse.Model.predictVarGradients, Sparse.Model.centralDiff]
    rw [hval _ (hiff _ (hv _ (by simp))), hval _ (hiff _ (hv _ (by simp)))]
    congr 1; ring
  rw [hgrad]
  refine h2.trans (le_of_eq ?_)
  simp only [abs_neg, abs_mul, abs_of_nonneg (sq_nonneg g.sigma2), ← Finset.mul_sum]
  rw [Fintype.sum_prod_type, Finset.sum_comm, scaleAlong, two_mul]

/-- **C110**, refuted. With the absolute exponential and one inducing point, at half a step of the inducing point the
predicted gradient misses at least half of the derivative of the prediction, however small the step. -/
theorem C110_refuted_corner (g : Sparse.Model n 1 d h) (hk : g.kernel = .absoluteExponential) (hs : 0 < g.sigma2)
    (hθ : ∀ l, 0 ≤ g.theta l) (hv : g.data.vec 0 0 ≠ 0) (x : Fin d → ℝ) (j : Fin d) (hw : ∃ l, 0 < g.theta l ∧ g.w j l ≠ 0)
    (ε : ℝ) (hε : 0 < ε) (hx : x j = g.inducings 0 j + ε / 2) :
    deriv (fun t => g.predict (Function.update x j t)) (x j) ≠ 0 ∧
    |deriv (fun t => g.predict (Function.update x j t)) (x j)| / 2 ≤
      |g.predictGradients ε x j - deriv (fun t => g.predict (Function.update x j t)) (x j)| := by
  set a := ∑ l, g.theta l * |g.w j l| with ha
  have ha0 : 0 < a := by
    obtain ⟨l, h1, h2⟩ := hw
    exact Finset.sum_pos' (fun l _ => mul_nonneg (hθ l) (abs_nonneg _)) ⟨l, Finset.mem_univ _, mul_pos h1 (abs_pos.2 h2)⟩
  set z := g.inducings 0 j with hz
  set C := g.sigma2 * g.data.vec 0 0 * othersProd .absoluteExponential g.theta g.w x (g.inducings 0) j with hC
  have hC0 : C ≠ 0 := mul_ne_zero (mul_ne_zero hs.ne' hv) (othersProd_range _ hθ _ _ _ _).1.ne'
  have e : ∀ t, g.predict (Function.update x j t) = C * rexp (-(a * |t - z|)) := by
    intro t
    simp only [Sparse.Model.predict, Matrix.mul_apply, computeK, Matrix.of_apply, Fin.sum_univ_one, Fin.isValue, hk,
      kernel_along, corr1]
    rw [← Real.exp_sum, Finset.sum_neg_distrib, ← Finset.sum_mul, ← ha, ← hz, hC]
    ring
  have hd : HasDerivAt (fun t => C * rexp (-(a * |t - z|))) (C * (rexp (-(a * (ε / 2))) * -a)) (x j) := by
    have h1 : HasDerivAt (fun t : ℝ => |t - z|) 1 (x j) :=
      (hasDerivAt_abs_pos (sub_pos.2 (by rw [hx]; linarith))).comp_sub_const (x j) z
    have := (((h1.const_mul a).neg).exp).const_mul C
    refine this.congr_deriv ?_
    simp [hx]
    exact Or.inl (Or.inl (by positivity))
  simp only [Sparse.Model.predictGradients, Sparse.Model.centralDiff, e, hd.deriv]
  have e1 : |x j + ε - z| = ε / 2 + ε := by rw [hx, show z + ε / 2 + ε - z = ε / 2 + ε by ring, abs_of_pos (by positivity)]
  have e2 : |x j - ε - z| = ε / 2 := by
    rw [hx, show z + ε / 2 - ε - z = -(ε / 2) by ring, abs_neg, abs_of_pos (by positivity)]
  rw [e1, e2]
  set E := rexp (-(a * (ε / 2))) with hE
  have hE0 : 0 < E := exp_pos _
  have e3 : rexp (-(a * (ε / 2 + ε))) = E * rexp (-(a * ε)) := by rw [hE, ← exp_add]; congr 1; ring
  rw [e3]
  set q := rexp (-(a * ε)) with hq
  have hq1 : 1 - a * ε ≤ q := by rw [hq]; linarith [add_one_le_exp (-(a * ε))]
  refine ⟨mul_ne_zero hC0 (mul_ne_zero hE0.ne' (neg_ne_zero.2 ha0.ne')), ?_⟩
  clear_value C E q
  have e4 : (C * (E * q) - C * E) / (2 * ε) - C * (E * -a) = C * E * (a - (1 - q) / (2 * ε)) := by
    field_simp
    ring
  have h5 : (1 - q) / (2 * ε) ≤ a / 2 := by
    rw [div_le_div_iff₀ (by positivity) (by norm_num)]
    nlinarith
  rw [e4, abs_mul, abs_mul, abs_mul, abs_mul, abs_neg, abs_of_pos hE0, abs_of_pos ha0, abs_of_pos (by linarith : 0 < a - (1 - q) / (2 * ε))]
  have : 0 ≤ |C| * E := by positivity
  nlinarith

/-- Case of the theorems on errors: derivative of `3 (1 + √3 |t|) exp(-√3 |t|)`. -/
example (x : Fin 1 → ℝ) : |(exSparse .matern32).predictGradients (1 / 1000) x 0 -
    deriv (fun t => (exSparse .matern32).predict (Function.update x 0 t)) (x 0)| ≤ 1 / 10000 := by
  refine ((C110_mean_kernels_partial (exSparse .matern32) zero_le_one (fun _ => zero_le_one) x 0 (1 / 1000) (by norm_num)
    (by simp [exSparse])).2).trans ?_
  have h3 : √(3 : ℝ) ≤ 2 := by rw [Real.sqrt_le_left (by norm_num)]; norm_num
  have h0 := Real.sqrt_nonneg (3 : ℝ)
  have : (4 / 3 * √(3 : ℝ)) ^ 3 ≤ (8 / 3) ^ 3 := pow_le_pow_left₀ (by positivity) (by linarith) 3
  simp only [exSparse, kernelConst, Matrix.of_apply, Fin.sum_univ_one, abs_one, mul_one, one_mul]
  rw [abs_of_pos (by norm_num : (0 : ℝ) < 3)]
  nlinarith

/-- Meets the hypotheses of `C110_variance_kernels_partial` with a corner at the origin. -/
example (x : Fin 1 → ℝ) (hx : 1 ≤ x 0) : |(exSparse .absoluteExponential).predictVarGradients (1 / 100) x 0 -
    deriv (fun t => (exSparse .absoluteExponential).predictVar (Function.update x 0 t)) (x 0)| ≤ 1 / 10000 := by
  refine ((C110_variance_kernels_partial (exSparse .absoluteExponential) (fun _ => zero_le_one) x 0 (1 / 100) (by norm_num)
    (fun _ i => ?_) fun t _ => exSparse_var _ _).2).trans ?_
  · simp only [exSparse, sub_zero]
    rw [abs_of_pos (by linarith)]
    linarith
  · simp only [exSparse, kernelConst, Matrix.of_apply, Fin.sum_univ_one, abs_one, mul_one]
    rw [abs_of_pos (by norm_num : (0 : ℝ) < 1 / 2)]
    norm_num

/-- Meets the hypotheses of `C110_refuted_corner`. -/
example : |deriv (fun t => (exSparse .absoluteExponential).predict (Function.update (fun _ => 1 / 200) 0 t)) (1 / 200)| / 2 ≤
    |(exSparse .absoluteExponential).predictGradients (1 / 100) (fun _ => 1 / 200) 0 -
      deriv (fun t => (exSparse .absoluteExponential).predict (Function.update (fun _ => 1 / 200) 0 t)) (1 / 200)| :=
  (C110_refuted_corner (exSparse .absoluteExponential) rfl one_pos (fun _ => zero_le_one) (by simp [exSparse])
    (fun _ => 1 / 200) 0 ⟨0, by simp [exSparse]⟩ (1 / 100) (by norm_num) (by simp [exSparse]; norm_num)).2

end Verif.Props
