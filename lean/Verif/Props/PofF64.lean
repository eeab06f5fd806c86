import Verif.Model.PofF64
import Verif.Props.Dominance

/-!
# C154: probability of feasibility in double precision
-/

set_option autoImplicit false

namespace Verif.Spec

open Verif

/-- The library functions are decent: `erfc` returns a value between 0 and 2, at most `δ` away from the exact one, `sqrt` is
accurate. -/
structure Decent (f : EiF64.Fns) (δ : ℝ) : Prop where
  erfc_range : ∀ x, 0 ≤ f.erfc x ∧ f.erfc x ≤ 2
  erfc_acc : ∀ x, |f.erfc x - Criteria.erfc x| ≤ δ
  sqrt_acc : ∀ x, Criteria.eps ≤ x → |f.sqrt x - √x| ≤ √x / 10 ^ 15

/-- The logarithm of the library, between the machine precision and 1. -/
structure DecentLn (ln : ℝ → ℝ) : Prop where
  nonpos : ∀ x, Criteria.eps ≤ x → x ≤ 1 → ln x ≤ 0
  ge : ∀ x, Criteria.eps ≤ x → x ≤ 1 → -37 ≤ ln x

end Verif.Spec

namespace Verif.Props

open Verif Verif.Spec Verif.F64 Verif.PofF64 MeasureTheory ProbabilityTheory

variable {f : EiF64.Fns} {δ : ℝ}

theorem isF64_one : IsF64 1 := ⟨1, 0, by norm_num, by norm_num, by norm_num⟩

/-- Exactly the numbers up to half the smallest positive number are rounded to 0. -/
theorem rnd_eq_zero_iff (x : ℝ) : rnd x = 0 ↔ |x| ≤ 2 ^ (-1075 : ℤ) := by
  have hp := zpow2_pos (-1074)
  have e75 : (2 : ℝ) ^ (-1075 : ℤ) = 2 ^ (-1074 : ℤ) / 2 := by
    rw [show (-1075 : ℤ) = -1074 - 1 by norm_num, zpow_sub_one₀ (by norm_num)]; ring
  constructor
  · intro h
    have h1 := (rnd_nearest x).2 _ (isF64_zpow (le_refl (-1074)))
    have h2 := (rnd_nearest x).2 _ (isF64_neg (isF64_zpow (le_refl (-1074))))
    rw [h, zero_sub, abs_neg] at h1 h2
    rw [e75]
    rcases abs_cases x with ⟨a, b⟩ | ⟨a, b⟩
    · rcases abs_cases ((2 : ℝ) ^ (-1074 : ℤ) - x) with ⟨c, d⟩ | ⟨c, d⟩ <;> linarith
    · rcases abs_cases (-(2 : ℝ) ^ (-1074 : ℤ) - x) with ⟨c, d⟩ | ⟨c, d⟩ <;> linarith
  · intro h
    by_cases hx : x = 0
    · rw [hx, rnd_zero]
    have he : expo x = -1074 := by
      unfold expo
      refine max_eq_right ?_
      have := Int.zpow_log_le_self (b := 2) (by norm_num) (abs_pos.2 hx)
      have h2 : ((2 : ℕ) : ℝ) ^ Int.log 2 |x| ≤ 2 ^ (-1075 : ℤ) := this.trans h
      push_cast at h2
      have := (zpow_le_zpow_iff_right₀ (by norm_num : (1 : ℝ) < 2)).1 h2
      omega
    unfold rnd
    rw [he]
    suffices roundEven (x / 2 ^ (-1074 : ℤ)) = 0 by rw [this]; simp
    have h3 : |x / 2 ^ (-1074 : ℤ)| ≤ 1 / 2 := by
      rw [abs_div, abs_of_pos hp, div_le_iff₀ hp]
      linarith
    rcases h3.lt_or_eq with h4 | h4
    · exact roundEven_eq (by simpa using h4)
    · have ht := roundEven_tie (n := 0) (by simp)
      rcases (abs_eq (by norm_num)).1 h4 with h5 | h5
      · rw [h5]; simpa using ht.1
      · rw [h5]; simpa using ht.2

/-! ## Range -/

theorem cdf_range (hf : Decent f δ) (u : ℝ) : 0 ≤ EiF64.normCdf f u ∧ EiF64.normCdf f u ≤ 1 := by
  have h := hf.erfc_range (div (-u) EiF64.sqrt2)
  exact ⟨rnd_nonneg (by linarith [h.1]), rnd_le isF64_one (by linarith [h.2])⟩

theorem pof_range (hf : Decent f δ) (c : Cstr) : 0 ≤ pof f c ∧ pof f c ≤ 1 := by
  unfold pof
  split_ifs
  · norm_num
  · exact cdf_range hf _

theorem pofs_append (cs : List Cstr) (c : Cstr) : pofs f (cs ++ [c]) = mul (pofs f cs) (pof f c) := by
  simp [pofs]

/-- The computed probabilities are between 0 and 1, and one more constraint never raises the probability that all hold. -/
theorem C154_range (hf : Decent f δ) (cs : List Cstr) (c : Cstr) :
    (0 ≤ pof f c ∧ pof f c ≤ 1) ∧ (0 ≤ pofs f cs ∧ pofs f cs ≤ 1) ∧ pofs f (cs ++ [c]) ≤ pofs f cs := by
  have key : 0 ≤ pofs f cs ∧ pofs f cs ≤ 1 ∧ IsF64 (pofs f cs) := by
    induction cs using List.reverseRecOn with
    | nil => exact ⟨by simp [pofs], by simp [pofs], by simpa [pofs] using isF64_one⟩
    | append_singleton cs c ih =>
      obtain ⟨h1, h2, h3⟩ := ih
      have hc := pof_range hf c
      rw [pofs_append]
      refine ⟨rnd_nonneg (mul_nonneg h1 hc.1), rnd_le isF64_one ?_, rnd_isF64 _⟩
      calc pofs f cs * pof f c ≤ 1 * 1 := mul_le_mul h2 hc.2 hc.1 zero_le_one
        _ = 1 := one_mul 1
  refine ⟨pof_range hf c, ⟨key.1, key.2.1⟩, ?_⟩
  rw [pofs_append]
  exact rnd_le key.2.2 (mul_le_of_le_one_right key.1 (pof_range hf c).2)

/-! ## Order -/

/-- A lower predicted constraint, or a larger tolerance, never gives a lower probability, if `erfc` never increases. -/
theorem C154_monotone (hf : Decent f δ) (he : Antitone f.erfc) (c c' : Cstr) (hv : c.var = c'.var) (ht : c.tol ≤ c'.tol)
    (hp : c'.pred ≤ c.pred) : pof f c ≤ pof f c' := by
  unfold pof
  rw [← hv]
  split_ifs with h
  · exact le_rfl
  have hs : 0 ≤ f.sqrt c.var := by
    have := abs_le.1 (hf.sqrt_acc c.var (not_lt.1 h))
    have := Real.sqrt_nonneg c.var
    linarith
  have h2 : (0 : ℝ) ≤ EiF64.sqrt2 := by norm_num [EiF64.sqrt2]
  refine rnd_mono (mul_le_mul_of_nonneg_left (he (rnd_mono ?_)) (by norm_num))
  refine div_le_div_of_nonneg_right (neg_le_neg (rnd_mono ?_)) h2
  exact div_le_div_of_nonneg_right (rnd_mono (by linarith)) hs

/-- So a point predicted better on every constraint, with the same variances, never has a lower probability that all
hold. -/
theorem C154_all_monotone (hf : Decent f δ) (he : Antitone f.erfc) (cs cs' : List Cstr)
    (h : List.Forall₂ (fun c c' : Cstr => c.var = c'.var ∧ c.tol ≤ c'.tol ∧ c'.pred ≤ c.pred) cs cs') :
    pofs f cs ≤ pofs f cs' := by
  suffices key : ∀ a b : ℝ, 0 ≤ a → a ≤ b →
      cs.foldl (fun acc c => mul acc (pof f c)) a ≤ cs'.foldl (fun acc c => mul acc (pof f c)) b from key 1 1 zero_le_one le_rfl
  induction h with
  | nil => intro a b _ h; exact h
  | @cons c c' l l' hc _ ih =>
    intro a b ha hab
    have h1 := pof_range hf c
    have h2 := C154_monotone hf he c c' hc.1 hc.2.1 hc.2.2
    exact ih _ _ (rnd_nonneg (mul_nonneg ha h1.1)) (rnd_mono (mul_le_mul hab h2 h1.1 (ha.trans hab)))

/-! ## Underflow -/

/-- The objective is 0, as if the criterion were null, if and only if the product of criterion and probability is at most
half the smallest positive number. -/
theorem C154_zero_iff_partial (cs : List Cstr) (v scale : ℝ) (feasibility : Bool) :
    objective f cs v scale feasibility = 0 ↔
      |(if feasibility then div (-v) scale else -1) * pofs f cs| ≤ 2 ^ (-1075 : ℤ) := rnd_eq_zero_iff _

theorem fold_le (hf : Decent f δ) {B : ℝ} (hB : IsF64 B) (l : List Cstr) (a : ℝ) (h0 : 0 ≤ a) (h1 : a ≤ B) :
    0 ≤ l.foldl (fun acc c => mul acc (pof f c)) a ∧ l.foldl (fun acc c => mul acc (pof f c)) a ≤ B := by
  induction l generalizing a with
  | nil => exact ⟨h0, h1⟩
  | cons c l ih =>
    have hc := pof_range hf c
    exact ih _ (rnd_nonneg (mul_nonneg h0 hc.1)) (rnd_le hB ((mul_le_of_le_one_right h0 hc.2).trans h1))

theorem fold_mem (hf : Decent f δ) {A B : ℝ} (hA : IsF64 A) (hB : IsF64 B) (l : List Cstr) (a : ℝ) (h0 : 0 ≤ a) (h1 : a ≤ A)
    (c : Cstr) (hc : c ∈ l) (hAB : A * pof f c ≤ B ∨ rnd (A * pof f c) ≤ B) :
    l.foldl (fun acc c => mul acc (pof f c)) a ≤ B := by
  obtain ⟨l1, l2, rfl⟩ := List.append_of_mem hc
  rw [List.foldl_append, List.foldl_cons]
  have h2 := fold_le hf hA l1 a h0 h1
  have hp := pof_range hf c
  refine (fold_le hf hB l2 _ (rnd_nonneg (mul_nonneg h2.1 hp.1)) ?_).2
  have h3 := mul_le_mul_of_nonneg_right h2.2 hp.1
  rcases hAB with h | h
  · exact rnd_le hB (h3.trans h)
  · exact (rnd_mono h3).trans h

/-- C154 is refuted far from the feasible region: all points where two constraints are each less probable than
`2 ^ (-538)` are tied, whatever the criterion and whatever else is predicted, although the probability that all constraints
hold is not null. -/
theorem C154_refuted_ties (hf : Decent f δ) (cs : List Cstr) (c c' : Cstr) (v scale : ℝ) (feasibility : Bool)
    (h : [c, c'].Sublist cs) (hc : pof f c ≤ 2 ^ (-538 : ℤ)) (hc' : pof f c' ≤ 2 ^ (-538 : ℤ)) :
    pofs f cs = 0 ∧ objective f cs v scale feasibility = 0 ∧
      ((∀ c ∈ cs, Criteria.eps ≤ c.var) → 0 < (cs.map fun c => probBelow c.tol c.pred c.var.toNNReal).prod) := by
  have hF : IsF64 ((2 : ℝ) ^ (-538 : ℤ)) := isF64_zpow (by norm_num)
  have hz : pofs f cs = 0 := by
    obtain ⟨r1, r2, rfl, h1, h2⟩ := List.cons_sublist_iff.1 h
    rw [List.singleton_sublist] at h2
    unfold pofs
    rw [List.foldl_append]
    have a1 := fold_le hf isF64_one r1 1 zero_le_one le_rfl
    have a2 := fold_mem hf isF64_one hF r1 1 zero_le_one le_rfl c h1 (.inl (by rwa [one_mul]))
    refine le_antisymm ?_ (fold_le hf hF r2 _ a1.1 a2).1
    refine fold_mem hf hF isF64_zero r2 _ a1.1 a2 c' h2 (.inr (le_of_eq ((rnd_eq_zero_iff _).2 ?_)))
    have hp := pof_range hf c'
    have h5 := zpow2_pos (-538)
    rw [abs_of_nonneg (mul_nonneg h5.le hp.1)]
    calc (2 : ℝ) ^ (-538 : ℤ) * pof f c' ≤ 2 ^ (-538 : ℤ) * 2 ^ (-538 : ℤ) := mul_le_mul_of_nonneg_left hc' h5.le
      _ = 2 ^ (-1076 : ℤ) := by rw [← zpow_add₀ (by norm_num)]; norm_num
      _ ≤ 2 ^ (-1075 : ℤ) := zpow_le_zpow_right₀ (by norm_num) (by norm_num)
  refine ⟨hz, by rw [objective, hz, mul, mul_zero, rnd_zero], fun hv => List.prod_pos fun q hq => ?_⟩
  obtain ⟨c, hc, rfl⟩ := List.mem_map.1 hq
  have hv0 : 0 < c.var := Criteria.eps_pos.trans_le (hv c hc)
  rw [probBelow, Gauss.prob_eq c.pred (√c.var) c.tol c.var.toNNReal (Real.sqrt_pos.2 hv0)
    (by rw [Real.coe_toNNReal _ hv0.le, Real.sq_sqrt hv0.le])]
  exact Gauss.normCdf_pos _

/-- C154 is refuted where a constraint is known: below the machine precision of its variance it counts as violated,
whatever its prediction, and all such points are tied. -/
theorem C154_refuted_certain (hf : Decent f δ) (cs : List Cstr) (c : Cstr) (v scale : ℝ) (feasibility : Bool) (h : c ∈ cs)
    (hc : c.var < Criteria.eps) : pof f c = 0 ∧ pofs f cs = 0 ∧ objective f cs v scale feasibility = 0 := by
  have h0 : pof f c = 0 := by rw [pof, if_pos hc]
  have hz : pofs f cs = 0 :=
    le_antisymm (fold_mem hf isF64_one isF64_zero cs 1 zero_le_one le_rfl c h (.inl (by rw [h0, mul_zero])))
      (fold_le hf isF64_one cs 1 zero_le_one le_rfl).1
  exact ⟨h0, hz, by rw [objective, hz, mul, mul_zero, rnd_zero]⟩

/-! ## Accuracy -/

/-- `x` is `y` up to a relative error and an absolute one. -/
def Near (η t x y : ℝ) : Prop := |x - y| ≤ η * |y| + t

theorem Near.trans {η t η' t' x y z : ℝ} (h1 : Near η t x y) (h2 : Near η' t' z x) (he : 0 ≤ η') :
    Near (η + η' + η' * η) (t + t' + η' * t) z y := by
  unfold Near at *
  have a : |x| ≤ |y| + (η * |y| + t) := by
    have := abs_sub_abs_le_abs_sub x y
    linarith
  have b := abs_sub_le z x y
  have c := mul_le_mul_of_nonneg_left a he
  nlinarith

theorem near_rnd (x : ℝ) : Near (1 / 10 ^ 15) tiny (rnd x) x := by
  have := rnd_near x
  unfold Near
  linarith

theorem tiny_le' : tiny ≤ 1 / 10 ^ 30 := by
  unfold tiny
  have : (2 : ℝ) ^ (-1075 : ℤ) ≤ 2 ^ (-100 : ℤ) := zpow_le_zpow_right₀ (by norm_num) (by norm_num)
  refine this.trans ?_
  norm_num

theorem pdf_le (u : ℝ) : Criteria.normPdf u ≤ 1 / 2 ∧ |u| * Criteria.normPdf u ≤ 1 / 2 := by
  have hs : (2 : ℝ) ≤ √(2 * Real.pi) := Real.le_sqrt_of_sq_le (by linarith [Real.pi_gt_three])
  have hs0 : (0 : ℝ) < √(2 * Real.pi) := by linarith
  have hE : Real.exp (-0.5 * u * u) ≤ 1 := Real.exp_le_one_iff.2 (by nlinarith [mul_self_nonneg u])
  have hE' : |u| * Real.exp (-0.5 * u * u) ≤ 1 := by
    have h1 : |u| ≤ Real.exp (0.5 * u * u) := by
      have := Real.add_one_le_exp (0.5 * u * u)
      nlinarith [sq_abs u, sq_nonneg (|u| - 1)]
    calc |u| * Real.exp (-0.5 * u * u) ≤ Real.exp (0.5 * u * u) * Real.exp (-0.5 * u * u) :=
          mul_le_mul_of_nonneg_right h1 (Real.exp_pos _).le
      _ = 1 := by rw [← Real.exp_add]; ring_nf; exact Real.exp_zero
  unfold Criteria.normPdf
  constructor
  · rw [div_le_iff₀ hs0]; linarith
  · rw [← mul_div_assoc, div_le_iff₀ hs0]; linarith

theorem cdf_near {η t u w : ℝ} (hη : 0 ≤ η) (hη' : η ≤ 1 / 2) (ht : 0 ≤ t) (h : Near η t w u) :
    |Criteria.normCdf w - Criteria.normCdf u| ≤ η + t := by
  have key : ∃ x, |Criteria.normCdf w - Criteria.normCdf u| = |w - u| * Criteria.normPdf x ∧ |u| ≤ |x| + |w - u| := by
    have hcont : Continuous Criteria.normCdf :=
      continuous_iff_continuousAt.2 fun x => (Gauss.hasDerivAt_normCdf x).continuousAt
    have mvt : ∀ a b : ℝ, a < b → ∃ x, a < x ∧ x < b ∧ Criteria.normCdf b - Criteria.normCdf a = (b - a) * Criteria.normPdf x := by
      intro a b h1
      obtain ⟨x, hx, e⟩ := exists_hasDerivAt_eq_slope Criteria.normCdf Criteria.normPdf h1 hcont.continuousOn
        fun x _ => Gauss.hasDerivAt_normCdf x
      exact ⟨x, hx.1, hx.2, by rw [e]; field_simp [(sub_pos.2 h1).ne']⟩
    rcases lt_trichotomy u w with h1 | h1 | h1
    · obtain ⟨x, x1, x2, e⟩ := mvt u w h1
      refine ⟨x, by rw [e, abs_mul, abs_of_pos (Gauss.normPdf_pos x)], ?_⟩
      have := abs_sub_abs_le_abs_sub u x
      rw [abs_of_neg (by linarith : u - x < 0)] at this
      rw [abs_of_pos (sub_pos.2 h1)]
      linarith
    · exact ⟨u, by simp [h1], by linarith [abs_nonneg (w - u)]⟩
    · obtain ⟨x, x1, x2, e⟩ := mvt w u h1
      refine ⟨x, by rw [abs_sub_comm, e, abs_mul, abs_of_pos (Gauss.normPdf_pos x), abs_sub_comm], ?_⟩
      have := abs_sub_abs_le_abs_sub u x
      rw [abs_of_pos (by linarith : 0 < u - x)] at this
      rw [abs_of_neg (sub_neg.2 h1)]
      linarith
  obtain ⟨x, e, hx⟩ := key
  obtain ⟨p1, p2⟩ := pdf_le x
  have p0 := Gauss.normPdf_pos x
  unfold Near at h
  rw [e]
  set D := |w - u|
  set P := Criteria.normPdf x
  have h1 : D * P ≤ η * (|u| * P) + t * P := by nlinarith
  have h2 : |u| * P ≤ 1 / 2 + D * P := by nlinarith
  have h3 : t * P ≤ t * (1 / 2) := mul_le_mul_of_nonneg_left p1 ht
  have h4 : 0 ≤ D * P := mul_nonneg (abs_nonneg _) p0.le
  have h5 := mul_le_mul_of_nonneg_left h2 hη
  nlinarith

theorem near_div {x s S θ : ℝ} (hS : 0 < S) (hθ : 0 ≤ θ) (hθ' : θ ≤ 1 / 2) (hs : |s - S| ≤ S * θ) :
    Near (2 * θ) 0 (x / s) (x / S) := by
  obtain ⟨h1, h2⟩ := abs_le.1 hs
  have hs0 : 0 < s := by nlinarith
  unfold Near
  have e : x / s - x / S = (S - s) / s * (x / S) := by field_simp
  rw [e, abs_mul, add_zero]
  refine mul_le_mul_of_nonneg_right ?_ (abs_nonneg _)
  rw [abs_div, abs_of_pos hs0, div_le_iff₀ hs0, abs_sub_comm]
  nlinarith

/-- The computed argument of `erfc` is close to the exact one. -/
theorem arg_near (hf : Decent f δ) (c : Cstr) (hv : Criteria.eps ≤ c.var) :
    Near (1 / 10 ^ 14) (1 / 10 ^ 14)
      (-(√2 * div (-div (sub c.tol c.pred) (f.sqrt c.var)) EiF64.sqrt2)) ((c.tol - c.pred) / √c.var) := by
  have ht := tiny_le'
  have ht0 := tiny_pos
  have hS : (2 : ℝ)⁻¹ ^ 26 ≤ √c.var := by
    refine Real.le_sqrt_of_sq_le (le_trans (le_of_eq ?_) hv)
    unfold Criteria.eps
    rw [← pow_mul]
  have hS0 : 0 < √c.var := lt_of_lt_of_le (by positivity) hS
  obtain ⟨s1, s2, s3⟩ := sqrt2_near
  have hq0 : (0 : ℝ) < √2 := by positivity
  have hq1 : 1 ≤ √2 := Real.le_sqrt_of_sq_le (by norm_num)
  set A := c.tol - c.pred
  set S := √c.var
  set a := sub c.tol c.pred with ha
  set s := f.sqrt c.var
  -- `a / S`
  have n1 : Near (1 / 10 ^ 15) (1 / 10 ^ 20) (a / S) (A / S) := by
    have h := near_rnd A
    unfold Near at h ⊢
    rw [← sub_div, abs_div, abs_div, abs_of_pos hS0, div_le_iff₀ hS0]
    have : rnd A = a := rfl
    rw [this] at h
    have h2 : tiny ≤ 1 / 10 ^ 20 * S := by
      refine ht.trans (le_trans ?_ (mul_le_mul_of_nonneg_left hS (by norm_num)))
      norm_num
    have e : (1 / 10 ^ 15 * (|A| / S) + 1 / 10 ^ 20) * S = 1 / 10 ^ 15 * |A| + 1 / 10 ^ 20 * S := by field_simp
    rw [e]
    linarith
  have n2 : Near (2 * (1 / 10 ^ 15)) 0 (a / s) (a / S) :=
    near_div hS0 (by norm_num) (by norm_num) (by have := hf.sqrt_acc c.var hv; rw [mul_one_div]; exact this)
  have n3 : Near (1 / 10 ^ 15) tiny (div a s) (a / s) := near_rnd _
  set b := div a s
  have n4 : Near (2 * (1 / 10 ^ 15)) 0 (√2 * (b / EiF64.sqrt2)) b := by
    have h := near_div (x := √2 * b) (s := EiF64.sqrt2) (S := √2) (θ := 1 / 10 ^ 15) hq0 (by norm_num) (by norm_num) (by
      refine s1.trans ?_
      have : 1 * (1 / 10 ^ 15) ≤ √2 * (1 / 10 ^ 15 : ℝ) := mul_le_mul_of_nonneg_right hq1 (by norm_num)
      linarith)
    rwa [mul_div_cancel_left₀ _ hq0.ne', mul_div_assoc] at h
  have n5 : Near (1 / 10 ^ 15) (2 * tiny) (-(√2 * div (-b) EiF64.sqrt2)) (√2 * (b / EiF64.sqrt2)) := by
    have h := near_rnd (-b / EiF64.sqrt2)
    unfold Near at h ⊢
    have e : -(√2 * div (-b) EiF64.sqrt2) - √2 * (b / EiF64.sqrt2) = -(√2 * (rnd (-b / EiF64.sqrt2) - -b / EiF64.sqrt2)) := by
      unfold div; ring
    have e2 : |√2 * (b / EiF64.sqrt2)| = √2 * |-b / EiF64.sqrt2| := by
      rw [abs_mul, abs_of_pos hq0, neg_div, abs_neg]
    rw [e, abs_neg, abs_mul, abs_of_pos hq0, e2]
    have := mul_le_mul_of_nonneg_left h hq0.le
    nlinarith
  have n := (((n1.trans n2 (by norm_num)).trans n3 (by norm_num)).trans n4 (by norm_num)).trans n5 (by norm_num)
  unfold Near at n ⊢
  refine n.trans (add_le_add (mul_le_mul_of_nonneg_right (by norm_num) (abs_nonneg _)) ?_)
  generalize tiny = τ at *
  norm_num at *
  linarith

theorem pof_near (hf : Decent f δ) (c : Cstr) (hv : Criteria.eps ≤ c.var) :
    |pof f c - probBelow c.tol c.pred c.var.toNNReal| ≤ δ / 2 + 3 / 10 ^ 14 := by
  have hv0 : 0 < c.var := Criteria.eps_pos.trans_le hv
  rw [probBelow, Gauss.prob_eq c.pred (√c.var) c.tol c.var.toNNReal (Real.sqrt_pos.2 hv0)
    (by rw [Real.coe_toNNReal _ hv0.le, Real.sq_sqrt hv0.le])]
  unfold pof
  rw [if_neg (not_lt.2 hv)]
  have h1 := cdf_near (by norm_num) (by norm_num) (by norm_num) (arg_near hf c hv)
  unfold EiF64.normCdf
  set w := div (-div (sub c.tol c.pred) (f.sqrt c.var)) EiF64.sqrt2
  have h2 := hf.erfc_acc w
  rw [erfc_eq] at h2
  have h3 := rnd_near (1 / 2 * f.erfc w)
  have h4 := hf.erfc_range w
  rw [abs_of_nonneg (a := 1 / 2 * f.erfc w) (by linarith [h4.1])] at h3
  have ht := tiny_le'
  have h5 : |mul (1 / 2) (f.erfc w) - 1 / 2 * f.erfc w| ≤ 2 / 10 ^ 15 := by
    unfold mul
    refine h3.trans ?_
    have := h4.2
    norm_num at *
    linarith
  rw [abs_le] at *
  constructor <;> norm_num at * <;> linarith [h5.1, h5.2, h1.1, h1.2, h2.1, h2.2]

theorem probBelow_range (t m : ℝ) (v : NNReal) : 0 ≤ probBelow t m v ∧ probBelow t m v ≤ 1 :=
  ⟨measureReal_nonneg, measureReal_le_one⟩

/-- The computed probability that all constraints hold is the exact one up to the accuracy of `erfc` and `4e-14`, per
constraint. -/
theorem C154_accurate (hf : Decent f δ) (cs : List Cstr) (hv : ∀ c ∈ cs, Criteria.eps ≤ c.var) :
    |pofs f cs - (cs.map fun c => probBelow c.tol c.pred c.var.toNNReal).prod| ≤ cs.length * (δ / 2 + 4 / 10 ^ 14) := by
  induction cs using List.reverseRecOn with
  | nil => simp [pofs]
  | append_singleton cs c ih =>
    have ih := ih fun c' h => hv c' (by simp [h])
    have hc := pof_near hf c (hv c (by simp))
    have hr := C154_range hf cs c
    have hq := probBelow_range c.tol c.pred c.var.toNNReal
    rw [pofs_append, List.map_append, List.prod_append, List.length_append]
    simp only [List.map_cons, List.map_nil, List.prod_singleton, List.length_singleton]
    set P := pofs f cs
    set Q := (cs.map fun c => probBelow c.tol c.pred c.var.toNNReal).prod
    set p := pof f c
    set q := probBelow c.tol c.pred c.var.toNNReal
    have h1 := rnd_near (P * p)
    have hPp : P * p ≤ 1 := by
      calc P * p ≤ 1 * 1 := mul_le_mul hr.2.1.2 hr.1.2 hr.1.1 zero_le_one
        _ = 1 := one_mul 1
    rw [abs_of_nonneg (a := P * p) (mul_nonneg hr.2.1.1 hr.1.1)] at h1
    have ht := tiny_le'
    have h2 : |mul P p - P * p| ≤ 2 / 10 ^ 15 := by
      unfold mul
      refine h1.trans ?_
      norm_num at *
      linarith
    have e : mul P p - Q * q = (mul P p - P * p) + P * (p - q) + (P - Q) * q := by ring
    have h3 : |P * (p - q)| ≤ |p - q| := by
      rw [abs_mul, abs_of_nonneg hr.2.1.1]
      exact mul_le_of_le_one_left (abs_nonneg _) hr.2.1.2
    have h4 : |(P - Q) * q| ≤ |P - Q| := by
      rw [abs_mul, abs_of_nonneg hq.1]
      exact mul_le_of_le_one_right (abs_nonneg _) hq.2
    have h5 := abs_add_three (mul P p - P * p) (P * (p - q)) ((P - Q) * q)
    rw [e]
    push_cast
    norm_num at *
    nlinarith

/-! ## Logarithms -/

/-- The sum of logarithms is never positive, nor less than -37 per constraint. -/
theorem C154_log_range (hf : Decent f δ) (ln : ℝ → ℝ) (hln : DecentLn ln) (cs : List Cstr) (hk : cs.length ≤ 10 ^ 12) :
    -37 * cs.length ≤ logpofs f ln cs ∧ logpofs f ln cs ≤ 0 := by
  induction cs using List.reverseRecOn with
  | nil => simp [logpofs]
  | append_singleton cs c ih =>
    rw [List.length_append, List.length_singleton] at hk ⊢
    have ih := ih (by omega)
    have e : logpofs f ln (cs ++ [c]) = add (logpofs f ln cs) (ln (max (pof f c) Criteria.eps)) := by simp [logpofs]
    have hm : max (pof f c) Criteria.eps ≤ 1 := max_le (pof_range hf c).2 eps_lt_one.le
    have h1 := hln.nonpos _ (le_max_right _ _) hm
    have h2 := hln.ge _ (le_max_right (pof f c) Criteria.eps) hm
    rw [e]
    refine ⟨le_rnd ?_ ?_, rnd_nonpos (by linarith [ih.2])⟩
    · refine ⟨-37 * (cs.length + 1), 0, ?_, by norm_num, by push_cast; ring⟩
      rw [abs_mul, abs_of_nonneg (by positivity : (0 : ℤ) ≤ (cs.length : ℤ) + 1)]
      norm_num
      omega
    · push_cast
      linarith [ih.1]

/-! ## Correctly rounded functions -/

theorem ideal_decent : Decent idealFns (1 / 10 ^ 14) := by
  have hr : ∀ x, 0 ≤ Criteria.erfc x ∧ Criteria.erfc x ≤ 2 := by
    intro x
    rw [erfc_eq, Gauss.normCdf_eq_prob]
    have h1 : 0 ≤ (gaussianReal 0 1).real (Set.Iic (-(√2 * x))) := measureReal_nonneg
    have h2 : (gaussianReal 0 1).real (Set.Iic (-(√2 * x))) ≤ 1 := measureReal_le_one
    constructor <;> linarith
  have i2 : IsF64 2 := ⟨2, 0, by norm_num, by norm_num, by norm_num⟩
  have ht := tiny_le'
  have ht0 := tiny_pos
  refine ⟨fun x => ⟨rnd_nonneg (hr x).1, rnd_le i2 (hr x).2⟩, fun x => ?_, fun x hx => ?_⟩
  · have h := rnd_near (Criteria.erfc x)
    rw [abs_of_nonneg (a := Criteria.erfc x) (hr x).1] at h
    refine h.trans ?_
    have := (hr x).2
    norm_num at *
    linarith
  · have h := rnd_rel_tiny √x
    have hS : (2 : ℝ)⁻¹ ^ 26 ≤ √x := by
      refine Real.le_sqrt_of_sq_le (le_trans (le_of_eq ?_) hx)
      unfold Criteria.eps
      rw [← pow_mul]
    rw [abs_of_nonneg (a := √x) (Real.sqrt_nonneg x)] at h
    refine h.trans ?_
    unfold tiny at ht
    generalize (2 : ℝ) ^ (-1075 : ℤ) = τ at *
    norm_num at *
    linarith

theorem ideal_antitone : Antitone idealFns.erfc := by
  intro x y h
  refine rnd_mono ?_
  rw [erfc_eq, erfc_eq]
  have h2 : (0 : ℝ) ≤ √2 := by positivity
  have := normCdf_mono (neg_le_neg (mul_le_mul_of_nonneg_left h h2))
  linarith

/-- Two constraints with correctly rounded functions. -/
example : |pofs idealFns [⟨0, 3, 2⟩, ⟨1, 1 / 2, 1⟩] - probBelow 0 3 2 * probBelow 1 (1 / 2) 1| ≤ 1 / 10 ^ 13 := by
  have h := C154_accurate ideal_decent [⟨0, 3, 2⟩, ⟨1, 1 / 2, 1⟩] (by
    have := eps_lt_one
    intro c hc
    simp only [List.mem_cons, List.not_mem_nil, or_false] at hc
    rcases hc with rfl | rfl <;> simp only <;> linarith)
  simp only [List.map_cons, List.map_nil, List.prod_cons, List.prod_nil, mul_one, List.length_cons, List.length_nil,
    Real.toNNReal_ofNat, Real.toNNReal_one] at h
  refine h.trans ?_
  norm_num

/-- A constraint met for certain, with a margin of 1. -/
example : pofs idealFns [⟨0, -1, 0⟩, ⟨1, 1 / 2, 1⟩] = 0 :=
  (C154_refuted_certain ideal_decent _ ⟨0, -1, 0⟩ 0 1 true (by simp) Criteria.eps_pos).2.1

/-- A lower prediction. -/
example : pof idealFns ⟨0, 3, 2⟩ ≤ pof idealFns ⟨0, 2, 2⟩ :=
  C154_monotone ideal_decent ideal_antitone _ _ rfl le_rfl (by norm_num)

/-- A constraint predicted 39 standard deviations above its tolerance. -/
theorem pof_far : pof idealFns ⟨0, 39, 1⟩ ≤ 2 ^ (-538 : ℤ) := by
  have i1 : idealFns.sqrt 1 = 1 := by simp [idealFns, rnd_of_isF64 isF64_one]
  have i39 : IsF64 39 := ⟨39, 0, by norm_num, by norm_num, by norm_num⟩
  have e : div (sub 0 39) (idealFns.sqrt 1) = -39 := by
    simp only [i1, sub, div, zero_sub, rnd_of_isF64 (isF64_neg i39), div_one]
  simp only [pof]
  rw [if_neg (not_lt.2 eps_lt_one.le), e]
  unfold EiF64.normCdf
  rw [neg_neg]
  obtain ⟨a1, -, -⟩ := erfc_arg (z := 39) (by norm_num) (by norm_num)
  set w := div 39 EiF64.sqrt2
  have hF : IsF64 ((2 : ℝ) ^ (-538 : ℤ)) := isF64_zpow (by norm_num)
  have hw : Criteria.normCdf (-(√2 * w)) ≤ Criteria.normCdf (-38) := normCdf_mono (by
    have := (abs_le.1 a1).1
    norm_num at *
    linarith)
  have h38 : Criteria.normCdf (-38) ≤ 2 ^ (-540 : ℤ) := by
    have h := Gauss.h_pos (-38)
    have hd : Criteria.normPdf (-38) ≤ Real.exp (-722) := by
      have hs : (1 : ℝ) ≤ √(2 * Real.pi) := Real.le_sqrt_of_sq_le (by linarith [Real.pi_gt_three])
      unfold Criteria.normPdf
      rw [show (-0.5 : ℝ) * -38 * -38 = -722 by norm_num]
      exact div_le_self (Real.exp_pos _).le hs
    have he : Real.exp (-722) ≤ 2 ^ (-722 : ℤ) := by
      have h1 := Real.exp_one_gt_d9
      rw [Real.exp_neg, zpow_neg, show (722 : ℝ) = ((722 : ℕ) : ℝ) * 1 by norm_num, Real.exp_nat_mul]
      refine inv_anti₀ (by positivity) ?_
      have h2 : (2 : ℝ) ≤ Real.exp 1 := by linarith
      exact_mod_cast pow_le_pow_left₀ (by norm_num) h2 722
    have hz : (2 : ℝ) ^ (-722 : ℤ) ≤ 2 ^ (-540 : ℤ) := zpow_le_zpow_right₀ (by norm_num) (by norm_num)
    have hp := zpow2_pos (-540)
    unfold Gauss.h at h
    generalize (2 : ℝ) ^ (-540 : ℤ) = B at *
    generalize (2 : ℝ) ^ (-722 : ℤ) = C at *
    linarith
  refine rnd_le hF ?_
  have h2 : idealFns.erfc w ≤ 2 ^ (-538 : ℤ) := by
    refine rnd_le hF ?_
    rw [erfc_eq]
    have e4 : (2 : ℝ) ^ (-538 : ℤ) = 4 * 2 ^ (-540 : ℤ) := by
      rw [show (-538 : ℤ) = 2 + -540 by norm_num, zpow_add₀ (by norm_num)]; norm_num
    have hp := zpow2_pos (-540)
    rw [e4]
    generalize (2 : ℝ) ^ (-540 : ℤ) = B at *
    linarith
  have hp := zpow2_pos (-538)
  generalize (2 : ℝ) ^ (-538 : ℤ) = B at *
  linarith

/-- Two such constraints: every criterion, every value of a third constraint. -/
example (c : Cstr) (v : ℝ) : objective idealFns [⟨0, 39, 1⟩, c, ⟨0, 39, 1⟩] v 1 true = 0 :=
  (C154_refuted_ties ideal_decent _ _ _ v 1 true (by simp) pof_far pof_far).2.1

end Verif.Props
