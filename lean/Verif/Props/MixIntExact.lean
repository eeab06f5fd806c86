import Verif.Props.MixInt
import Verif.Props.MixIntModel

/-!
# Lists of variables for which points are relaxed and decoded correctly (C09, C101, C102)
-/

set_option autoImplicit false
set_option linter.unusedSectionVars false

namespace Verif.Props

open Verif Spec MixInt

variable {K : Type} [Field K] [LinearOrder K] [IsStrictOrderedRing K] [FloorRing K]

theorem relaxed_append {A B : List (XType K)} {x v x' v' : List K} (h : Relaxed A x v) (h' : Relaxed B x' v') :
    Relaxed (A ++ B) (x ++ x') (v ++ v') := by
  induction h with
  | nil => exact h'
  | float h1 h2 _ ih => exact .float h1 h2 ih
  | int h1 h2 _ ih => exact .int h1 h2 ih
  | ord h1 _ ih => exact .ord h1 ih
  | enum h1 _ ih =>
    simp only [List.cons_append, List.append_assoc]
    exact .enum h1 ih

theorem relaxed_exists (ts : List (XType K)) (hok : ∀ t ∈ ts, TypeOk t) : ∃ x v, Relaxed ts x v := by
  induction ts with
  | nil => exact ⟨[], [], .nil⟩
  | cons t ts ih =>
    obtain ⟨x, v, h⟩ := ih fun t ht => hok t (by simp [ht])
    have ht := hok t (by simp)
    cases t with
    | float l u => exact ⟨_, _, .float le_rfl ht h⟩
    | int l u => exact ⟨_, _, .int (z := l) le_rfl ht h⟩
    | ord vs => exact ⟨_, _, .ord (List.head_mem ht) h⟩
    | enum n => exact ⟨_, _, .enum (oneHot_isMask (k := 0) ht) h⟩

theorem relaxed_dims {ts : List (XType K)} {x v : List K} (h : Relaxed ts x v) :
    x.length = ts.length ∧ v.length = relaxedDim ts := by
  induction h with
  | nil => simp [relaxedDim]
  | float _ _ _ ih => simp only [relaxedDim, List.map_cons, List.sum_cons, List.length_cons] at ih ⊢; omega
  | int _ _ _ ih => simp only [relaxedDim, List.map_cons, List.sum_cons, List.length_cons] at ih ⊢; omega
  | ord _ _ ih => simp only [relaxedDim, List.map_cons, List.sum_cons, List.length_cons] at ih ⊢; omega
  | enum hm _ ih =>
    simp only [relaxedDim, List.map_cons, List.sum_cons, List.length_cons, List.length_append, hm.1] at ih ⊢
    omega

theorem relaxedDim_ge (ts : List (XType K)) (hok : ∀ t ∈ ts, TypeOk t) :
    ts.length ≤ relaxedDim ts ∧ ∀ n, .enum n ∈ ts → n ≠ 1 → ts.length < relaxedDim ts := by
  induction ts with
  | nil => simp [relaxedDim]
  | cons t ts ih =>
    obtain ⟨h1, h2⟩ := ih fun t ht => hok t (by simp [ht])
    have ht := hok t (by simp)
    constructor
    · simp only [relaxedDim, List.map_cons, List.sum_cons, List.length_cons] at h1 ⊢
      cases t <;> simp only [TypeOk] at ht ⊢ <;> omega
    · intro n hn hn1
      simp only [relaxedDim, List.map_cons, List.sum_cons, List.length_cons] at h1 h2 ⊢
      rcases List.mem_cons.1 hn with rfl | hn
      · simp only [TypeOk] at ht ⊢; omega
      · have := h2 n hn hn1
        cases t <;> simp only [TypeOk] at ht ⊢ <;> omega

theorem pairwise_split {α : Type} {R : α → α → Prop} {l : List α} (h : ¬ l.Pairwise R) :
    ∃ A b B a, l = A ++ b :: B ∧ a ∈ A ∧ ¬ R a b := by
  induction l with
  | nil => exact absurd List.Pairwise.nil h
  | cons c l ih =>
    rw [List.pairwise_cons] at h
    by_cases hl : l.Pairwise R
    · have : ¬ ∀ b ∈ l, R c b := fun h' => h ⟨h', hl⟩
      push Not at this
      obtain ⟨b, hb, hR⟩ := this
      obtain ⟨A, B, rfl⟩ := List.append_of_mem hb
      exact ⟨c :: A, b, B, c, rfl, by simp, hR⟩
    · obtain ⟨A, b, B, a, rfl, ha, hR⟩ := ih hl
      exact ⟨c :: A, b, B, a, rfl, by simp [ha], hR⟩

/-! ## Relaxing -/

theorem unfoldFrom_reads (x : List K) (t : XType K) (ht : ∀ n, t ≠ .enum n) (A B : List (XType K)) :
    ∀ i u r, unfoldFrom x i u (A ++ t :: B) = .ok r → r[relaxedDim A]? = x[u + relaxedDim A]? := by
  induction A with
  | nil =>
    intro i u r h
    cases t with
    | enum n => exact absurd rfl (ht n)
    | _ =>
      simp only [List.nil_append, unfoldFrom] at h
      cases hx : x[u]? with
      | none => simp [hx] at h
      | some a =>
        simp only [hx, bind_ok, Except.ok.injEq] at h
        obtain ⟨r', _, rfl⟩ := h
        simp [relaxedDim, hx]
  | cons s A ih =>
    intro i u r h
    cases s with
    | enum n =>
      simp only [List.cons_append, unfoldFrom] at h
      cases hx : x[i]? with
      | none => simp [hx] at h
      | some a =>
        simp only [hx] at h
        split_ifs at h
        simp only [bind_ok, Except.ok.injEq] at h
        obtain ⟨r', hr, rfl⟩ := h
        have := ih _ _ _ hr
        have e : relaxedDim (XType.enum n :: A) = n + relaxedDim A := by simp [relaxedDim]
        rw [e, List.getElem?_append_right (by simp [oneHot_length]), oneHot_length, Nat.add_sub_cancel_left, this]
        congr 1
        omega
    | _ =>
      simp only [List.cons_append, unfoldFrom] at h
      cases hx : x[u]? with
      | none => simp [hx] at h
      | some a =>
        simp only [hx, bind_ok, Except.ok.injEq] at h
        obtain ⟨r', hr, rfl⟩ := h
        have := ih _ _ _ hr
        simp only [relaxedDim, List.map_cons, List.sum_cons, Nat.add_comm 1] at this ⊢
        rw [List.getElem?_cons_succ, this]
        congr 1
        omega

theorem varies_ok {t : XType K} (h : Varies t) : TypeOk t := by
  cases t with
  | float l u => exact h.le
  | int l u => exact le_of_lt h
  | ord vs => obtain ⟨a, ha, _⟩ := h; exact List.ne_nil_of_mem ha
  | enum n => exact h

theorem varies_two {t : XType K} (h : Varies t) (ht : ∀ n, t ≠ .enum n) :
    ∃ a b, a ≠ b ∧ ∀ ts x v, Relaxed ts x v → Relaxed (t :: ts) (a :: x) (a :: v) ∧ Relaxed (t :: ts) (b :: x) (b :: v) := by
  cases t with
  | float l u => exact ⟨l, u, ne_of_lt h, fun ts x v hr => ⟨.float le_rfl (le_of_lt h) hr, .float (le_of_lt h) le_rfl hr⟩⟩
  | int l u =>
    exact ⟨(l : K), (u : K), by exact_mod_cast ne_of_lt h,
      fun ts x v hr => ⟨.int le_rfl (le_of_lt h) hr, .int (le_of_lt h) le_rfl hr⟩⟩
  | ord vs =>
    obtain ⟨a, ha, b, hb, hab⟩ := h
    exact ⟨a, b, hab, fun ts x v hr => ⟨.ord ha hr, .ord hb hr⟩⟩
  | enum n => exact absurd rfl (ht n)

/-- **C09**, exact condition for relaxing. For variables which can take two values or more, the relaxation of every point
is computed correctly if and only if no categorical variable with two levels or more is placed before a variable of
another type. -/
theorem C09_encode_iff (ts : List (XType K)) (hne : ts ≠ []) (hv : ∀ t ∈ ts, Varies t) :
    (∀ x u, Relaxed ts x u → toContinuousSpace ts x = .ok u) ↔
      ts.Pairwise fun a b => ∀ n, a = .enum n → (∀ m, b ≠ .enum m) → n = 1 := by
  refine ⟨fun h => ?_, fun h x u hr => C09_encode_partial ts hne h x u hr⟩
  by_contra hp
  obtain ⟨A, t, B, s, rfl, hs, hR⟩ := pairwise_split hp
  push Not at hR
  obtain ⟨n, rfl, ht, hn⟩ := hR
  have hA : ∀ t ∈ A, TypeOk t := fun t ht => varies_ok (hv t (by simp [ht]))
  obtain ⟨xa, ua, ra⟩ := relaxed_exists A hA
  obtain ⟨xb, ub, rb⟩ := relaxed_exists B fun t ht => varies_ok (hv t (by simp [ht]))
  obtain ⟨a, b, hab, h2⟩ := varies_two (hv t (by simp)) ht
  obtain ⟨r1, r2⟩ := h2 B xb ub rb
  obtain ⟨hxl, hul⟩ := relaxed_dims ra
  have hlt := (relaxedDim_ge A hA).2 n hs hn
  have key : ∀ c, Relaxed (t :: B) (c :: xb) (c :: ub) → some c = xb[relaxedDim A - A.length - 1]? := by
    intro c hc
    have h3 := h _ _ (relaxed_append ra hc)
    simp only [toContinuousSpace, bind_ok] at h3
    obtain ⟨_, _, h3⟩ := h3
    have h4 := unfoldFrom_reads _ t ht A B 0 0 _ h3
    rw [← hul, List.getElem?_append_right le_rfl, Nat.sub_self, List.getElem?_cons_zero, Nat.zero_add, hul,
      List.getElem?_append_right (by omega), hxl] at h4
    rw [h4]
    obtain ⟨k, hk⟩ : ∃ k, relaxedDim A - A.length = k + 1 := ⟨relaxedDim A - A.length - 1, by omega⟩
    rw [hk, List.getElem?_cons_succ, Nat.add_sub_cancel]
  have := (key a r1).trans (key b r2).symm
  exact hab (Option.some.inj this)

/-- A categorical variable of three levels in last position, and in first position. -/
example : (∀ x u, Relaxed [XType.float (0 : ℚ) 1, .enum 3] x u → toContinuousSpace [.float 0 1, .enum 3] x = .ok u) ∧
    ¬ ∀ x u, Relaxed [XType.enum 3, .float (0 : ℚ) 1] x u → toContinuousSpace [.enum 3, .float 0 1] x = .ok u := by
  constructor
  · rw [C09_encode_iff _ (by simp) (by simp [Varies])]
    simp
  · rw [C09_encode_iff _ (by simp) (by simp [Varies])]
    simp

/-! ## Decoding -/

theorem foldFrom_reads (w : List K) (m : ℕ) (A B : List (XType K)) :
    ∀ j u r, foldFrom w j u (A ++ .enum m :: B) = .ok r →
      ∃ k : ℕ, r[A.length]? = some (k : K) ∧ argmax ((w.drop (j + A.length)).take m) = .ok k := by
  induction A with
  | nil =>
    intro j u r h
    simp only [List.nil_append, foldFrom] at h
    split_ifs at h
    simp only [bind_ok, Except.ok.injEq] at h
    obtain ⟨k, hk, r', _, rfl⟩ := h
    exact ⟨k, by simp, hk⟩
  | cons s A ih =>
    intro j u r h
    have e : j + (s :: A).length = j + 1 + A.length := by simp only [List.length_cons]; omega
    cases s with
    | enum n =>
      simp only [List.cons_append, foldFrom] at h
      split_ifs at h
      simp only [bind_ok, Except.ok.injEq] at h
      obtain ⟨_, _, r', hr, rfl⟩ := h
      obtain ⟨k, h1, h2⟩ := ih _ _ _ hr
      exact ⟨k, by simpa using h1, by rw [e]; exact h2⟩
    | _ =>
      simp only [List.cons_append, foldFrom] at h
      cases hx : w[u]? with
      | none => simp [hx] at h
      | some a =>
        simp only [hx, bind_ok, Except.ok.injEq] at h
        obtain ⟨r', hr, rfl⟩ := h
        obtain ⟨k, h1, h2⟩ := ih _ _ _ hr
        exact ⟨k, by simpa using h1, by rw [e]; exact h2⟩

theorem foldFrom_relaxed_single (ts : List (XType K)) (pre : List K) (j : ℕ) {xs us : List K}
    (h : Relaxed ts xs us)
    (hn : ts.Pairwise fun a b => ∀ n m, a = .enum n → b = .enum m → n = 1 ∨ m = 1)
    (hj : j = pre.length ∨ j ≤ pre.length ∧ ∀ m, .enum m ∈ ts → m = 1) :
    foldFrom (pre ++ us) j pre.length ts = .ok xs := by
  induction h generalizing pre j with
  | nil => rfl
  | @float l up x ts xs us _ _ _ ih =>
    have := ih (pre ++ [x]) (j + 1) (List.pairwise_cons.1 hn).2 (by
      rcases hj with rfl | ⟨hj, hm⟩
      · left; simp
      · right; exact ⟨by simpa using hj, fun t ht => hm t (by simp [ht])⟩)
    simp only [List.append_assoc, List.singleton_append, List.length_append, List.length_singleton] at this
    simp [foldFrom, this, bind, Except.bind]
  | @int l up z ts xs us _ _ _ ih =>
    have := ih (pre ++ [(z : K)]) (j + 1) (List.pairwise_cons.1 hn).2 (by
      rcases hj with rfl | ⟨hj, hm⟩
      · left; simp
      · right; exact ⟨by simpa using hj, fun t ht => hm t (by simp [ht])⟩)
    simp only [List.append_assoc, List.singleton_append, List.length_append, List.length_singleton] at this
    simp [foldFrom, this, bind, Except.bind]
  | @ord vs x ts xs us _ _ ih =>
    have := ih (pre ++ [x]) (j + 1) (List.pairwise_cons.1 hn).2 (by
      rcases hj with rfl | ⟨hj, hm⟩
      · left; simp
      · right; exact ⟨by simpa using hj, fun t ht => hm t (by simp [ht])⟩)
    simp only [List.append_assoc, List.singleton_append, List.length_append, List.length_singleton] at this
    simp [foldFrom, this, bind, Except.bind]
  | @enum n k b ts xs us hb hr ih =>
    have hl := hb.1
    obtain ⟨h1, h2⟩ := List.pairwise_cons.1 hn
    have hjl : j ≤ pre.length := by rcases hj with rfl | ⟨h, _⟩ <;> omega
    have hk1 : 1 ≤ n := by have := hb.2.1; omega
    have hnext : j + 1 = (pre ++ b).length ∨ j + 1 ≤ (pre ++ b).length ∧ ∀ m, .enum m ∈ ts → m = 1 := by
      simp only [List.length_append, hl]
      by_cases hall : ∀ m, .enum m ∈ ts → m = 1
      · exact Or.inr ⟨by omega, hall⟩
      · push Not at hall
        obtain ⟨m, hm, hm1⟩ := hall
        left
        have e1 : n = 1 := (h1 _ hm n m rfl rfl).resolve_right hm1
        rcases hj with rfl | ⟨_, hj⟩
        · omega
        · exact absurd (hj m (by simp [hm])) hm1
    have := ih (pre ++ b) (j + 1) h2 hnext
    simp only [List.append_assoc, List.length_append, hl] at this
    have hle : j + n ≤ (pre ++ (b ++ us)).length := by simp; omega
    have harg : argmax (((pre ++ (b ++ us)).drop j).take n) = .ok k := by
      rcases hj with rfl | ⟨_, hj⟩
      · have htake : ((pre ++ (b ++ us)).drop pre.length).take n = b := by
          rw [List.drop_left, ← hl, List.take_left]
        rw [htake, argmax_mask hb]
      · have e1 : n = 1 := hj n (by simp)
        have e2 : k = 0 := by have := hb.2.1; omega
        subst e1 e2
        cases hd : (pre ++ (b ++ us)).drop j with
        | nil =>
          have := List.drop_eq_nil_iff.1 hd
          omega
        | cons c l => simp [argmax, argmaxLoop]
    rw [foldFrom, if_pos hle, harg]
    simp only [bind, Except.bind, this]

theorem window_get {ua ub : List K} (p m k i : ℕ) (hp : p < ua.length) (hi : i < m) :
    (((ua ++ (oneHot m k ++ ub)).drop p).take m)[i]? =
      some (if h : p + i < ua.length then ua[p + i] else if p + i - ua.length = k then 1 else 0) := by
  rw [List.getElem?_take_of_lt hi, List.getElem?_drop]
  by_cases h : p + i < ua.length
  · rw [List.getElem?_append_left h, dif_pos h, List.getElem?_eq_getElem h]
  · rw [List.getElem?_append_right (by omega), List.getElem?_append_left (by simp [oneHot_length]; omega), dif_neg h]
    have hlt : p + i - ua.length < m := by omega
    simp [oneHot, hlt]

/-- **C09**, exact condition for decoding. The relaxation of every point is decoded correctly if and only if no categorical
variable with two levels or more is placed before another one with two levels or more. -/
theorem C09_decode_iff (ts : List (XType K)) (hok : ∀ t ∈ ts, TypeOk t) :
    (∀ x u, Relaxed ts x u → toDiscreteSpace ts u = .ok x) ↔
      ts.Pairwise fun a b => ∀ n m, a = .enum n → b = .enum m → n = 1 ∨ m = 1 := by
  constructor
  · intro h
    by_contra hp
    obtain ⟨A, t, B, s, rfl, hs, hR⟩ := pairwise_split hp
    push Not at hR
    obtain ⟨n, m, rfl, rfl, hn, hm⟩ := hR
    have hA : ∀ t ∈ A, TypeOk t := fun t ht => hok t (by simp [ht])
    obtain ⟨xa, ua, ra⟩ := relaxed_exists A hA
    obtain ⟨xb, ub, rb⟩ := relaxed_exists B fun t ht => hok t (by simp [ht])
    obtain ⟨hxl, hul⟩ := relaxed_dims ra
    have hm1 : 1 ≤ m := hok (.enum m) (by simp)
    have hlt : A.length < ua.length := by rw [hul]; exact (relaxedDim_ge A hA).2 n hs hn
    have key : ∀ k < m, argmax (((ua ++ (oneHot m k ++ ub)).drop A.length).take m) = .ok k := by
      intro k hk
      have hr := relaxed_append ra (Relaxed.enum (oneHot_isMask (K := K) hk) rb)
      have h3 := h _ _ hr
      simp only [toDiscreteSpace, castRow_admissible hr.admissible, bind, Except.bind, fold] at h3
      obtain ⟨k', h4, h5⟩ := foldFrom_reads _ m A B 0 0 _ h3
      rw [← hxl, List.getElem?_append_right le_rfl, Nat.sub_self, List.getElem?_cons_zero, Option.some.injEq,
        Nat.cast_inj] at h4
      rw [Nat.zero_add] at h5
      rw [h5, ← h4]
    set W : ℕ → List K := fun k => ((ua ++ (oneHot m k ++ ub)).drop A.length).take m with hW
    have hlen : ∀ k, (W k).length = m := by
      intro k
      simp only [hW, List.length_take, List.length_drop, List.length_append, oneHot_length]
      omega
    have hget : ∀ k i (hi : i < m), (W k)[i]'(by rw [hlen]; exact hi) =
        if h : A.length + i < ua.length then ua[A.length + i] else if A.length + i - ua.length = k then 1 else 0 := by
      intro k i hi
      have := window_get (ub := ub) A.length m k i hlt hi
      rw [List.getElem?_eq_getElem (by have := hlen k; simp only [hW] at this; rw [this]; exact hi),
        Option.some.injEq] at this
      exact this
    have hne : ∀ k, W k ≠ [] := fun k hk => by have := hlen k; rw [hk] at this; simp at this; omega
    obtain ⟨k0, hk0, e0, hmax, _⟩ := argmax_spec (W 0) (hne 0)
    obtain ⟨k1, hk1, e1, _, hfirst⟩ := argmax_spec (W (m - 1)) (hne (m - 1))
    have : k0 = 0 := by rw [key 0 (by omega)] at e0; exact (Except.ok.inj e0).symm
    subst this
    have : k1 = m - 1 := by rw [key (m - 1) (by omega)] at e1; exact (Except.ok.inj e1).symm
    subst this
    have hf := hfirst 0 (by omega)
    rw [hget (m - 1) 0 (by omega), dif_pos (by omega), hget (m - 1) (m - 1) (by omega)] at hf
    have hge : ∀ i (hi : i < m), (W 0)[i]'(by rw [hlen]; exact hi) ≤ (W 0)[0] := fun i hi => hmax _ (List.getElem_mem _)
    by_cases hin : A.length + (m - 1) < ua.length
    · rw [dif_pos hin] at hf
      have := hge (m - 1) (by omega)
      rw [hget 0 (m - 1) (by omega), dif_pos hin, hget 0 0 (by omega), dif_pos (by omega)] at this
      exact absurd hf (not_lt.2 this)
    · rw [dif_neg hin, if_neg (by omega)] at hf
      have := hge (ua.length - A.length) (by omega)
      rw [hget 0 _ (by omega), dif_neg (by omega), if_pos (by omega), hget 0 0 (by omega), dif_pos (by omega)] at this
      have h01 : (1 : K) < 0 := this.trans_lt hf
      exact absurd h01 (not_lt.2 zero_le_one)
  · intro hn x u h
    have := foldFrom_relaxed_single ts [] 0 h hn (Or.inl rfl)
    simp only [List.nil_append, List.length_nil] at this
    simp [toDiscreteSpace, castRow_admissible h.admissible, fold, this, bind, Except.bind]

/-- Two categorical variables are never decoded correctly, whatever the number of their levels from two on. -/
example (n m : ℕ) (hn : 2 ≤ n) (hm : 2 ≤ m) :
    ¬ ∀ x u, Relaxed [XType.enum (K := ℚ) n, .enum m] x u → toDiscreteSpace [.enum n, .enum m] u = .ok x := by
  rw [C09_decode_iff _ (by simp [TypeOk]; omega)]
  simp
  omega

/-! ## Relaxing then decoding -/

theorem castRow_reads (t : XType K) (ht : ∀ n, t ≠ .enum n) (A B : List (XType K)) : ∀ w z w' z' : List K,
    castRow (A ++ t :: B) w = .ok w' → castRow (A ++ t :: B) z = .ok z' → w.length = z.length →
    w[relaxedDim A]? = z[relaxedDim A]? → w'[relaxedDim A]? = z'[relaxedDim A]? := by
  induction A with
  | nil =>
    intro w z w' z' hw hz hl h
    have e : relaxedDim ([] : List (XType K)) = 0 := rfl
    rw [e] at h ⊢
    cases w with
    | nil =>
      have : z = [] := List.length_eq_zero_iff.1 (by simpa using hl.symm)
      subst this
      rw [Except.ok.inj (hw.symm.trans hz)]
    | cons a w =>
      cases z with
      | nil => simp at hl
      | cons b z =>
        simp only [List.getElem?_cons_zero, Option.some.injEq] at h
        subst h
        cases t with
        | enum n => exact absurd rfl (ht n)
        | float l u =>
          simp only [List.nil_append, castRow, bind_ok, Except.ok.injEq] at hw hz
          obtain ⟨_, _, rfl⟩ := hw
          obtain ⟨_, _, rfl⟩ := hz
          rfl
        | int l u =>
          simp only [List.nil_append, castRow, bind_ok, Except.ok.injEq] at hw hz
          obtain ⟨_, _, rfl⟩ := hw
          obtain ⟨_, _, rfl⟩ := hz
          rfl
        | ord vs =>
          simp only [List.nil_append, castRow, bind_ok, Except.ok.injEq] at hw hz
          obtain ⟨c, hc, _, _, rfl⟩ := hw
          obtain ⟨c', hc', _, _, rfl⟩ := hz
          rw [Except.ok.inj (hc.symm.trans hc')]
          rfl
  | cons s A ih =>
    intro w z w' z' hw hz hl h
    have e1 : (∀ n, s ≠ .enum n) → relaxedDim (s :: A) = relaxedDim A + 1 := by
      intro hs
      cases s with
      | enum n => exact absurd rfl (hs n)
      | _ => simp [relaxedDim, Nat.add_comm]
    cases s with
    | enum n =>
      have e : relaxedDim (XType.enum n :: A) = n + relaxedDim A := by simp [relaxedDim]
      simp only [List.cons_append, castRow] at hw hz
      split_ifs at hw hz
      simp only [bind_ok, Except.ok.injEq] at hw hz
      obtain ⟨_, _, w1, hw1, rfl⟩ := hw
      obtain ⟨_, _, z1, hz1, rfl⟩ := hz
      have := ih _ _ _ _ hw1 hz1 (by simp [hl]) (by
        rw [List.getElem?_drop, List.getElem?_drop, ← e]; exact h)
      rw [e, List.getElem?_append_right (by simp [oneHot_length]), List.getElem?_append_right (by simp [oneHot_length]),
        oneHot_length, oneHot_length, Nat.add_sub_cancel_left, this]
    | float l u =>
      rw [e1 (by simp)] at h ⊢
      cases w with
      | nil =>
        have : z = [] := List.length_eq_zero_iff.1 (by simpa using hl.symm)
        subst this
        rw [Except.ok.inj (hw.symm.trans hz)]
      | cons a w =>
        cases z with
        | nil => simp at hl
        | cons b z =>
          simp only [List.cons_append, castRow, bind_ok, Except.ok.injEq] at hw hz
          obtain ⟨w1, hw1, rfl⟩ := hw
          obtain ⟨z1, hz1, rfl⟩ := hz
          exact ih _ _ _ _ hw1 hz1 (by simpa using hl) (by simpa using h)
    | int l u =>
      rw [e1 (by simp)] at h ⊢
      cases w with
      | nil => simp [castRow] at hw
      | cons a w =>
        cases z with
        | nil => simp at hl
        | cons b z =>
          simp only [List.cons_append, castRow, bind_ok, Except.ok.injEq] at hw hz
          obtain ⟨w1, hw1, rfl⟩ := hw
          obtain ⟨z1, hz1, rfl⟩ := hz
          exact ih _ _ _ _ hw1 hz1 (by simpa using hl) (by simpa using h)
    | ord vs =>
      rw [e1 (by simp)] at h ⊢
      cases w with
      | nil => simp [castRow] at hw
      | cons a w =>
        cases z with
        | nil => simp at hl
        | cons b z =>
          simp only [List.cons_append, castRow, bind_ok, Except.ok.injEq] at hw hz
          obtain ⟨_, _, w1, hw1, rfl⟩ := hw
          obtain ⟨_, _, z1, hz1, rfl⟩ := hz
          exact ih _ _ _ _ hw1 hz1 (by simpa using hl) (by simpa using h)

theorem foldFrom_reads_other (w : List K) (t : XType K) (ht : ∀ n, t ≠ .enum n) (A B : List (XType K)) :
    ∀ j u r, foldFrom w j u (A ++ t :: B) = .ok r → r[A.length]? = w[u + relaxedDim A]? := by
  induction A with
  | nil =>
    intro j u r h
    cases t with
    | enum n => exact absurd rfl (ht n)
    | _ =>
      simp only [List.nil_append, foldFrom] at h
      cases hx : w[u]? with
      | none => simp [hx] at h
      | some a =>
        simp only [hx, bind_ok, Except.ok.injEq] at h
        obtain ⟨r', _, rfl⟩ := h
        simp [relaxedDim, hx]
  | cons s A ih =>
    intro j u r h
    cases s with
    | enum n =>
      simp only [List.cons_append, foldFrom] at h
      split_ifs at h
      simp only [bind_ok, Except.ok.injEq] at h
      obtain ⟨_, _, r', hr, rfl⟩ := h
      have := ih _ _ _ hr
      rw [List.length_cons, List.getElem?_cons_succ, this]
      simp [relaxedDim, Nat.add_assoc]
    | _ =>
      simp only [List.cons_append, foldFrom] at h
      cases hx : w[u]? with
      | none => simp [hx] at h
      | some a =>
        simp only [hx, bind_ok, Except.ok.injEq] at h
        obtain ⟨r', hr, rfl⟩ := h
        have := ih _ _ _ hr
        rw [List.length_cons, List.getElem?_cons_succ, this]
        simp [relaxedDim, Nat.add_assoc]

theorem unfoldFrom_length (x : List K) (ts : List (XType K)) :
    ∀ i u r, unfoldFrom x i u ts = .ok r → r.length = relaxedDim ts := by
  induction ts with
  | nil => intro i u r h; simp only [unfoldFrom, Except.ok.injEq] at h; subst h; rfl
  | cons t ts ih =>
    intro i u r h
    cases t with
    | enum n =>
      simp only [unfoldFrom] at h
      cases hx : x[i]? with
      | none => simp [hx] at h
      | some a =>
        simp only [hx] at h
        split_ifs at h
        simp only [bind_ok, Except.ok.injEq] at h
        obtain ⟨r', hr, rfl⟩ := h
        simp [oneHot_length, ih _ _ _ hr, relaxedDim]
    | _ =>
      simp only [unfoldFrom] at h
      cases hx : x[u]? with
      | none => simp [hx] at h
      | some a =>
        simp only [hx, bind_ok, Except.ok.injEq] at h
        obtain ⟨r', hr, rfl⟩ := h
        simp [ih _ _ _ hr, relaxedDim, Nat.add_comm]

theorem encode_needed (ts : List (XType K)) (hv : ∀ t ∈ ts, Varies t)
    (h : ∀ x v, Relaxed ts x v → ∃ u u', toContinuousSpace ts x = .ok u ∧ castRow ts u = .ok u' ∧
      ∀ A t B, ts = A ++ t :: B → (∀ n, t ≠ .enum n) → u'[relaxedDim A]? = x[A.length]?) :
    ts.Pairwise fun a b => ∀ n, a = .enum n → (∀ m, b ≠ .enum m) → n = 1 := by
  by_contra hp
  obtain ⟨A, t, B, s, rfl, hs, hR⟩ := pairwise_split hp
  push Not at hR
  obtain ⟨n, rfl, ht, hn⟩ := hR
  have hA : ∀ t ∈ A, TypeOk t := fun t ht => varies_ok (hv t (by simp [ht]))
  obtain ⟨xa, ua, ra⟩ := relaxed_exists A hA
  obtain ⟨xb, ub, rb⟩ := relaxed_exists B fun t ht => varies_ok (hv t (by simp [ht]))
  obtain ⟨a, b, hab, h2⟩ := varies_two (hv t (by simp)) ht
  obtain ⟨r1, r2⟩ := h2 B xb ub rb
  obtain ⟨hxl, hul⟩ := relaxed_dims ra
  have hlt := (relaxedDim_ge A hA).2 n hs hn
  have key : ∀ c, Relaxed (t :: B) (c :: xb) (c :: ub) → ∃ u u', castRow (A ++ t :: B) u = .ok u' ∧
      u.length = relaxedDim (A ++ t :: B) ∧ u[relaxedDim A]? = xb[relaxedDim A - A.length - 1]? ∧
      u'[relaxedDim A]? = some c := by
    intro c hc
    obtain ⟨u, u', h3, h5, h7⟩ := h _ _ (relaxed_append ra hc)
    have h7 := h7 A t B rfl ht
    simp only [toContinuousSpace, bind_ok] at h3
    obtain ⟨_, _, h3⟩ := h3
    have h4 := unfoldFrom_reads _ t ht A B 0 0 _ h3
    refine ⟨u, u', h5, unfoldFrom_length _ _ _ _ _ h3, ?_, ?_⟩
    · rw [h4, Nat.zero_add, List.getElem?_append_right (by omega), hxl]
      obtain ⟨k, hk⟩ : ∃ k, relaxedDim A - A.length = k + 1 := ⟨relaxedDim A - A.length - 1, by omega⟩
      rw [hk, List.getElem?_cons_succ, Nat.add_sub_cancel]
    · rw [h7, ← hxl, List.getElem?_append_right le_rfl, Nat.sub_self, List.getElem?_cons_zero]
  obtain ⟨u1, w1, a1, a2, a3, a4⟩ := key a r1
  obtain ⟨u2, w2, b1, b2, b3, b4⟩ := key b r2
  have := castRow_reads t ht A B u1 u2 w1 w2 a1 b1 (a2.trans b2.symm) (a3.trans b3.symm)
  rw [a4, b4] at this
  exact hab (Option.some.inj this)

theorem relaxed_get {A B : List (XType K)} {t : XType K} (ht : ∀ n, t ≠ .enum n) :
    ∀ {x v : List K}, Relaxed (A ++ t :: B) x v → v[relaxedDim A]? = x[A.length]? := by
  induction A with
  | nil =>
    intro x v h
    cases t with
    | enum n => exact absurd rfl (ht n)
    | _ => cases h; simp [relaxedDim]
  | cons s A ih =>
    intro x v h
    rw [List.cons_append] at h
    cases h with
    | float _ _ h => simpa [relaxedDim, Nat.add_comm 1] using ih h
    | int _ _ h => simpa [relaxedDim, Nat.add_comm 1] using ih h
    | ord _ h => simpa [relaxedDim, Nat.add_comm 1] using ih h
    | @enum n k b ts xs us hb h =>
      have e : relaxedDim (XType.enum n :: A) = n + relaxedDim A := by simp [relaxedDim]
      rw [e, List.getElem?_append_right (by rw [hb.1]; omega), hb.1, Nat.add_sub_cancel_left, ih h]
      simp

/-- **C09**, exact condition for the round trip. For variables which can take two values or more, relaxing then decoding
gives every point back if and only if every categorical variable with two levels or more is only followed by categorical
variables of one level. -/
theorem C09_round_trip_iff (ts : List (XType K)) (hne : ts ≠ []) (hv : ∀ t ∈ ts, Varies t) :
    (∀ x v, Relaxed ts x v → ∃ u, toContinuousSpace ts x = .ok u ∧ toDiscreteSpace ts u = .ok x) ↔
      ts.Pairwise fun a b => ∀ n, a = .enum n → n = 1 ∨ b = .enum 1 := by
  have hok : ∀ t ∈ ts, TypeOk t := fun t ht => varies_ok (hv t ht)
  constructor
  · intro h
    have henc := encode_needed ts hv fun x v hr => by
      obtain ⟨u, h1, h2⟩ := h x v hr
      simp only [toDiscreteSpace, bind_ok, fold] at h2
      obtain ⟨u', h5, h6⟩ := h2
      refine ⟨u, u', h1, h5, ?_⟩
      rintro A t B rfl ht
      rw [foldFrom_reads_other _ t ht A B 0 0 _ h6, Nat.zero_add]
    have hdec := (C09_decode_iff ts hok).1 fun x u hr => by
      obtain ⟨u', h1, h2⟩ := h x u hr
      rw [C09_encode_partial ts hne henc x u hr, Except.ok.injEq] at h1
      rw [h1]; exact h2
    refine (henc.and hdec).imp ?_
    rintro a b ⟨h1, h2⟩ n rfl
    by_cases hb : ∃ m, b = .enum m
    · obtain ⟨m, rfl⟩ := hb
      rcases h2 n m rfl rfl with h | h
      · exact Or.inl h
      · exact Or.inr (by rw [h])
    · push Not at hb
      exact Or.inl (h1 n rfl hb)
  · intro hp x v hr
    refine ⟨v, C09_encode_partial ts hne (hp.imp ?_) x v hr, (C09_decode_iff ts hok).2 (hp.imp ?_) x v hr⟩
    · rintro a b h n rfl hb
      exact (h n rfl).resolve_right (hb 1)
    · rintro a b h n m rfl hb
      rcases h n rfl with h | h
      · exact Or.inl h
      · rw [hb] at h
        exact Or.inr (XType.enum.inj h)

/-- Round trip with a categorical variable in last position, none otherwise. -/
example (n : ℕ) (hn : 2 ≤ n) :
    (∀ x v, Relaxed [XType.int (K := ℚ) 0 5, .enum n] x v → ∃ u, toContinuousSpace [.int 0 5, .enum n] x = .ok u ∧
      toDiscreteSpace [.int 0 5, .enum n] u = .ok x) ∧
    ¬ ∀ x v, Relaxed [XType.enum n, .int (K := ℚ) 0 5] x v → ∃ u, toContinuousSpace [.enum n, .int 0 5] x = .ok u ∧
      toDiscreteSpace [.enum n, .int 0 5] u = .ok x := by
  constructor
  · rw [C09_round_trip_iff _ (by simp) (by simp [Varies]; omega)]
    simp
  · rw [C09_round_trip_iff _ (by simp) (by simp [Varies]; omega)]
    simp
    omega

/-! ## Samples and surrogates -/

variable {V : Type}

/-- **C101**, exact condition: rows which are relaxations of points are folded to these points if and only if no
categorical variable with two levels or more is placed before another one with two levels or more. -/
theorem C101_folded_iff (ts : List (XType K)) (hok : ∀ t ∈ ts, TypeOk t) :
    (∀ x u, Relaxed ts x u → mixintSample ts true [u] = .ok [x]) ↔
      ts.Pairwise fun a b => ∀ n m, a = .enum n → b = .enum m → n = 1 ∨ m = 1 := by
  rw [← C09_decode_iff ts hok]
  have : ∀ x u, mixintSample ts true [u] = .ok [x] ↔ toDiscreteSpace ts u = .ok x := by
    intro x u
    simp only [mixintSample, mixintSampleRow, toDiscreteSpace, mapM_ok]
    constructor
    · intro h
      cases h with
      | cons h1 _ => simpa using h1
    · intro h
      exact .cons (by simpa using h) .nil
  simp only [this]

/-- **C102**, exact condition with folding: for all continuous models the prediction is made at the relaxation of the point
if and only if no categorical variable with two levels or more is placed before a variable of another type. -/
theorem C102_folded_iff (ts : List (XType K)) (hne : ts ≠ []) (hv : ∀ t ∈ ts, Varies t) :
    (∀ (m : Mixint K (List K)) x v, m.xtypes = ts → m.folded = true → Relaxed ts x v → m.predict x = .ok (m.moe v)) ↔
      ts.Pairwise fun a b => ∀ n, a = .enum n → (∀ k, b ≠ .enum k) → n = 1 := by
  constructor
  · intro h
    refine encode_needed ts hv fun x v hr => ?_
    have := h ⟨id, ts, true, [], []⟩ x v rfl rfl hr
    simp only [Mixint.predict, surrogateInput, if_true, bind_ok, Except.ok.injEq, id] at this
    obtain ⟨_, ⟨u, h1, h2⟩, rfl⟩ := this
    refine ⟨u, _, h1, h2, ?_⟩
    rintro A t B rfl ht
    exact relaxed_get ht hr
  · rintro hp m x v rfl hf hr
    exact C102_folded_prediction_partial m hf hne hp x v hr

end Verif.Props
