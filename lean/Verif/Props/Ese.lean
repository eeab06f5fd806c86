import Verif.Props.Doe

/-!
# The acceptance rule and the schedule of the LHS optimizer (C139)
-/

set_option autoImplicit false

namespace Verif.Spec

variable {ns nx : ℕ}

/-- Choices of one iteration of the optimizer: the pairs of rows that are tried and the random number. -/
abbrev EsePairs (ns : ℕ) := List {p : Fin ns × Fin ns // p.1 ≠ p.2}

/-- The designs tried from `x`: two values of column `k` exchanged. -/
def Tried (x : Fin ns → Fin nx → ℝ) (k : Fin nx) (swaps : EsePairs ns) (d : Fin ns → Fin nx → ℝ) : Prop :=
  ∃ q ∈ swaps, Exchanged x d k q.1.1 q.1.2

/-- One iteration of threshold accepting. From the current design `x` and the best one `b` to `x'` and `b'`, at
temperature `t` and random number `r`. `acc`: a design was accepted, `imp`: it is the best so far. -/
structure EseStep (t r : ℝ) (k : Fin nx) (swaps : EsePairs ns) (x b x' b' : Fin ns → Fin nx → ℝ)
    (acc imp : Bool) : Prop where
  /-- Accepted when some design tried is worse by at most `t * r`. -/
  accept : acc = true ↔ ∃ d, Tried x k swaps d ∧ phiP 10 d ≤ phiP 10 x + t * r
  /-- The accepted design is one of the best that were tried. -/
  moved : acc = true → Tried x k swaps x' ∧ ∀ d, Tried x k swaps d → phiP 10 x' ≤ phiP 10 d
  stays : acc = false → x' = x
  improve : imp = true ↔ acc = true ∧ phiP 10 x' < phiP 10 b
  best : b' = if imp = true then x' else b

/-- Iterations `i`, `i + 1`, ... of the inner loop: column `(i + 1) % nx` is used at iteration `i`. The last two
numbers are those of accepted designs and of improvements. -/
inductive EseRun (t : ℝ) (hx : 0 < nx) : ℕ → (Fin ns → Fin nx → ℝ) → (Fin ns → Fin nx → ℝ) →
    List (EsePairs ns × ℝ) → (Fin ns → Fin nx → ℝ) → (Fin ns → Fin nx → ℝ) → ℕ → ℕ → Prop
  | nil (i : ℕ) (x b : Fin ns → Fin nx → ℝ) : EseRun t hx i x b [] x b 0 0
  | cons (i : ℕ) (x b x' b' x'' b'' : Fin ns → Fin nx → ℝ) (c : EsePairs ns × ℝ)
      (cs : List (EsePairs ns × ℝ)) (acc imp : Bool) (na ni : ℕ)
      (h : EseStep t c.2 ⟨(i + 1) % nx, Nat.mod_lt _ hx⟩ c.1 x b x' b' acc imp)
      (hs : EseRun t hx (i + 1) x' b' cs x'' b'' na ni) :
      EseRun t hx i x b (c :: cs) x'' b'' (acc.toNat + na) (imp.toNat + ni)

/-- The factor applied to the temperature after `n` iterations with `na` accepted designs and `ni`
improvements; `gap` is the difference between the criterion of the current design and that of the best one. The
optimizer is improving when the gap is larger than 0.001, exploring otherwise. -/
inductive EseFactor (n na ni : ℕ) (gap : ℝ) : ℝ → Prop
  | cool (hg : 1 / 1000 < gap) (ha : n ≤ 10 * na) (hi : ni < na) : EseFactor n na ni gap (4 / 5)
  | keep (hg : 1 / 1000 < gap) (ha : n ≤ 10 * na) (hi : ni = na) : EseFactor n na ni gap 1
  | warm (hg : 1 / 1000 < gap) (ha : 10 * na < n) : EseFactor n na ni gap (5 / 4)
  | explore (hg : gap ≤ 1 / 1000) (ha : 10 * na ≤ n) : EseFactor n na ni gap (10 / 7)
  | settle (hg : gap ≤ 1 / 1000) (ha : n < 10 * na) : EseFactor n na ni gap (9 / 10)

/-- The outer loop from temperature `t`, current design `x` and best design `b`: the inner loop, then the temperature
is multiplied by the factor. -/
inductive EseSchedule (hx : 0 < nx) : ℝ → (Fin ns → Fin nx → ℝ) → (Fin ns → Fin nx → ℝ) →
    List (List (EsePairs ns × ℝ)) → ℝ → (Fin ns → Fin nx → ℝ) → (Fin ns → Fin nx → ℝ) → Prop
  | nil (t : ℝ) (x b : Fin ns → Fin nx → ℝ) : EseSchedule hx t x b [] t x b
  | cons (t : ℝ) (x b x' b' x'' b'' : Fin ns → Fin nx → ℝ) (cs : List (EsePairs ns × ℝ))
      (css : List (List (EsePairs ns × ℝ))) (na ni : ℕ) (f t' : ℝ)
      (hr : EseRun t hx 0 x b cs x' b' na ni)
      (hf : EseFactor cs.length na ni (phiP 10 x' - phiP 10 b') f)
      (hs : EseSchedule hx (t * f) x' b' css t' x'' b'') :
      EseSchedule hx t x b (cs :: css) t' x'' b''

end Verif.Spec

namespace Verif.Props

open Verif Verif.Doe

variable {ns nx : ℕ}

theorem exchanged_unique {x d : Design ns nx} {k : Fin nx} {i1 i2 : Fin ns} (h : Spec.Exchanged x d k i1 i2) :
    d = swapCell x k i1 i2 := by
  have h' := swapCell_exchanged x k i1 i2
  funext i j
  by_cases hj : j = k
  · subst hj
    by_cases h1 : i = i1
    · subst h1; rw [h.first, h'.first]
    · by_cases h2 : i = i2
      · subst h2; rw [h.second, h'.second]
      · rw [h.column i h1 h2, h'.column i h1 h2]
  · rw [h.others i j hj, h'.others i j hj]

theorem eseInner_step {x : Design ns nx} {k : Fin nx} {c : EseChoice ns} {s : Ese ns nx} {n : ℕ × ℕ}
    {r : Ese ns nx × (ℕ × ℕ)} (hs : EseInv x s) (h : eseInner 10 k c s n = .ok r) :
    r.1.t = s.t ∧ ∃ acc imp : Bool,
      Spec.EseStep s.t c.r k c.swaps s.own s.best r.1.own r.1.best acc imp ∧
      r.2 = (n.1 + acc.toNat, n.2 + imp.toNat) := by
  unfold eseInner at h
  have hcand : ∀ q ∈ (c.swaps.map fun q => phipSwap 10 s.own k s.phip q.1.1 q.1.2),
      q.2 = Spec.phiP 10 q.1 ∧ Spec.Tried s.own k c.swaps q.1 := by
    intro q hq
    rw [List.mem_map] at hq
    obtain ⟨⟨⟨i1, i2⟩, hne⟩, hm, rfl⟩ := hq
    constructor
    · simp only [hs.own]
      rw [phipSwap_value 10 (by norm_num) _ _ k i1 i2 hne (swapCell_exchanged _ _ _ _)]
      rfl
    · exact ⟨_, hm, swapCell_exchanged _ _ _ _⟩
  have htried : ∀ d, Spec.Tried s.own k c.swaps d →
      ∃ q ∈ (c.swaps.map fun q => phipSwap 10 s.own k s.phip q.1.1 q.1.2), q.1 = d := by
    rintro d ⟨q, hq, he⟩
    exact ⟨_, List.mem_map_of_mem hq, (exchanged_unique he).symm⟩
  simp only [bind_ok] at h
  obtain ⟨kb, hkb, h⟩ := h
  set cands := (c.swaps.map fun q => phipSwap 10 s.own k s.phip q.1.1 q.1.2) with hc
  split at h
  · simp at h
  · rename_i xT pT hget
    have hmem : (xT, pT) ∈ cands := List.mem_of_getElem? hget
    have hmin : ∀ d, Spec.Tried s.own k c.swaps d → pT ≤ Spec.phiP 10 d := by
      intro d hd
      obtain ⟨q, hq, rfl⟩ := htried d hd
      have hne : cands.map Prod.snd ≠ [] := by
        intro hnil
        have : cands = [] := by simpa using hnil
        simp [this] at hq
      obtain ⟨k', hk', ha, hm, _⟩ := MixInt.argmin_spec (cands.map Prod.snd) hne
      rw [ha] at hkb
      simp only [Except.ok.injEq] at hkb
      subst hkb
      have := hm q.2 (List.mem_map_of_mem hq)
      rw [List.getElem_map] at this
      obtain ⟨hlt, he⟩ := List.getElem?_eq_some_iff.mp hget
      rw [he] at this
      rw [← (hcand q hq).1]; exact this
    have hpt : pT = Spec.phiP 10 xT := (hcand _ hmem).1
    have hT := (hcand _ hmem).2
    have hacc : pT - s.phip ≤ s.t * c.r ↔
        ∃ d, Spec.Tried s.own k c.swaps d ∧ Spec.phiP 10 d ≤ Spec.phiP 10 s.own + s.t * c.r := by
      rw [← hs.own]
      constructor
      · intro h; exact ⟨xT, hT, by rw [← hpt]; linarith⟩
      · rintro ⟨d, hd, hle⟩; have := hmin d hd; linarith
    split_ifs at h with h1 h2 <;> simp only [Except.ok.injEq] at h <;> subst h
    · refine ⟨rfl, true, true, ⟨by simpa using hacc.mp h1, ?_, by simp, ?_, by simp⟩, by simp⟩
      · intro _; exact ⟨hT, fun d hd => by rw [← hpt]; exact hmin d hd⟩
      · simp only [true_and, true_iff]; rw [← hpt, ← hs.best]; exact h2
    · refine ⟨rfl, true, false, ⟨by simpa using hacc.mp h1, ?_, by simp, ?_, by simp⟩, by simp⟩
      · intro _; exact ⟨hT, fun d hd => by rw [← hpt]; exact hmin d hd⟩
      · simp only [true_and, Bool.false_eq_true, false_iff]; rw [← hpt, ← hs.best]; exact h2
    · refine ⟨rfl, false, false, ⟨?_, by simp, by simp, by simp, by simp⟩, by simp⟩
      rw [← hacc]; simpa using h1

/-- C139. The inner loop is threshold accepting: each iteration exchanges values of the next column, moves to the
best of the designs tried if and only if it is not worse than the current one by more than the temperature times
the random number, and counts the moves and the improvements. -/
theorem C139_inner_loop {x : Design ns nx} (hx : 0 < nx) (cs : List (EseChoice ns)) :
    ∀ {i : ℕ} {s : Ese ns nx} {n : ℕ × ℕ} {r : Ese ns nx × (ℕ × ℕ)}, EseInv x s →
    (∀ c ∈ cs, 0 ≤ c.r) → eseInnerLoop 10 hx i s n cs = .ok r →
    r.1.t = s.t ∧ ∃ na ni, r.2 = (n.1 + na, n.2 + ni) ∧ ni ≤ na ∧ na ≤ cs.length ∧
      Spec.EseRun s.t hx i s.own s.best (cs.map fun c => (c.swaps, c.r)) r.1.own r.1.best na ni := by
  induction cs with
  | nil =>
    intro i s n r _ _ h
    simp only [eseInnerLoop, Except.ok.injEq] at h
    subst h
    exact ⟨rfl, 0, 0, rfl, le_rfl, le_rfl, .nil _ _ _⟩
  | cons c cs ih =>
    intro i s n r hs hc h
    simp only [eseInnerLoop, bind_ok] at h
    obtain ⟨a, ha, h⟩ := h
    obtain ⟨ht, acc, imp, hstep, hn⟩ := eseInner_step hs ha
    obtain ⟨ht', na, ni, hn', hle, hlen, hrun⟩ :=
      ih (eseInner_inv hs (hc c (by simp)) ha) (fun c hc' => hc c (by simp [hc'])) h
    rw [ht] at ht' hrun
    refine ⟨ht', acc.toNat + na, imp.toNat + ni, ?_, ?_, ?_, ?_⟩
    · rw [hn', hn]; simp only [add_assoc]
    · have : imp.toNat ≤ acc.toNat := by
        rcases hi : imp with _ | _
        · simp
        · rw [(hstep.improve.mp hi).1]
      omega
    · have := acc.toNat_le
      simp only [List.length_cons]; omega
    · exact .cons i _ _ _ _ _ _ _ _ _ _ _ _ hstep hrun

/-- The temperature after an outer iteration. -/
theorem eseTemp_factor (n na ni : ℕ) (s : Ese ns nx) (hn : 0 < n) (hi : ni ≤ na) :
    ∃ f, Spec.EseFactor n na ni (s.phip - s.phipBest) f ∧ eseTemp n s (na, ni) = s.t * f := by
  have hn' : (0 : ℝ) < n := by exact_mod_cast hn
  have h10 : (1 / 10 : ℝ) ≤ na / n ↔ n ≤ 10 * na := by
    rw [le_div_iff₀ hn']
    constructor
    · intro h; have : (n : ℝ) ≤ 10 * na := by linarith
      exact_mod_cast this
    · intro h; have : (n : ℝ) ≤ 10 * na := by exact_mod_cast h
      linarith
  have h10' : (na / n : ℝ) ≤ 1 / 10 ↔ 10 * na ≤ n := by
    rw [div_le_iff₀ hn']
    constructor
    · intro h; have : (10 * na : ℝ) ≤ n := by linarith
      exact_mod_cast this
    · intro h; have : (10 * na : ℝ) ≤ n := by exact_mod_cast h
      linarith
  have hlt : (ni / n : ℝ) < na / n ↔ ni < na := by
    rw [div_lt_div_iff_of_pos_right hn']; exact_mod_cast Iff.rfl
  have habs : ∀ _ : ¬ ni < na, |(ni / n : ℝ) - na / n| < 1 / 2 ^ 52 := by
    intro h
    have : ni = na := le_antisymm hi (not_lt.mp h)
    subst this; simp
  unfold eseTemp
  simp only [gt_iff_lt, ge_iff_le, h10, h10', hlt]
  by_cases hg : 1 / 1000 < s.phip - s.phipBest
  · rw [if_pos hg]
    by_cases h1 : n ≤ 10 * na
    · by_cases h2 : ni < na
      · exact ⟨_, .cool hg h1 h2, by rw [if_pos ⟨h1, h2⟩]; ring⟩
      · refine ⟨_, .keep hg h1 (le_antisymm hi (not_lt.mp h2)), ?_⟩
        rw [if_neg (fun h => h2 h.2), if_pos ⟨h1, habs h2⟩, mul_one]
    · refine ⟨_, .warm hg (not_le.mp h1), ?_⟩
      rw [if_neg (fun h => h1 h.1), if_neg (fun h => h1 h.1)]; ring
  · rw [if_neg hg]
    by_cases h1 : 10 * na ≤ n
    · exact ⟨_, .explore (not_lt.mp hg) h1, by rw [if_pos h1]; ring⟩
    · exact ⟨_, .settle (not_lt.mp hg) (not_le.mp h1), by rw [if_neg h1]⟩

theorem eseOuterLoop_schedule {x : Design ns nx} (hx : 0 < nx) (css : List (List (EseChoice ns))) :
    ∀ {s s' : Ese ns nx}, EseInv x s → (∀ cs ∈ css, cs ≠ [] ∧ ∀ c ∈ cs, 0 ≤ c.r) →
    eseOuterLoop 10 hx s css = .ok s' →
    Spec.EseSchedule hx s.t s.own s.best (css.map fun cs => cs.map fun c => (c.swaps, c.r)) s'.t s'.own
      s'.best := by
  induction css with
  | nil =>
    intro s s' _ _ h
    simp only [eseOuterLoop, Except.ok.injEq] at h
    subst h; exact .nil _ _ _
  | cons cs css ih =>
    intro s s' hs hc h
    simp only [eseOuterLoop, bind_ok] at h
    obtain ⟨a, ha, h⟩ := h
    have hcs := hc cs (by simp)
    have hi := eseInnerLoop_inv cs hs hcs.2 ha
    obtain ⟨ht, na, ni, hn, hle, _, hrun⟩ := C139_inner_loop hx cs hs hcs.2 ha
    simp only [Nat.zero_add] at hn
    obtain ⟨f, hf, htemp⟩ := eseTemp_factor cs.length na ni a.1 (List.length_pos_of_ne_nil hcs.1) hle
    rw [hn] at h
    have := ih (s := { a.1 with t := eseTemp cs.length a.1 (na, ni) })
      { hi with temp := eseTemp_nonneg _ _ _ hi.temp } (fun c hc' => hc c (by simp [hc'])) h
    simp only [htemp, ht] at this
    rw [hi.own, hi.best] at hf
    exact .cons _ _ _ _ _ _ _ _ _ na ni f _ hrun (by simpa using hf) this

/-- C139. The optimizer is enhanced stochastic evolution: it starts at a temperature of 0.005 times the criterion of
the initial design, each inner loop is threshold accepting at a constant temperature, and after each of them the
temperature is multiplied by the factor that corresponds to the acceptance and improvement rates. -/
theorem C139_schedule (hx : 0 < nx) (x : Design ns nx) (css : List (List (EseChoice ns)))
    (hc : ∀ cs ∈ css, cs ≠ [] ∧ ∀ c ∈ cs, 0 ≤ c.r) (s : Ese ns nx) (h : maximinEse hx x css = .ok s) :
    Spec.EseSchedule hx (5 / 1000 * Spec.phiP 10 x) x x (css.map fun cs => cs.map fun c => (c.swaps, c.r))
      s.t s.own s.best := by
  have := eseOuterLoop_schedule hx css (eseInit_inv x) hc h
  simpa only [eseInit, C04_criterion_from_scratch] using this

theorem factor_pos {n na ni : ℕ} {g f : ℝ} (h : Spec.EseFactor n na ni g f) : 0 < f := by
  cases h <;> norm_num

/-- C139. The temperature stays positive along the schedule: a worse design can always be accepted. -/
theorem C139_temperature_positive {hx : 0 < nx} {t t' : ℝ} {x b x' b' : Fin ns → Fin nx → ℝ}
    {css : List (List (Spec.EsePairs ns × ℝ))} (h : Spec.EseSchedule hx t x b css t' x' b') (ht : 0 < t) :
    0 < t' := by
  induction h with
  | nil => exact ht
  | cons t x b x' b' x'' b'' cs css na ni f t' hr hf hs ih => exact ih (mul_pos ht (factor_pos hf))

/-- C139. A design tried that is not worse than the current one is never refused. -/
theorem C139_descent {t r : ℝ} {k : Fin nx} {swaps : Spec.EsePairs ns} {x b x' b' : Fin ns → Fin nx → ℝ}
    {acc imp : Bool} (h : Spec.EseStep t r k swaps x b x' b' acc imp) (ht : 0 ≤ t) (hr : 0 ≤ r)
    {d : Fin ns → Fin nx → ℝ} (hd : Spec.Tried x k swaps d) (hle : Spec.phiP 10 d ≤ Spec.phiP 10 x) :
    acc = true ∧ Spec.phiP 10 x' ≤ Spec.phiP 10 d := by
  have ha := h.accept.mpr ⟨d, hd, by have := mul_nonneg ht hr; linarith⟩
  exact ⟨ha, (h.moved ha).2 d hd⟩

/-- A run that meets the hypotheses of `C139_schedule`: two outer iterations on four points in three
dimensions. -/
example : ∃ s, maximinEse (by norm_num : 0 < 3) (classic exDraw)
    [[⟨[⟨(0, 1), by decide⟩, ⟨(2, 3), by decide⟩], 1 / 2⟩, ⟨[⟨(3, 1), by decide⟩], 1 / 3⟩],
      [⟨[⟨(1, 2), by decide⟩], 0⟩]] = .ok s := by
  apply eseOuterLoop_ok
  intro cs hcs c hc
  simp only [List.mem_cons, List.not_mem_nil, or_false] at hcs
  rcases hcs with rfl | rfl <;> simp only [List.mem_cons, List.not_mem_nil, or_false] at hc
  · rcases hc with rfl | rfl <;> simp
  · subst hc; simp

/-- All the factors occur. -/
example : Spec.EseFactor 20 5 2 1 (4 / 5) ∧ Spec.EseFactor 20 5 5 1 1 ∧ Spec.EseFactor 20 1 1 1 (5 / 4) ∧
    Spec.EseFactor 20 2 0 0 (10 / 7) ∧ Spec.EseFactor 20 3 0 0 (9 / 10) :=
  ⟨.cool (by norm_num) (by norm_num) (by norm_num), .keep (by norm_num) (by norm_num) rfl,
    .warm (by norm_num) (by norm_num), .explore (by norm_num) (by norm_num), .settle (by norm_num) (by norm_num)⟩

end Verif.Props
