import Mathlib.Data.List.Basic
import Mathlib.Data.List.Nodup
import Mathlib.Tactic.Common
import Mathlib.Tactic.IntervalCases
import Verif.Model.Samplers

/-!
# C155: samplers which share a generator

A sampler and its clones share a generator behind a lock. No number of the generator serves twice, whatever the threads do.
Designs made in one section (random, classic, centered) are those of some sequential order of the calls; maximin and optimized
designs are not. A call which panics or loops with the lock breaks the sampler and all its clones.
-/

set_option autoImplicit false

namespace Verif.Props

open Verif.Samplers

variable {ρ ε : Type}

/-! ## Specification -/

/-- In world `w`, letting thread `i` run draws number `n` of the generator. -/
def Draws (g : Numbers) (w : World ρ) (i n : ℕ) : Prop :=
  w.cell.lock = .free ∧
    ∃ used next, w.calls i = .sec used next ∧
      w.cell.pos ≤ n ∧ n < w.cell.pos + used fun k => g (w.cell.pos + k)

/-- The call has ended. -/
def Ended : Prog ρ → Prop
  | .ret _ => True
  | .fail => True
  | _ => False

/-- Designs which take the lock once. -/
def Once (k : Kind) : Prop := k = .random ∨ k = .classic ∨ k = .centered

/-! ## No number serves twice -/

theorem smp_pos_le (g : Numbers) (w : World ρ) (i : ℕ) : w.cell.pos ≤ (w.step g i).cell.pos := by
  unfold World.step Samplers.step
  cases hc : w.calls i <;> simp only [le_refl]
  cases hl : w.cell.lock <;> simp

theorem smp_draws_iff (g : Numbers) (w : World ρ) (i n : ℕ) :
    Draws g w i n ↔ w.cell.pos ≤ n ∧ n < (w.step g i).cell.pos := by
  unfold Draws World.step Samplers.step
  cases hc : w.calls i with
  | sec used next =>
    cases hl : w.cell.lock with
    | free =>
      constructor
      · rintro ⟨-, u, k, h, h1, h2⟩
        cases h
        exact ⟨h1, h2⟩
      · rintro ⟨h1, h2⟩
        exact ⟨rfl, used, next, rfl, h1, h2⟩
    | poisoned => simp
    | held => simp
  | _ => simp

theorem smp_exec_snoc (g : Numbers) (w : World ρ) (l : List ℕ) (i : ℕ) :
    w.exec g (l ++ [i]) = (w.exec g l).step g i := by
  simp [World.exec]

theorem smp_exec_take (g : Numbers) (w : World ρ) (l : List ℕ) (j : ℕ) (h : j < l.length) :
    w.exec g (l.take (j + 1)) = (w.exec g (l.take j)).step g l[j] := by
  rw [List.take_succ_eq_append_getElem h, smp_exec_snoc]

theorem smp_exec_mono (g : Numbers) (w : World ρ) (l : List ℕ) (j k : ℕ) (h : j ≤ k) (hk : k ≤ l.length) :
    (w.exec g (l.take j)).cell.pos ≤ (w.exec g (l.take k)).cell.pos := by
  induction k with
  | zero => simp [Nat.le_zero.mp h]
  | succ k ih =>
    rcases Nat.lt_or_ge j (k + 1) with hj | hj
    · refine le_trans (ih (by omega) (by omega)) ?_
      rw [smp_exec_take g w l k (by omega)]
      exact smp_pos_le g _ _
    · rw [le_antisymm h hj]

/-- Whatever the calls, the threads and the schedule, every number which has left the generator was drawn by exactly one
section of one call. -/
theorem C155_no_reuse (g : Numbers) (w : World ρ) (l : List ℕ) (n : ℕ) (h0 : w.cell.pos ≤ n)
    (h1 : n < (w.exec g l).cell.pos) :
    ∃! j, ∃ h : j < l.length, Draws g (w.exec g (l.take j)) l[j] n := by
  have hex : ∀ m, m ≤ l.length → n < (w.exec g (l.take m)).cell.pos →
      ∃ j, ∃ h : j < l.length, Draws g (w.exec g (l.take j)) l[j] n := by
    intro m
    induction m with
    | zero =>
      intro _ h
      simp only [List.take_zero, World.exec, List.foldl_nil] at h
      omega
    | succ m ih =>
      intro hm h
      rcases Nat.lt_or_ge n (w.exec g (l.take m)).cell.pos with hn | hn
      · exact ih (by omega) hn
      · refine ⟨m, hm, ?_⟩
        rw [smp_draws_iff, ← smp_exec_take g w l m hm]
        exact ⟨hn, h⟩
  obtain ⟨j, hj, hd⟩ := hex l.length le_rfl (by rwa [List.take_length])
  refine ⟨j, ⟨hj, hd⟩, ?_⟩
  rintro k ⟨hk, hd'⟩
  rw [smp_draws_iff, ← smp_exec_take g w l j hj] at hd
  rw [smp_draws_iff, ← smp_exec_take g w l k hk] at hd'
  rcases Nat.lt_trichotomy j k with h | h | h
  · have := smp_exec_mono g w l (j + 1) k h (by omega)
    omega
  · exact h.symm
  · have := smp_exec_mono g w l (k + 1) j h (by omega)
    omega

/-! ## Clones -/

/-- A clone, and a clone of another kind, are the sampler itself: the same call gives the same design, and leaves the same
generator. -/
theorem C155_clone (K : Kind → ℕ → ℕ → Content ρ ε) (s : Sampler) (m : Memory) (ns : ℕ) (k : Kind) :
    s.clone.call K m ns = s.call K m ns ∧ (s.clone.setKind k).call K m ns = (s.setKind k).call K m ns :=
  ⟨rfl, rfl⟩

/-- A call leaves the other generators as they are. -/
theorem C155_others (K : Kind → ℕ → ℕ → Content ρ ε) (s t : Sampler) (m : Memory) (ns nt : ℕ) (h : s.rng ≠ t.rng) :
    (t.call K (s.call K m ns).2 nt).1 = (t.call K m nt).1 := by
  have : (s.call K m ns).2.cells t.rng = m.cells t.rng := by
    simp only [Sampler.call]
    exact Function.update_of_ne (Ne.symm h) _ _
  simp only [Sampler.call] at this ⊢
  rw [this]

/-- A sampler given a generator starts from its first number, whatever was done with other samplers, broken ones included: the
design is a function of the generator, the kind and the sizes. -/
theorem C155_with_rng (K : Kind → ℕ → ℕ → Content ρ ε) (s : Sampler) (m : Memory) (g : Numbers) (ns : ℕ) :
    ((s.withRng m g).1.call K (s.withRng m g).2 ns).1 =
      (run g ⟨0, .free⟩ (sample (K s.kind s.nx ns) s.kind s.nx ns)).2 := by
  simp [Sampler.withRng, Sampler.call]

/-- The new generator is no other's. -/
theorem C155_with_rng_fresh (s t : Sampler) (m : Memory) (g : Numbers) (h : t.rng < m.size) :
    (s.withRng m g).1.rng ≠ t.rng ∧ (s.withRng m g).2.cells t.rng = m.cells t.rng ∧
      (s.withRng m g).2.numbers t.rng = m.numbers t.rng := by
  have : t.rng ≠ m.size := Nat.ne_of_lt h
  refine ⟨Nat.ne_of_gt h, ?_, ?_⟩ <;> simp [Sampler.withRng, Function.update_of_ne this]

/-! ## Threads -/

/-- Calls which take the lock once and return. -/
def OneSec (p : Prog ρ) : Prop := ∃ used, ∃ f : Numbers → ρ, p = .sec used fun s => .ret (f s)

theorem smp_once (K : Content ρ ε) (k : Kind) (nx ns : ℕ) (h : Once k) : OneSec (sample K k nx ns) := by
  rcases h with rfl | rfl | rfl <;> exact ⟨_, _, rfl⟩

theorem smp_linear (g : Numbers) (l : List ℕ) : ∀ (w : World ρ), w.cell.lock = .free →
    (∀ i, OneSec (w.calls i) ∨ Ended (w.calls i)) →
    ∃ order : List ℕ, order.Nodup ∧ (∀ i, i ∈ order ↔ i ∈ l ∧ OneSec (w.calls i)) ∧
      w.exec g l = w.inOrder g order := by
  induction l with
  | nil =>
    intro w _ _
    exact ⟨[], List.nodup_nil, by simp, rfl⟩
  | cons i l ih =>
    intro w hl hw
    have hcons : w.exec g (i :: l) = (w.step g i).exec g l := rfl
    rcases hw i with h | h
    · obtain ⟨u, f, hp⟩ := h
      have hs : w.step g i = ⟨⟨w.cell.pos + u fun k => g (w.cell.pos + k), .free⟩,
          Function.update w.calls i (.ret (f fun k => g (w.cell.pos + k)))⟩ := by
        unfold World.step Samplers.step
        rw [hp, hl]
        rfl
      have hr : ∀ order, w.inOrder g (i :: order) = (w.step g i).inOrder g order := by
        intro order
        rw [hs]
        unfold World.inOrder
        rw [List.foldl_cons]
        congr 1
        simp only [hp, run, hl]
        rfl
      obtain ⟨order, hn, hm, he⟩ := ih (w.step g i) (by rw [hs]) (by
        intro j
        rw [hs]
        by_cases hj : j = i
        · subst hj
          right
          simp [Ended]
        · simp only [Function.update_of_ne hj]
          exact hw j)
      refine ⟨i :: order, ?_, ?_, by rw [hcons, hr, he]⟩
      · rw [List.nodup_cons]
        refine ⟨?_, hn⟩
        rw [hm]
        rintro ⟨-, u', f', h'⟩
        rw [hs] at h'
        simp at h'
      · intro j
        rw [List.mem_cons, List.mem_cons, hm]
        by_cases hj : j = i
        · subst hj
          simp only [true_or, true_and, true_iff]
          exact ⟨u, f, hp⟩
        · rw [hs]
          simp [hj]
    · have hs : w.step g i = w := by
        unfold World.step Samplers.step
        cases hc : w.calls i with
        | ret r =>
          simp only [← hc, Function.update_eq_self]
        | fail =>
          simp only [← hc, Function.update_eq_self]
        | _ => rw [hc] at h; exact h.elim
      obtain ⟨order, hn, hm, he⟩ := ih w hl hw
      refine ⟨order, hn, ?_, by rw [hcons, hs, he]⟩
      intro j
      rw [hm, List.mem_cons]
      constructor
      · rintro ⟨h1, h2⟩
        exact ⟨Or.inr h1, h2⟩
      · rintro ⟨rfl | h1, h2⟩
        · obtain ⟨u, f, hp⟩ := h2
          rw [hp] at h
          exact h.elim
        · exact ⟨h1, h2⟩

/-- Random, classic and centered designs drawn by any number of threads, however they are scheduled, are those of the calls made
one after the other in some order, in which every thread scheduled has its turn once. -/
theorem C155_linearizable (g : Numbers) (K : ℕ → Content ρ ε) (kind : ℕ → Kind) (nx ns : ℕ → ℕ)
    (hk : ∀ i, Once (kind i)) (l : List ℕ) :
    ∃ order : List ℕ, order.Nodup ∧ (∀ i, i ∈ order ↔ i ∈ l) ∧
      (World.mk ⟨0, .free⟩ fun i => sample (K i) (kind i) (nx i) (ns i)).exec g l =
        (World.mk ⟨0, .free⟩ fun i => sample (K i) (kind i) (nx i) (ns i)).inOrder g order := by
  have h1 : ∀ i, OneSec (sample (K i) (kind i) (nx i) (ns i)) := fun i => smp_once _ _ _ _ (hk i)
  obtain ⟨order, hn, hm, he⟩ := smp_linear g l
    (World.mk ⟨0, .free⟩ fun i => sample (K i) (kind i) (nx i) (ns i)) rfl (fun i => Or.inl (h1 i))
  refine ⟨order, hn, ?_, he⟩
  intro i
  rw [hm]
  exact and_iff_left (h1 i)

theorem smp_stays (g : Numbers) (i : ℕ) (w : World ρ) (h : run g w.cell (w.calls i) = (w.cell, w.calls i)) :
    w.exec g (List.replicate 0 i) = w.inOrder g [i] := by
  simp [World.exec, World.inOrder, h]

theorem smp_alone (g : Numbers) (i : ℕ) (p : Prog ρ) : ∀ (w : World ρ), p ≠ .poison → w.calls i = p →
    ∃ n, w.exec g (List.replicate n i) = w.inOrder g [i] := by
  induction p with
  | ret r => intro w _ h; exact ⟨0, smp_stays g i w (by rw [h]; rfl)⟩
  | fail => intro w _ h; exact ⟨0, smp_stays g i w (by rw [h]; rfl)⟩
  | poison => intro w h0; exact absurd rfl h0
  | hang => intro w _ h; exact ⟨0, smp_stays g i w (by rw [h]; rfl)⟩
  | sec used next ih =>
    intro w _ h
    rcases hl : w.cell.lock with _ | _ | _
    · by_cases hp : next (fun k => g (w.cell.pos + k)) = .poison
      · refine ⟨1, ?_⟩
        simp [World.exec, World.inOrder, World.step, Samplers.step, h, run, hl, hp, Prog.lockAfter, Prog.settle]
      · have hset : (next fun k => g (w.cell.pos + k)).settle = next fun k => g (w.cell.pos + k) := by
          cases hn : next (fun k => g (w.cell.pos + k)) <;> first | rfl | exact absurd hn hp
        obtain ⟨n, hn⟩ := ih _ (w.step g i) hp (by
          simp only [World.step, Samplers.step, h, hl, Function.update_self]
          exact hset)
        refine ⟨n + 1, ?_⟩
        rw [List.replicate_succ]
        show (w.step g i).exec g (List.replicate n i) = _
        rw [hn]
        simp [World.inOrder, World.step, Samplers.step, h, run, hl, hset]
    · refine ⟨1, ?_⟩
      simp [World.exec, World.inOrder, World.step, Samplers.step, h, run, hl]
    · refine ⟨1, ?_⟩
      simp [World.exec, World.inOrder, World.step, Samplers.step, h, run, hl]

/-- A call alone is a thread which gets to run all its sections without interruption. -/
theorem C155_alone (g : Numbers) (K : Content ρ ε) (kind : Kind) (nx ns i : ℕ) (w : World ρ)
    (h : w.calls i = sample K kind nx ns) : ∃ n, w.exec g (List.replicate n i) = w.inOrder g [i] := by
  refine smp_alone g i _ w ?_ h
  cases kind <;> simp [sample]

/-- Contents for the counter-examples: a design is the number drawn; the farther apart the larger. -/
def smpContent : Content ℕ ℕ where
  random s := (1, s 0)
  classic s := (1, s 0)
  centered s := (1, s 0)
  spread r := r
  start r := r
  swap _ s := (1, some (s 0))
  finish e := e

/-- Result of a call. -/
def Prog.result : Prog ρ → Option ρ
  | .ret r => some r
  | _ => none

/-- Two calls, in threads 0 and 1, of the same sampler. -/
def twoCalls (kind : Kind) : World ℕ :=
  ⟨⟨0, .free⟩, fun i => if i < 2 then sample smpContent kind 1 2 else .fail⟩

/-- Maximin and optimized designs take the lock several times: two threads may get designs which they get in no order of the
calls, so that fixing the seed does not fix the designs. Here the threads alternate, and the numbers are 0, 1, 2, … -/
theorem C155_refuted_interleaved :
    ∀ kind ∈ [Kind.maximin, Kind.centeredMaximin, Kind.optimized], ∃ l : List ℕ,
      let w := (twoCalls kind).exec (fun i => i) l
      let a := (twoCalls kind).inOrder (fun i => i) [0, 1]
      let b := (twoCalls kind).inOrder (fun i => i) [1, 0]
      (Prog.result (w.calls 0)).isSome ∧ (Prog.result (w.calls 1)).isSome ∧
        (Prog.result (w.calls 0), Prog.result (w.calls 1)) ≠ (Prog.result (a.calls 0), Prog.result (a.calls 1)) ∧
        (Prog.result (w.calls 0), Prog.result (w.calls 1)) ≠ (Prog.result (b.calls 0), Prog.result (b.calls 1)) := by
  intro kind hk
  refine ⟨(List.replicate 21 [0, 1]).flatten, ?_⟩
  simp only [List.mem_cons, List.not_mem_nil, or_false] at hk
  rcases hk with rfl | rfl | rfl <;> decide

/-! ## Broken samplers -/

/-- Once the lock is poisoned, every call of every sampler which shares the generator panics at once. -/
theorem smp_poisoned (K : Kind → ℕ → ℕ → Content ρ ε) (s : Sampler) (m : Memory) (ns : ℕ)
    (h : (m.cells s.rng).lock = .poisoned) : (s.call K m ns).1 = .fail ∧ (s.call K m ns).2 = m := by
  have : run (m.numbers s.rng) (m.cells s.rng) (sample (K s.kind s.nx ns) s.kind s.nx ns) = (m.cells s.rng, .fail) := by
    cases hk : s.kind <;> simp [sample, run, h]
  simp [Sampler.call, this]

theorem smp_eseIters_pos (nx : ℕ) (h : 0 < nx) : 0 < eseIters nx := by
  unfold eseIters
  apply Nat.mul_pos <;> omega

theorem smp_maximin_run (g : Numbers) (draw : Numbers → ℕ × ρ) (spread : ρ → ℕ) (n : ℕ) :
    ∀ (c : Cell) (r : ρ), c.lock = .free → (run g c (maximinLoop draw spread n r)).1.lock = .free ∧
      ∃ r', (run g c (maximinLoop draw spread n r)).2 = .ret r' := by
  induction n with
  | zero => intro c r h; exact ⟨h, r, rfl⟩
  | succ n ih =>
    intro c r h
    simp only [maximinLoop, run, h]
    have hf : ∀ r', (maximinLoop draw spread n r').lockAfter = .free := by
      intro r'
      cases n <;> rfl
    rw [hf]
    exact ih _ _ rfl

theorem smp_ese_run (g : Numbers) (K : Content ρ ε) (hK : ∀ e s, (K.swap e s).2 ≠ none) (ns : ℕ) (hns : 2 ≤ ns) (n : ℕ) :
    ∀ (c : Cell) (e : ε), c.lock = .free → (run g c (eseLoop K ns n e)).1.lock = .free ∧
      ∃ r', (run g c (eseLoop K ns n e)).2 = .ret r' := by
  induction n with
  | zero => intro c e h; exact ⟨h, _, rfl⟩
  | succ n ih =>
    intro c e h
    simp only [eseLoop, run, h, if_neg (show ns ≠ 0 by omega), if_neg (show ns ≠ 1 by omega)]
    rcases hsw : (K.swap e fun i => g (c.pos + i)).2 with _ | e'
    · exact absurd hsw (hK _ _)
    · have hf : (eseLoop K ns n e').lockAfter = .free := by cases n <;> rfl
      simp only [hf]
      exact ih _ _ rfl

/-- What a call alone does to the lock, from a free lock, in a space of at least one dimension: it is poisoned by an optimized
design of no point, held for ever by an optimized design of one point, and free otherwise, provided the evolutionary algorithm does not
panic. -/
theorem C155_lock (g : Numbers) (K : Content ρ ε) (hK : ∀ e s, (K.swap e s).2 ≠ none) (kind : Kind) (nx ns pos : ℕ)
    (hx : 0 < nx) :
    (run g ⟨pos, .free⟩ (sample K kind nx ns)).1.lock =
      if kind = .optimized ∧ ns = 0 then .poisoned else if kind = .optimized ∧ ns = 1 then .held else .free := by
  obtain ⟨t, ht⟩ := Nat.exists_eq_succ_of_ne_zero (Nat.ne_of_gt (smp_eseIters_pos nx hx))
  cases kind with
  | random => simp [sample, run, Prog.lockAfter]
  | classic => simp [sample, run, Prog.lockAfter]
  | centered => simp [sample, run, Prog.lockAfter]
  | maximin =>
    by_cases h : ns ≤ 1
    · simp [sample, run, Prog.lockAfter, h]
    · simp only [sample, run, if_neg h, reduceCtorEq, false_and, if_false]
      exact (smp_maximin_run g _ _ _ _ _ rfl).1
  | centeredMaximin =>
    by_cases h : ns ≤ 1
    · simp [sample, run, Prog.lockAfter, h]
    · simp only [sample, run, if_neg h, reduceCtorEq, false_and, if_false]
      exact (smp_maximin_run g _ _ _ _ _ rfl).1
  | optimized =>
    rcases Nat.lt_or_ge ns 2 with h | h
    · interval_cases ns <;> simp [sample, run, ht, eseLoop, Prog.lockAfter]
    · have h0 : ns ≠ 0 := by omega
      have h1 : ns ≠ 1 := by omega
      simp only [sample, run, h0, h1, and_false, if_false]
      have hf : ∀ e, (eseLoop K ns (eseIters nx) e).lockAfter = .free := by intro e; rw [ht]; rfl
      rw [hf]
      exact (smp_ese_run g K hK ns h _ _ _ rfl).1

/-- The designs drawn one after the other from position `p`. -/
def Designs (g : Numbers) (draw : Numbers → ℕ × ρ) : ℕ → ℕ → List ρ
  | 0, _ => []
  | n + 1, p => (draw fun i => g (p + i)).2 :: Designs g draw n (p + (draw fun i => g (p + i)).1)

theorem smp_maximin_best (g : Numbers) (draw : Numbers → ℕ × ρ) (spread : ρ → ℕ) (n : ℕ) : ∀ (p : ℕ) (r : ρ),
    ∃ r' ∈ r :: Designs g draw n p, (run g ⟨p, .free⟩ (maximinLoop draw spread n r)).2 = .ret r' ∧
      ∀ q ∈ r :: Designs g draw n p, spread q ≤ spread r' := by
  induction n with
  | zero => intro p r; exact ⟨r, by simp, rfl, by simp [Designs]⟩
  | succ n ih =>
    intro p r
    have hf : ∀ r', (maximinLoop draw spread n r').lockAfter = .free := by
      intro r'
      cases n <;> rfl
    obtain ⟨r', hm, hr, hq⟩ := ih (p + (draw fun i => g (p + i)).1)
      (if spread r < spread (draw fun i => g (p + i)).2 then (draw fun i => g (p + i)).2 else r)
    refine ⟨r', ?_, ?_, ?_⟩
    · simp only [Designs, List.mem_cons] at hm ⊢
      split_ifs at hm <;> tauto
    · simp only [maximinLoop, run, hf]
      exact hr
    · intro q h
      have h1 := hq _ List.mem_cons_self
      simp only [Designs, List.mem_cons] at h
      rcases h with rfl | rfl | h
      · split_ifs at h1 <;> omega
      · split_ifs at h1 <;> omega
      · exact hq q (List.mem_cons_of_mem _ h)

/-- A maximin design of at least two points is the most spread of the next five designs of the generator. -/
theorem C155_maximin (g : Numbers) (K : Content ρ ε) (nx ns p : ℕ) (h : 2 ≤ ns) :
    (∃ r ∈ Designs g K.classic 5 p, (run g ⟨p, .free⟩ (sample K .maximin nx ns)).2 = .ret r ∧
      ∀ q ∈ Designs g K.classic 5 p, K.spread q ≤ K.spread r) ∧
    ∃ r ∈ Designs g K.centered 5 p, (run g ⟨p, .free⟩ (sample K .centeredMaximin nx ns)).2 = .ret r ∧
      ∀ q ∈ Designs g K.centered 5 p, K.spread q ≤ K.spread r := by
  have hns : ¬ ns ≤ 1 := by omega
  constructor
  · have := smp_maximin_best g K.classic K.spread 4 (p + (K.classic fun i => g (p + i)).1) (K.classic fun i => g (p + i)).2
    simp only [sample, run, if_neg hns]
    exact this
  · have := smp_maximin_best g K.centered K.spread 4 (p + (K.centered fun i => g (p + i)).1) (K.centered fun i => g (p + i)).2
    simp only [sample, run, if_neg hns]
    exact this

/-- When a call alone returns a design: at least two points are asked for, or the kind is random, classic or centered. -/
theorem C155_returns_iff (g : Numbers) (K : Content ρ ε) (hK : ∀ e s, (K.swap e s).2 ≠ none) (kind : Kind)
    (nx ns pos : ℕ) (hx : 0 < nx) :
    (∃ r, (run g ⟨pos, .free⟩ (sample K kind nx ns)).2 = .ret r) ↔ Once kind ∨ 2 ≤ ns := by
  obtain ⟨t, ht⟩ := Nat.exists_eq_succ_of_ne_zero (Nat.ne_of_gt (smp_eseIters_pos nx hx))
  cases kind with
  | random => simp [sample, run, Once]
  | classic => simp [sample, run, Once]
  | centered => simp [sample, run, Once]
  | maximin =>
    by_cases h : ns ≤ 1
    · have : ¬ 2 ≤ ns := by omega
      simp [sample, run, h, Once, this]
    · have : 2 ≤ ns := by omega
      simp only [sample, run, if_neg h, this, or_true, iff_true]
      exact (smp_maximin_run g _ _ _ _ _ rfl).2
  | centeredMaximin =>
    by_cases h : ns ≤ 1
    · have : ¬ 2 ≤ ns := by omega
      simp [sample, run, h, Once, this]
    · have : 2 ≤ ns := by omega
      simp only [sample, run, if_neg h, this, or_true, iff_true]
      exact (smp_maximin_run g _ _ _ _ _ rfl).2
  | optimized =>
    rcases Nat.lt_or_ge ns 2 with h | h
    · interval_cases ns <;> simp [sample, run, ht, eseLoop, Prog.lockAfter, Once]
    · simp only [sample, run, h, or_true, iff_true]
      have hf : ∀ e, (eseLoop K ns (eseIters nx) e).lockAfter = .free := by intro e; rw [ht]; rfl
      rw [hf]
      exact (smp_ese_run g K hK ns h _ _ _ rfl).2

/-- After an optimized design of no point (the default kind), the sampler and its clones, of whatever kind, panic at every call,
whatever is asked for. -/
theorem C155_refuted_failed_call (K : Kind → ℕ → ℕ → Content ρ ε) (s t : Sampler) (m : Memory) (ns : ℕ)
    (hs : s.kind = .optimized) (hx : 0 < s.nx) (hl : (m.cells s.rng).lock = .free) (ht : t.rng = s.rng) :
    (s.call K m 0).1 = .fail ∧ (t.call K (s.call K m 0).2 ns).1 = .fail := by
  obtain ⟨n, hn⟩ := Nat.exists_eq_succ_of_ne_zero (Nat.ne_of_gt (smp_eseIters_pos s.nx hx))
  have hlock : ((s.call K m 0).2.cells s.rng).lock = .poisoned := by
    simp [Sampler.call, sample, hs, run, hl, hn, eseLoop, Prog.lockAfter]
  refine ⟨?_, (smp_poisoned K t _ ns (by rw [ht]; exact hlock)).1⟩
  simp [Sampler.call, sample, hs, run, hl, hn, eseLoop, Prog.lockAfter]

/-- Once the lock is poisoned, in threads: it stays so, no number is drawn any more, calls which have ended stay as they are, and those
which get to run a section panic. -/
theorem C155_refuted_failed_call_threads (g : Numbers) (l : List ℕ) : ∀ (w : World ρ), w.cell.lock = .poisoned →
    (w.exec g l).cell = w.cell ∧
      ∀ i, (w.exec g l).calls i = w.calls i ∨ i ∈ l ∧ (w.exec g l).calls i = .fail := by
  induction l with
  | nil => intro w _; exact ⟨rfl, fun i => Or.inl rfl⟩
  | cons i l ih =>
    intro w h
    have hs : (w.step g i).cell = w.cell ∧
        ∀ j, (w.step g i).calls j = w.calls j ∨ j = i ∧ (w.step g i).calls j = .fail := by
      unfold World.step Samplers.step
      cases hc : w.calls i with
      | sec used next =>
        simp only [h, true_and]
        intro j
        by_cases hj : j = i
        · subst hj
          simp
        · simp [Function.update_of_ne hj]
      | _ => simp only [← hc, Function.update_eq_self, true_and, true_or, implies_true]
    obtain ⟨h1, h2⟩ := ih (w.step g i) (by rw [hs.1]; exact h)
    refine ⟨h1.trans hs.1, ?_⟩
    intro j
    show ((w.step g i).exec g l).calls j = _ ∨ _ ∧ ((w.step g i).exec g l).calls j = _
    rcases h2 j with h2 | ⟨h2, h3⟩
    · rcases hs.2 j with h4 | ⟨h4, h5⟩
      · exact Or.inl (h2.trans h4)
      · exact Or.inr ⟨by simp [h4], h2.trans h5⟩
    · exact Or.inr ⟨by simp [h2], h3⟩

theorem smp_held (g : Numbers) (w : World ρ) (h : w.cell.lock = .held) (l : List ℕ) : w.exec g l = w := by
  induction l with
  | nil => rfl
  | cons i l ih =>
    have : w.step g i = w := by
      unfold World.step Samplers.step
      cases hc : w.calls i <;> simp only [h, ← hc, Function.update_eq_self]
    show (w.step g i).exec g l = w
    rw [this, ih]

/-- Once an optimized design of one point has made its first two sections, which is all it makes for it never ends, no other call on
the same generator makes a step, whatever the schedule: the threads wait for ever. -/
theorem C155_refuted_waiting (g : Numbers) (K : Content ρ ε) (w : World ρ) (i nx : ℕ) (hx : 0 < nx)
    (hl : w.cell.lock = .free) (hi : w.calls i = sample K .optimized nx 1) (l : List ℕ) :
    ¬ Ended ((w.exec g (i :: i :: l)).calls i) ∧ ∀ j ≠ i, (w.exec g (i :: i :: l)).calls j = w.calls j := by
  obtain ⟨n, hn⟩ := Nat.exists_eq_succ_of_ne_zero (Nat.ne_of_gt (smp_eseIters_pos nx hx))
  have h2 : ((w.step g i).step g i).cell.lock = .held ∧ ((w.step g i).step g i).calls i = .hang ∧
      ∀ j ≠ i, ((w.step g i).step g i).calls j = w.calls j := by
    simp only [World.step, hi, sample, Samplers.step, hl, hn, eseLoop, Prog.lockAfter, Prog.settle,
      Function.update_self]
    refine ⟨rfl, rfl, ?_⟩
    intro j hj
    simp [Function.update_of_ne hj]
  have : w.exec g (i :: i :: l) = (w.step g i).step g i := smp_held g _ h2.1 l
  rw [this, h2.2.1]
  exact ⟨id, h2.2.2⟩

/-- A failed maximin design leaves the sampler as good as before: the next design is that of a generator which has given the
numbers of one design. -/
theorem C155_usable_partial (K : Kind → ℕ → ℕ → Content ρ ε) (s t : Sampler) (m : Memory) (ns nt : ℕ)
    (hs : s.kind = .maximin) (hns : ns ≤ 1) (hl : (m.cells s.rng).lock = .free) (ht : t.rng = s.rng) :
    let p := (m.cells s.rng).pos
    let q := p + ((K .maximin s.nx ns).classic fun i => m.numbers s.rng (p + i)).1
    (s.call K m ns).1 = .fail ∧
      (t.call K (s.call K m ns).2 nt).1 =
        (run (m.numbers s.rng) ⟨q, .free⟩ (sample (K t.kind t.nx nt) t.kind t.nx nt)).2 := by
  simp [Sampler.call, sample, hs, run, hl, hns, Prog.lockAfter, ht]

/-! ## Examples -/

/-- Two classic designs in two threads: the numbers 0 and 1. -/
example : Prog.result (((twoCalls .classic).exec (fun i => i) [1, 0]).calls 0) = some 1 ∧
    Prog.result (((twoCalls .classic).exec (fun i => i) [1, 0]).calls 1) = some 0 := by decide

/-- The threads of maximin designs. -/
example : Prog.result (((twoCalls .maximin).exec (fun i => i) [0, 1, 0, 1, 0, 1, 0, 1, 0, 1]).calls 0) = some 8 ∧
    Prog.result (((twoCalls .maximin).inOrder (fun i => i) [0, 1]).calls 0) = some 4 ∧
    Prog.result (((twoCalls .maximin).inOrder (fun i => i) [1, 0]).calls 0) = some 9 := by decide

/-- Number 3 is drawn in the fourth section. -/
example : Draws (fun i => i) ((twoCalls .maximin).exec (fun i => i) [0, 1, 0]) 1 3 := by
  rw [smp_draws_iff]
  decide

/-- A sampler in memory. -/
def smpMemory : Memory := ⟨1, fun _ i => i, fun _ => ⟨0, .free⟩⟩

/-- The default sampler in dimension 2 is broken by `sample(0)`. -/
example : Prog.result ((Sampler.mk .optimized 2 0).call (fun _ _ _ => smpContent) smpMemory 3).1 = some 120 ∧
    Prog.result (((Sampler.mk .optimized 2 0).clone.setKind .random).call (fun _ _ _ => smpContent)
      ((Sampler.mk .optimized 2 0).call (fun _ _ _ => smpContent) smpMemory 0).2 3).1 = none := by
  refine ⟨by set_option maxRecDepth 10000 in decide, ?_⟩
  have := C155_refuted_failed_call (fun _ _ _ => smpContent) (Sampler.mk .optimized 2 0)
    ((Sampler.mk .optimized 2 0).clone.setKind .random) smpMemory 3 rfl (by decide) rfl rfl
  rw [this.2]
  rfl

end Verif.Props
