import Verif.Model.Seeds
import Verif.Props.SparseFit
import Verif.Props.Coego

set_option autoImplicit false

/-!
# C111: a seed makes results reproducible

What differs between two executions is an argument of the definitions of `Model/Seeds.lean`: results are reproducible
if they do not depend on it.
-/

namespace Verif.Spec

/-- SplitMix64 on 64-bit words, as in its reference implementation: the number made from a state. -/
def splitMix (x : BitVec 64) : BitVec 64 :=
  let z := (x ^^^ (x >>> 30)) * 0xbf58476d1ce4e5b9#64
  let z := (z ^^^ (z >>> 27)) * 0x94d049bb133111eb#64
  z ^^^ (z >>> 31)

/-- Xoshiro256+ on 64-bit words, as in its reference implementation: next state. -/
def xoshiroNext (s : BitVec 64 × BitVec 64 × BitVec 64 × BitVec 64) : BitVec 64 × BitVec 64 × BitVec 64 × BitVec 64 :=
  match s with
  | (a, b, c, d) => (a ^^^ d ^^^ b, b ^^^ c ^^^ a, c ^^^ a ^^^ (b <<< 17), (d ^^^ b).rotateLeft 45)

/-- Its numbers from a seed: the state is made of the first four numbers of SplitMix64, each number is the sum of the
first and last words. -/
def xoshiroOut (seed : BitVec 64) (i : ℕ) : BitVec 64 :=
  let g := 0x9e3779b97f4a7c15#64
  let s := xoshiroNext^[i] (splitMix (seed + g), splitMix (seed + g + g), splitMix (seed + g + g + g),
    splitMix (seed + g + g + g + g))
  s.1 + s.2.2.2

end Verif.Spec

namespace Verif.Props
open Verif Seeds

section
variable {D C : Type} (L : Learner D C) (gen : ℕ → Stream)

/-- The options do not lead to a single random restart. -/
def NoSingleRestart (o : Options) : Prop := o.nStart ≠ 1 ∨ ∀ k, ∃ init, o.tuning k = .fixed init

theorem optimizeActive_start {env env' : Tuning.Env} (hn : env.nll = env'.nll) (ho : env.opt = env'.opt)
    (hs : ∀ l, (env.split l).items = l) (hs' : ∀ l, (env'.split l).items = l) (dim nStart maxEval : ℕ) (h1 : nStart ≠ 1)
    (hf : env.rng.first = env'.rng.first) (hot : env.rng.others = env'.rng.others) (theta0 : List ℝ)
    (bounds : List (ℝ × ℝ)) (active : List ℕ) :
    Tuning.optimizeActive env dim nStart maxEval theta0 bounds active =
      Tuning.optimizeActive env' dim nStart maxEval theta0 bounds active := by
  have hm : ∀ init bs, Tuning.prepareMultistart env.rng nStart init bs =
      Tuning.prepareMultistart env'.rng nStart init bs := by
    intro init bs
    unfold Tuning.prepareMultistart
    have : ∀ n b, Tuning.otherStarts env.rng nStart n b = Tuning.otherStarts env'.rng nStart n b := by
      intro n b
      match nStart, h1 with
      | 0, _ => rfl
      | k + 2, _ => simp only [Tuning.otherStarts, Tuning.lhsRows, hf, hot]
    simp only [this]
  have hr : ∀ l dflt, (env.split l).reduce dflt = (env'.split l).reduce dflt := fun l dflt =>
    C30_split_independent dflt _ _ (by rw [hs, hs'])
  simp only [Tuning.optimizeActive, hm, hr, hn, ho]

theorem expertTheta_chance {o : Options} (ho : NoSingleRestart o) {c c' : Chance} (hc : c.Fair) (hc' : c'.Fair) (k : ℕ)
    (d : D) : expertTheta L gen o c k d = expertTheta L gen o c' k d := by
  unfold expertTheta
  cases ht : o.tuning k with
  | fixed init => rfl
  | full init b =>
    have h1 : o.nStart ≠ 1 := ho.elim id fun h => by obtain ⟨i, hi⟩ := h k; rw [ht] at hi; simp at hi
    simp only [Tuning.fitTheta]
    congr 1; funext theta0
    exact optimizeActive_start (env := ⟨L.nll d, L.opt, startRng L gen c.bits, c.split⟩)
      (env' := ⟨L.nll d, L.opt, startRng L gen c'.bits, c'.split⟩) rfl rfl hc hc' _ _ _ h1 rfl rfl _ _ _
  | part init b a =>
    have h1 : o.nStart ≠ 1 := ho.elim id fun h => by obtain ⟨i, hi⟩ := h k; rw [ht] at hi; simp at hi
    simp only [Tuning.fitTheta]
    congr 1; funext theta0
    rw [optimizeActive_start (env := ⟨L.nll d, L.opt, startRng L gen c.bits, c.split⟩)
      (env' := ⟨L.nll d, L.opt, startRng L gen c'.bits, c'.split⟩) rfl rfl hc hc' _ _ _ h1 rfl rfl _ _ _]

theorem trainMixture_chance {o : Options} (ho : NoSingleRestart o) (r r' : Stream) {ch ch' : ℕ → Chance}
    (hc : ∀ k, (ch k).Fair) (hc' : ∀ k, (ch' k).Fair) (given : Option C) (d : D)
    (hg : given = none → L.gmm r o.nClusters d = L.gmm r' o.nClusters d) :
    trainMixture L gen o r ch given d = trainMixture L gen o r' ch' given d := by
  have : given.getD (L.gmm r o.nClusters d) = given.getD (L.gmm r' o.nClusters d) := by
    cases given with
    | none => exact hg rfl
    | some c => rfl
  simp only [trainMixture, this]
  congr 2
  funext p
  exact expertTheta_chance L gen ho (hc _) (hc' _) _ _

/-- C111, part: the hyperparameters of a GP are the same in two executions, however the restarts are split among
threads, unless there is exactly one restart. -/
theorem C111_hyperparameters_partial (o : Options) (ho : NoSingleRestart o) (c c' : Chance) (hc : c.Fair) (hc' : c'.Fair)
    (k : ℕ) (d : D) : expertTheta L gen o c k d = expertTheta L gen o c' k d :=
  expertTheta_chance L gen ho hc hc' k d

/-- C111, part: with a seed, two trainings of a mixture on the same data give the same clustering and the same
hyperparameters, unless the number of restarts is one. -/
theorem C111_mixture_partial (o : Options) (ho : NoSingleRestart o) (seed : ℕ) (user user' : Stream) (ch ch' : ℕ → Chance)
    (hc : ∀ k, (ch k).Fair) (hc' : ∀ k, (ch' k).Fair) (d : D) :
    gpMix L gen o (some seed) user ch d = gpMix L gen o (some seed) user' ch' d :=
  trainMixture_chance L gen ho _ _ hc hc' none d fun _ => rfl

variable {σ : Type} (S : Search σ D C)

/-- C111, part: with a seed, two runs of the optimizer are in the same state (evaluated points, surrogates, generator)
after any number of rounds, if the surrogates have one cluster and the number of restarts is not one. `h1`: the
mixture model of one cluster (mean and covariance) does not depend on random numbers. -/
theorem C111_run_partial (o : Options) (ho : NoSingleRestart o) (hone : o.nClusters = 1)
    (h1 : ∀ r r' d, L.gmm r 1 d = L.gmm r' 1 d) (seed : ℕ) (e e' : RunChance)
    (he : ∀ i k j, (e.start i k j).Fair) (he' : ∀ i k j, (e'.start i k j).Fair) (n : ℕ) :
    egorRun L gen S o (some seed) e n = egorRun L gen S o (some seed) e' n := by
  induction n with
  | zero => rfl
  | succ n ih =>
    simp only [egorRun, ih]
    congr 1; funext s
    simp only [egorRound]
    congr 2
    funext k
    exact trainMixture_chance L gen ho _ _ (he n k) (he' n k) _ _ fun _ => by rw [hone]; exact h1 _ _ _

/-- C111: each round of a run uses two new numbers of the generator of the run, those of ranks `2 n` and `2 n + 1` in
round `n`: the searches of two rounds are not made with the same numbers of the generator. -/
theorem C111_run_numbers (o : Options) (seed : Option ℕ) (e : RunChance) (n : ℕ) (s : σ × Stream)
    (h : egorRun L gen S o seed e n = .ok s) :
    (∀ i, s.2 i = rngOf gen seed e.run (2 * n + i)) ∧
      ∀ s', egorRun L gen S o seed e (n + 1) = .ok s' → ∃ models, s'.1 =
        S.add s.1 models (gen (rngOf gen seed e.run (2 * n))) (gen (rngOf gen seed e.run (2 * n + 1))) := by
  have hr : ∀ n s, egorRun L gen S o seed e n = .ok s → ∀ i, s.2 i = rngOf gen seed e.run (2 * n + i) := by
    intro n
    induction n with
    | zero => intro s h i; simp only [egorRun, Except.ok.injEq] at h; subst h; simp
    | succ n ih =>
      intro s h i
      simp only [egorRun, bind, Except.bind] at h
      split at h
      · simp at h
      · rename_i s0 h0
        simp only [egorRound, bind, Except.bind] at h
        split at h
        · simp at h
        · simp only [Except.ok.injEq] at h
          subst h
          simp only [after, ih s0 h0]
          congr 1; ring
  refine ⟨hr n s h, fun s' h' => ?_⟩
  simp only [egorRun, h, bind, Except.bind, egorRound] at h'
  split at h'
  · simp at h'
  · rename_i models _
    simp only [Except.ok.injEq] at h'
    subst h'
    exact ⟨models, by rw [hr n s h, hr n s h]; rfl⟩
end

/-! ## Where a seed is not enough -/

/-- A learner on lists of numbers: clusters are centers, drawn from the data (the average if there is one cluster);
groups are the points nearest to each center; all hyperparameters but the first one are as likely. -/
noncomputable def exLearner : Learner (List ℝ) (List ℝ) where
  toUnit := fun s i => ((s i / 2 ^ 11 : ℕ) : ℝ) / 2 ^ 53
  toFirst := fun _ _ _ => ⟨fun _ _ => 1 / 2, fun _ => Equiv.refl _⟩
  toOthers := fun _ _ _ => []
  gmm := fun r n d => if n = 1 then [d.sum / d.length] else (List.range n).map fun i => d.getD (r i % d.length) 0
  groups := fun c d => (List.range c.length).map fun i => d.filter fun x => decide (∀ y ∈ c, |x - c.getD i 0| ≤ |x - y|)
  nll := fun _ t => if t = [1 / 10] then .fin 1 else .fin 0
  opt := clampOpt

/-- Draws of an execution: the same number each time, and no parallelism. -/
def exChance (b : ℕ) : Chance := ⟨fun _ => b, .task⟩

theorem exChance_fair (b : ℕ) : (exChance b).Fair := fun _ => rfl

theorem log10_tenth : Tuning.log10 (1 / 10) = -1 := by
  rw [Tuning.log10, one_div, Real.logb_inv, Real.logb_self_eq_one (by norm_num)]

theorem log10_hundredth : Tuning.log10 (1 / 100) = -2 := by
  rw [Tuning.log10, one_div, Real.logb_inv, show (100 : ℝ) = 10 ^ (2 : ℕ) by norm_num, Real.logb_pow,
    Real.logb_self_eq_one (by norm_num)]
  norm_num

theorem log10_ten : Tuning.log10 10 = 1 := Real.logb_self_eq_one (by norm_num)

theorem pow10_inj {a b : ℝ} (h : Tuning.pow10 a = Tuning.pow10 b) : a = b :=
  (Real.strictMono_rpow_of_base_gt_one (by norm_num : (1 : ℝ) < 10)).injective h

theorem pow10_neg_one : Tuning.pow10 (-1) = 1 / 10 := by
  rw [← log10_tenth, pow10_log10 (by norm_num)]

theorem exLearner_theta (gen : ℕ → Stream) (nc b k : ℕ) (d : List ℝ) (u : ℝ) (hu : u = ((b / 2 ^ 11 : ℕ) : ℝ) / 2 ^ 53)
    (h0 : 0 ≤ u) (h1 : u ≤ 1) (h3 : 3 * u - 2 ≠ -1) :
    expertTheta exLearner gen ⟨nc, 1, 50, 1, fun _ => .dflt⟩ (exChance b) k d = .ok [Tuning.pow10 (3 * u - 2)] := by
  have hne : Tuning.pow10 (3 * u - 2) ≠ 1 / 10 := by
    rw [← pow10_neg_one]; exact fun h => h3 (pow10_inj h)
  have hgr : Tuning.genRange (exLearner.toUnit (fun _ => b) 0) (-2, 1) = .ok (3 * u - 2) := by
    simp only [Tuning.genRange, exLearner]
    rw [if_pos (by norm_num), ← hu]
    congr 1; ring
  have hab : Tuning.activeBounds [((1 / 100 : ℝ), (10 : ℝ))] [0] = [(1 / 100, 10)] := by simp [Tuning.activeBounds]
  have hms : Tuning.prepareMultistart (startRng exLearner gen (exChance b).bits) 1 [1 / 10] [(1 / 100, 10)] =
      .ok ([[-1], [3 * u - 2]], [(-2, 1)]) := by
    simp only [Tuning.prepareMultistart, Tuning.otherStarts, List.map_cons, List.map_nil, log10_tenth, log10_hundredth,
      log10_ten, List.length_singleton, List.range_one, List.zip_cons_cons, List.zip_nil_right, List.mapM_cons,
      List.mapM_nil, startRng, exChance, hgr, bind, Except.bind, pure, Except.pure, Tuning.assignRow, if_true]
  have hv : ∀ v : ℝ, Tuning.objective (exLearner.nll d) [1 / 10] [0] [some v] =
      .ok (if Tuning.pow10 v = 1 / 10 then .fin 1 else .fin 0) := by
    intro v
    simp [Tuning.objective, Coego.assign, Tuning.allSome, exLearner, bind, Except.bind]
  have hc1 : clampTo [-1] [((-2 : ℝ), (1 : ℝ))] = [-1] := by norm_num [clampTo]
  have hc2 : clampTo [3 * u - 2] [((-2 : ℝ), (1 : ℝ))] = [3 * u - 2] := by
    simp only [clampTo, List.zipWith_cons_cons, List.zipWith_nil_left]
    rw [min_eq_left (by linarith), max_eq_right (by linarith)]
  have hsel : Tuning.select [(1 / 10 : ℝ)] [0] = .ok [1 / 10] := by simp [Tuning.select, bind, Except.bind]
  have hev : Tuning.evalLimit 1 50 = .ok 25 := by simp [Tuning.evalLimit, Tuning.minEval]
  simp only [expertTheta, Tuning.fitTheta, Tuning.ThetaTuning.dflt, Tuning.optimizeActive, Tuning.expand,
    Tuning.defaultInit, Tuning.defaultBounds, bind, Except.bind, List.replicate_one, List.range_one, hsel, hab, hms,
    List.length_singleton, hev, List.map_cons, List.map_nil, Tuning.optimizeParams]
  simp only [exLearner, clampOpt, hc1, hc2, List.map_cons, List.map_nil, exChance, Coego.Split.reduce, List.foldl_cons,
    List.foldl_nil]
  have hv' := hv
  simp only [exLearner] at hv'
  simp only [hv', pow10_neg_one, if_true, if_neg hne, Tuning.optValue, Coego.pick]
  simp [Flt.lt, Flt.cmp]

/-- C111 fails for one restart, even with one cluster and with the default tuning of the hyperparameters: whatever the
seed, two trainings on the same data may return different hyperparameters. -/
theorem C111_refuted_one_restart : ∃ L : Learner (List ℝ) (List ℝ), Spec.IsMinimizer L.opt ∧ Spec.NeverFails L.opt ∧
    ∀ (gen : ℕ → Stream) (seed : ℕ), ∃ (user : Stream) (ch ch' : ℕ → Chance) (c : List ℝ) (t t' : List (List ℝ)),
      (∀ k, (ch k).Fair) ∧ (∀ k, (ch' k).Fair) ∧
      gpMix L gen ⟨1, 1, 50, 1, fun _ => .dflt⟩ (some seed) user ch [0, 1] = .ok (c, t) ∧
      gpMix L gen ⟨1, 1, 50, 1, fun _ => .dflt⟩ (some seed) user ch' [0, 1] = .ok (c, t') ∧ t ≠ t' := by
  refine ⟨exLearner, clampOpt_isMinimizer, clampOpt_neverFails, fun gen seed => ?_⟩
  have key : ∀ (b : ℕ) (u : ℝ), u = ((b / 2 ^ 11 : ℕ) : ℝ) / 2 ^ 53 → 0 ≤ u → u ≤ 1 → 3 * u - 2 ≠ -1 →
      gpMix exLearner gen ⟨1, 1, 50, 1, fun _ => .dflt⟩ (some seed) (fun _ => 0) (fun _ => exChance b) [0, 1] =
        .ok ([(0 + 1) / 2], [[Tuning.pow10 (3 * u - 2)]]) := by
    intro b u hu h0 h1 h3
    have hg : exLearner.groups [(0 + 1) / 2] [0, 1] = [[0, 1]] := by simp [exLearner]
    have hc : exLearner.gmm (rngOf gen (some seed) fun _ => 0) 1 [0, 1] = [(0 + 1) / 2] := by simp [exLearner]
    simp only [gpMix, trainMixture, Option.getD_none, hc, hg, List.zipIdx_cons, List.zipIdx_nil, List.mapM_cons,
      List.mapM_nil, exLearner_theta gen 1 b _ _ u hu h0 h1 h3, bind, Except.bind, pure, Except.pure]
  refine ⟨fun _ => 0, fun _ => exChance 0, fun _ => exChance (2 ^ 63), _, _, _, fun _ => exChance_fair _,
    fun _ => exChance_fair _, key 0 0 (by norm_num) le_rfl zero_le_one (by norm_num),
    key (2 ^ 63) (1 / 2) (by norm_num) (by norm_num) (by norm_num) (by norm_num), ?_⟩
  intro h
  simp only [List.cons.injEq, and_true] at h
  have := pow10_inj h
  norm_num at this

theorem seeds_mapM_total {α β : Type} {f : α → Except Panic β} {l : List α} (h : ∀ a ∈ l, ∃ b, f a = .ok b) :
    ∃ r, l.mapM f = .ok r := by
  induction l with
  | nil => exact ⟨[], rfl⟩
  | cons a l ih =>
    obtain ⟨b, hb⟩ := h a (by simp)
    obtain ⟨r, hr⟩ := ih fun c hc => h c (by simp [hc])
    exact ⟨b :: r, by simp only [List.mapM_cons, hb, hr, bind, Except.bind, pure, Except.pure]⟩

/-- A search that evaluates the first center. -/
noncomputable def exSearch : Search (List ℝ) (List ℝ) (List ℝ) where
  outputs := 1
  doe := fun _ => [0, 1]
  recluster := fun _ => true
  data := fun s _ => s
  clustering := fun _ _ => none
  add := fun s m _ _ => s ++ m.map fun p => p.1.getD 0 0

theorem exLearner_uniform (gen : ℕ → Stream) (b : ℕ) (hb : b < 2 ^ 64) :
    UniformRng (startRng exLearner gen (exChance b).bits) := by
  refine ⟨fun i => ?_, fun ns nx => ?_⟩
  · have h : b / 2 ^ 11 < 2 ^ 53 := by omega
    have h' : ((b / 2 ^ 11 : ℕ) : ℝ) < 2 ^ 53 := by exact_mod_cast h
    simp only [startRng, exLearner, exChance]
    constructor
    · positivity
    · rw [div_lt_one (by positivity)]; exact h'
  · simp only [UniformCall, startRng, exLearner, List.mem_singleton, forall_eq]
    intro _ _; norm_num

/-- Case of `C111_mixture_partial`: three clusters and ten restarts, different draws and splits of the restarts. -/
example (user user' : Stream) : gpMix exLearner xoshiro ⟨3, 10, 50, 1, fun _ => .dflt⟩ (some 42) user
      (fun _ => exChance 7) [0, 1, 4, 9] = gpMix exLearner xoshiro ⟨3, 10, 50, 1, fun _ => .dflt⟩ (some 42) user'
      (fun _ => ⟨fun i => i, fun l => .join (.task (l.take 2)) (.task (l.drop 2))⟩) [0, 1, 4, 9] :=
  C111_mixture_partial exLearner xoshiro _ (.inl (by norm_num)) 42 user user' _ _ (fun _ => exChance_fair 7)
    (fun _ l => by simp [Coego.Split.items]) _

/-- Case of `C111_run_partial`. -/
example (e e' : RunChance) (he : ∀ i k j, (e.start i k j).Fair) (he' : ∀ i k j, (e'.start i k j).Fair) :
    egorRun exLearner xoshiro exSearch ⟨1, 10, 50, 1, fun _ => .dflt⟩ (some 42) e 20 =
      egorRun exLearner xoshiro exSearch ⟨1, 10, 50, 1, fun _ => .dflt⟩ (some 42) e' 20 :=
  C111_run_partial exLearner xoshiro exSearch _ (.inl (by norm_num)) rfl (fun r r' d => by simp [exLearner]) 42 e e'
    he he' 20

/-- Case of `C111_run_numbers`: the initial state of a run with the seed 42, and the numbers its first round uses. -/
example (e : RunChance) : egorRun exLearner xoshiro exSearch ⟨1, 10, 50, 1, fun _ => .dflt⟩ (some 42) e 0 =
    .ok ([0, 1], xoshiro 42) ∧ xoshiro 42 0 ≠ xoshiro 42 1 ∧ xoshiro 42 0 ≠ xoshiro 42 2 :=
  ⟨rfl, by decide +kernel, by decide +kernel⟩

/-- C111 fails for the optimizer with several clusters: whatever the seed and the number of restarts, two runs on the
same problem may evaluate different points after the initial design, as the surrogates are clustered with a generator
that ignores the seed. -/
theorem C111_refuted_run_clusters : ∃ (L : Learner (List ℝ) (List ℝ)) (S : Search (List ℝ) (List ℝ) (List ℝ)),
    Spec.IsMinimizer L.opt ∧ Spec.NeverFails L.opt ∧ (∀ r r' d, L.gmm r 1 d = L.gmm r' 1 d) ∧
    ∀ (gen : ℕ → Stream) (seed nStart : ℕ), ∃ (e e' : RunChance) (s s' : List ℝ × Stream),
      (∀ i k j, (e.start i k j).Fair) ∧ (∀ i k j, (e'.start i k j).Fair) ∧
      egorRun L gen S ⟨2, nStart, 50, 1, fun _ => .dflt⟩ (some seed) e 0 =
        egorRun L gen S ⟨2, nStart, 50, 1, fun _ => .dflt⟩ (some seed) e' 0 ∧
      egorRun L gen S ⟨2, nStart, 50, 1, fun _ => .dflt⟩ (some seed) e 1 = .ok s ∧
      egorRun L gen S ⟨2, nStart, 50, 1, fun _ => .dflt⟩ (some seed) e' 1 = .ok s' ∧ s.1 ≠ s'.1 := by
  refine ⟨exLearner, exSearch, clampOpt_isMinimizer, clampOpt_neverFails, fun r r' d => by simp [exLearner],
    fun gen seed nStart => ?_⟩
  have htheta : ∀ k d, ∃ t, expertTheta exLearner gen ⟨2, nStart, 50, 1, fun _ => .dflt⟩ (exChance 0) k d = .ok t := by
    intro k d
    exact C48_full_returns _ (exLearner_uniform gen 0 (by norm_num)) _ _ _ _ _ (.inl rfl) (.inl rfl)
      (by norm_num [Tuning.defaultBounds]) (by norm_num)
  have key : ∀ b : ℕ, ∃ s, egorRun exLearner gen exSearch ⟨2, nStart, 50, 1, fun _ => .dflt⟩ (some seed)
      ⟨fun _ => 0, fun _ => b, fun _ _ _ => exChance 0⟩ 1 = .ok s ∧ s.1 = [0, 1, [0, 1].getD (b % 2) 0] := by
    intro b
    obtain ⟨ts, hts⟩ := seeds_mapM_total (f := fun p : List ℝ × ℕ =>
      expertTheta exLearner gen ⟨2, nStart, 50, 1, fun _ => .dflt⟩ (exChance 0) p.2 p.1)
      (l := (exLearner.groups (exLearner.gmm (fun _ => b) 2 [0, 1]) [0, 1]).zipIdx) (fun p _ => htheta _ _)
    have htr : trainMixture exLearner gen ⟨2, nStart, 50, 1, fun _ => .dflt⟩ (fun _ => b) (fun _ => exChance 0) none [0, 1] =
        .ok (exLearner.gmm (fun _ => b) 2 [0, 1], ts) := by
      simp only [trainMixture, Option.getD_none, hts, bind, Except.bind]
    refine ⟨(exSearch.add [0, 1] [(exLearner.gmm (fun _ => b) 2 [0, 1], ts)] (gen (gen seed 0)) (gen (gen seed 1)),
      after (gen seed) 2), ?_, ?_⟩
    · show egorRound exLearner gen exSearch _ _ 0 ([0, 1], gen seed) = _
      simp only [egorRound]
      have hm : (List.range exSearch.outputs).mapM (fun k => trainMixture exLearner gen ⟨2, nStart, 50, 1, fun _ => .dflt⟩
          (fun _ => b) (fun _ => exChance 0) (if exSearch.recluster [0, 1] = true then none else exSearch.clustering [0, 1] k)
          (exSearch.data [0, 1] k)) = .ok [(exLearner.gmm (fun _ => b) 2 [0, 1], ts)] := by
        simp only [exSearch, List.range_one, List.mapM_cons, List.mapM_nil, if_true, htr, bind, Except.bind, pure,
          Except.pure]
      rw [hm]
      rfl
    · simp [exLearner, exSearch]
  obtain ⟨s, hs, hs1⟩ := key 0
  obtain ⟨s', hs', hs1'⟩ := key 1
  refine ⟨⟨fun _ => 0, fun _ => 0, fun _ _ _ => exChance 0⟩, ⟨fun _ => 0, fun _ => 1, fun _ _ _ => exChance 0⟩, s, s', fun _ _ _ => exChance_fair 0, fun _ _ _ => exChance_fair 0, rfl, hs, hs', ?_⟩
  rw [hs1, hs1']
  simp

/-! ## Sparse experts -/

/-- Any order of the rows can be drawn. -/
def AnyOrder (shuffle : Stream → ℕ → List ℕ) : Prop := ∀ n p, p.Perm (List.range n) → ∃ r, shuffle r n = p

/-- C111: the inducing points of a sparse GP with a seed, or those given by the user, are reproducible. -/
theorem C111_sparse_gp {α : Type} (gen : ℕ → Stream) (shuffle : Stream → ℕ → List ℕ) (seed : Option ℕ)
    (i : Sparse.Inducings α) (h : seed.isSome ∨ ∃ z, i = .located z) (xt : List α) (e e' : Stream) :
    sparseGpInducings gen shuffle seed e i xt = sparseGpInducings gen shuffle seed e' i xt := by
  rcases h with h | ⟨z, rfl⟩
  · obtain ⟨s, rfl⟩ := Option.isSome_iff_exists.1 h
    rfl
  · rfl

/-- C111, part: inducing points given by the user are used in the mixture whatever the seed. -/
theorem C111_sparse_mixture_located_partial {α : Type} (gen : ℕ → Stream) (shuffle : Stream → ℕ → List ℕ)
    (seed : Option ℕ) (z xt : List α) (user user' e e' : Stream) :
    sparseMixInducings gen shuffle seed user e (.located z) xt =
      sparseMixInducings gen shuffle seed user' e' (.located z) xt := rfl

theorem makeInducings_head {α : Type} {n : ℕ} (hn : 0 < n) {xt : List α} {a : ℕ} {l : List ℕ}
    (hp : (a :: l).Perm (List.range xt.length)) : ∃ z, Sparse.makeInducings n xt (a :: l) = .ok z ∧ z[0]? = xt[a]? := by
  obtain ⟨z, rows, hz, -⟩ := C94_randomized n xt (a :: l) hp
  have hz0 : Sparse.makeInducings n xt (a :: l) = .ok z := hz
  refine ⟨z, hz0, ?_⟩
  have hl : (a :: l).length = xt.length := by rw [hp.length_eq, List.length_range]
  simp only [Sparse.makeInducings] at hz0
  rw [if_pos (by omega)] at hz0
  have hm : min n xt.length = (min n xt.length - 1) + 1 := by simp only [List.length_cons] at hl; omega
  rw [hm, List.take_succ_cons] at hz0
  have := select_ok.1 hz0
  have h0 := congrArg (fun q => q[0]?) this
  have ha : a < xt.length := List.mem_range.1 (hp.mem_iff.1 (by simp))
  simp only [Spec.pickAt, List.map_cons, List.getElem?_cons_zero, List.getElem?_map] at h0
  cases hz1 : z[0]? with
  | none => simp [hz1] at h0
  | some v => simpa [hz1] using h0.symm

/-- Different orders of the rows give different inducing points. -/
theorem orders_differ {α : Type} (shuffle : Stream → ℕ → List ℕ) (hs : AnyOrder shuffle) (n : ℕ) (hn : 0 < n) (xt : List α)
    (hx : xt.Nodup) (h2 : 2 ≤ xt.length) : ∃ e e', Sparse.makeInducings n xt (shuffle e xt.length) ≠
      Sparse.makeInducings n xt (shuffle e' xt.length) := by
  obtain ⟨m, hm⟩ : ∃ m, xt.length = m + 2 := ⟨xt.length - 2, by omega⟩
  have hr : List.range xt.length = 0 :: 1 :: (List.range m).map (fun i => i + 2) := by
    rw [hm]
    apply List.ext_getElem?
    intro i
    match i with
    | 0 => simp
    | 1 => simp
    | i + 2 =>
      simp only [List.getElem?_cons_succ, List.getElem?_map]
      rcases lt_or_ge i m with hi | hi
      · rw [List.getElem?_range hi, List.getElem?_range (by omega)]; rfl
      · rw [List.getElem?_eq_none (by simpa using hi), List.getElem?_eq_none (by simpa using hi)]; rfl
  obtain ⟨e, he⟩ := hs xt.length _ (List.Perm.refl (List.range xt.length))
  obtain ⟨e', he'⟩ := hs xt.length (1 :: 0 :: (List.range m).map (fun i => i + 2)) (by rw [hr]; exact List.Perm.swap _ _ _)
  refine ⟨e, e', fun h => ?_⟩
  rw [he, he', hr] at h
  obtain ⟨z, hz, hz0⟩ := makeInducings_head hn (xt := xt) (a := 0) (l := 1 :: (List.range m).map (fun i => i + 2)) (by rw [hr])
  obtain ⟨z', hz', hz0'⟩ := makeInducings_head hn (xt := xt) (a := 1) (l := 0 :: (List.range m).map (fun i => i + 2))
    (by rw [hr]; exact List.Perm.swap _ _ _)
  rw [hz, hz', Except.ok.injEq] at h
  rw [h, hz0', List.getElem?_eq_getElem (by omega), List.getElem?_eq_getElem (by omega), Option.some.injEq] at hz0
  have := (hx.getElem_inj_iff).1 hz0
  omega

/-- C111: the inducing points chosen among the training points by a sparse GP are reproducible exactly when there is a
seed: without seed they are drawn again each time. -/
theorem C111_sparse_gp_iff {α : Type} (gen : ℕ → Stream) (shuffle : Stream → ℕ → List ℕ) (hs : AnyOrder shuffle)
    (seed : Option ℕ) (n : ℕ) (hn : 0 < n) (xt : List α) (hx : xt.Nodup) (h2 : 2 ≤ xt.length) :
    (∀ e e', sparseGpInducings gen shuffle seed e (.randomized n) xt =
      sparseGpInducings gen shuffle seed e' (.randomized n) xt) ↔ seed.isSome := by
  constructor
  · intro h
    cases seed with
    | some s => rfl
    | none =>
      obtain ⟨e, e', hne⟩ := orders_differ shuffle hs n hn xt hx h2
      exact absurd (h e e') hne
  · exact fun h e e' => C111_sparse_gp gen shuffle seed _ (.inl h) xt e e'

/-- C111, part: the inducing points chosen among the training points by a mixture with a seed are reproducible exactly
when the first number of the generator has its highest bit set. -/
theorem C111_sparse_mixture_iff_partial {α : Type} (gen : ℕ → Stream) (shuffle : Stream → ℕ → List ℕ)
    (hs : AnyOrder shuffle) (seed n : ℕ) (hn : 0 < n) (xt : List α) (hx : xt.Nodup) (h2 : 2 ≤ xt.length) :
    (∀ user user' e e', sparseMixInducings gen shuffle (some seed) user e (.randomized n) xt =
      sparseMixInducings gen shuffle (some seed) user' e' (.randomized n) xt) ↔ 2 ^ 63 ≤ gen seed 0 := by
  constructor
  · intro h
    by_contra hlt
    have hopt : ∀ user e, sparseMixInducings gen shuffle (some seed) user e (.randomized n) xt =
        Sparse.makeInducings n xt (shuffle e xt.length) := by
      intro user e
      have ho : optSeed (gen seed) = none := if_neg hlt
      simp only [sparseMixInducings, expertInducings, rngOf, ho, Sparse.inducingPoints]
    obtain ⟨e, e', hne⟩ := orders_differ shuffle hs n hn xt hx h2
    have := h (fun _ => 0) (fun _ => 0) e e'
    rw [hopt, hopt] at this
    exact hne this
  · intro h user user' e e'
    have ho : optSeed (gen seed) = some (gen seed 1) := if_pos h
    simp only [sparseMixInducings, expertInducings, rngOf, ho]

/-- C111 fails for the seed 42 (and for about half of the seeds) of `SparseGpMix`: with the generator of the library,
the points chosen may differ between two executions. -/
theorem C111_refuted_sparse_seed {α : Type} (shuffle : Stream → ℕ → List ℕ) (hs : AnyOrder shuffle) (n : ℕ) (hn : 0 < n)
    (xt : List α) (hx : xt.Nodup) (h2 : 2 ≤ xt.length) :
    ∃ user e e', sparseMixInducings xoshiro shuffle (some 42) user e (.randomized n) xt ≠
      sparseMixInducings xoshiro shuffle (some 42) user e' (.randomized n) xt := by
  by_contra h
  push Not at h
  have h42 : ¬ 2 ^ 63 ≤ xoshiro 42 0 := by decide +kernel
  exact h42 ((C111_sparse_mixture_iff_partial xoshiro shuffle hs 42 n hn xt hx h2).1 fun user user' e e' => by
    rw [h user e e']; rfl)

theorem mix_toNat (x c : BitVec 64) (k : ℕ) :
    (x.toNat ^^^ (x.toNat >>> k)) * c.toNat % word = ((x ^^^ (x >>> k)) * c).toNat := by
  rw [BitVec.toNat_mul, BitVec.toNat_xor, BitVec.toNat_ushiftRight, word]

theorem splitMixOut_toNat (x : BitVec 64) : splitMixOut x.toNat = (Spec.splitMix x).toNat := by
  have h1 := mix_toNat x 0xbf58476d1ce4e5b9#64 30
  have h2 := mix_toNat ((x ^^^ (x >>> 30)) * 0xbf58476d1ce4e5b9#64) 0x94d049bb133111eb#64 27
  rw [BitVec.toNat_ofNat] at h1 h2
  norm_num only at h1 h2
  simp only [splitMixOut, Spec.splitMix, h1, h2, BitVec.toNat_xor, BitVec.toNat_ushiftRight]

theorem rotl_toNat (x : BitVec 64) : rotl x.toNat 45 = (x.rotateLeft 45).toNat := by
  simp [rotl, word, BitVec.toNat_rotateLeft]

/-- The words of a state. -/
def stateOf (s : BitVec 64 × BitVec 64 × BitVec 64 × BitVec 64) : State :=
  ⟨s.1.toNat, s.2.1.toNat, s.2.2.1.toNat, s.2.2.2.toNat⟩

theorem next_stateOf (s : BitVec 64 × BitVec 64 × BitVec 64 × BitVec 64) :
    (stateOf s).next = stateOf (Spec.xoshiroNext s) := by
  obtain ⟨a, b, c, d⟩ := s
  simp only [State.next, stateOf, Spec.xoshiroNext, ← BitVec.toNat_xor, rotl_toNat, State.mk.injEq]
  refine ⟨?_, ?_, ?_, trivial⟩
  · rw [BitVec.xor_assoc]
  · rw [BitVec.xor_assoc]
  · simp [BitVec.toNat_xor, BitVec.toNat_shiftLeft, word]

theorem iterate_stateOf (i : ℕ) (s : BitVec 64 × BitVec 64 × BitVec 64 × BitVec 64) :
    (State.next)^[i] (stateOf s) = stateOf (Spec.xoshiroNext^[i] s) := by
  induction i generalizing s with
  | zero => rfl
  | succ i ih => rw [Function.iterate_succ_apply, Function.iterate_succ_apply, next_stateOf, ih]

/-- C111: the generator of the model is Xoshiro256+ seeded with SplitMix64, for all seeds and all numbers. -/
theorem C111_generator (seed : BitVec 64) (i : ℕ) : xoshiro seed.toNat i = (Spec.xoshiroOut seed i).toNat := by
  have h : ∀ k, seedWord seed.toNat k = (Spec.splitMix (seed + BitVec.ofNat 64 (k + 1) * 0x9e3779b97f4a7c15#64)).toNat := by
    intro k
    rw [← splitMixOut_toNat, seedWord]
    congr 1
    rw [BitVec.toNat_add, BitVec.toNat_mul, BitVec.toNat_ofNat]
    simp [word, Nat.add_mod, Nat.mul_mod]
  have hs : (⟨seedWord seed.toNat 0, seedWord seed.toNat 1, seedWord seed.toNat 2, seedWord seed.toNat 3⟩ : State) =
      stateOf (Spec.splitMix (seed + 0x9e3779b97f4a7c15#64),
        Spec.splitMix (seed + 0x9e3779b97f4a7c15#64 + 0x9e3779b97f4a7c15#64),
        Spec.splitMix (seed + 0x9e3779b97f4a7c15#64 + 0x9e3779b97f4a7c15#64 + 0x9e3779b97f4a7c15#64),
        Spec.splitMix (seed + 0x9e3779b97f4a7c15#64 + 0x9e3779b97f4a7c15#64 + 0x9e3779b97f4a7c15#64 +
          0x9e3779b97f4a7c15#64)) := by
    simp only [stateOf, h, BitVec.add_assoc]
    rfl
  rw [xoshiro, hs, iterate_stateOf]
  simp only [State.out, Spec.xoshiroOut, stateOf, BitVec.toNat_add, word]

/-- The first numbers of Xoshiro256+ from the state (1, 2, 3, 4), as published with its reference implementation. -/
example : (List.range 10).map (fun i => ((State.next)^[i] ⟨1, 2, 3, 4⟩).out) =
    [5, 211106232532999, 211106635186183, 9223759065350669058, 9250833439874351877, 13862484359527728515,
      2346507365006083650, 1168864526675804870, 34095955243042024, 3466914240207415127] := by decide +kernel

/-- The first numbers of SplitMix64 from the seed 1477776061723855037, as published with its reference implementation. -/
example : (List.range 5).map (seedWord 1477776061723855037) =
    [1985237415132408290, 2979275885539914483, 13511426838097143398, 8488337342461049707, 15141737807933549159] := by
  decide +kernel

/-- A shuffle that can give any order. -/
def exShuffle : Stream → ℕ → List ℕ := fun r n =>
  if ((List.range n).map r).Perm (List.range n) then (List.range n).map r else List.range n

theorem exShuffle_anyOrder : AnyOrder exShuffle := by
  intro n p hp
  have hl : p.length = n := by rw [hp.length_eq, List.length_range]
  have he : ((List.range n).map fun i => p.getD i 0) = p := by
    apply List.ext_getElem (by simp [hl])
    intro i h1 h2
    simp [List.getD_eq_getElem?_getD, h2]
  refine ⟨fun i => p.getD i 0, ?_⟩
  simp only [exShuffle, he]
  rw [if_pos hp]

/-- Cases of `C111_sparse_mixture_iff_partial` and `C111_refuted_sparse_seed`: three rows; the seed 0 is followed, the
seed 42 is not. -/
example : (∀ user user' e e', sparseMixInducings xoshiro exShuffle (some 0) user e (.randomized 2) ["a", "b", "c"] =
      sparseMixInducings xoshiro exShuffle (some 0) user' e' (.randomized 2) ["a", "b", "c"]) ∧
    ∃ user e e', sparseMixInducings xoshiro exShuffle (some 42) user e (.randomized 2) ["a", "b", "c"] ≠
      sparseMixInducings xoshiro exShuffle (some 42) user e' (.randomized 2) ["a", "b", "c"] :=
  ⟨(C111_sparse_mixture_iff_partial xoshiro exShuffle exShuffle_anyOrder 0 2 (by omega) _ (by decide) (by decide)).2
    (by decide +kernel), C111_refuted_sparse_seed exShuffle exShuffle_anyOrder 2 (by omega) _ (by decide) (by decide)⟩

end Verif.Props
