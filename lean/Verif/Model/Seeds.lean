import Verif.Model.Tuning
import Verif.Model.Sparse

set_option autoImplicit false

/-!
# Random generators and seeds

Which generator each random choice of the library comes from: `prepare_multistart` (`gp/src/optimization.rs`), the
inducing points of sparse experts (`moe/src/algorithm.rs`, `gp/src/sparse_algorithm.rs`), the clustering of the
mixtures trained by a user (`python/src/gp_mix.rs`) and by the optimizer (`ego/src/solver/solver_impl.rs`,
`ego/src/gpmix/mod.rs`) and the rounds of the optimizer.

A generator is the sequence of the numbers `next_u64` returns. A generator made with `from_entropy` is an arbitrary
sequence, different in each execution: it is an argument of the definitions below. `gen` is `seed_from_u64`; it is a
parameter everywhere except in the statements on the actual `Xoshiro256Plus`.
-/

namespace Verif.Seeds
open Verif

/-- The numbers returned by the successive calls of `next_u64`. -/
abbrev Stream := ℕ → ℕ

/-- The generator after `n` draws. -/
def after (r : Stream) (n : ℕ) : Stream := fun i => r (n + i)

/-- A generator seeded by the user or else by the system (`python/src/gp_mix.rs:177-181`,
`python/src/sparse_gp_mix.rs:164-168`, `ego/src/solver/egor_solver.rs:186-190`, `gp/src/sparse_algorithm.rs:457-460`). -/
def rngOf (gen : ℕ → Stream) (seed : Option ℕ) (entropy : Stream) : Stream :=
  match seed with
  | some s => gen s
  | none => entropy

/-! ## Xoshiro256+ (crates `rand_core` 0.6 and `rand_xoshiro` 0.6, not in the repository) -/

/-- Numbers are `u64`. -/
def word : ℕ := 2 ^ 64

/-- One number of SplitMix64, from the state after its increment. -/
def splitMixOut (x : ℕ) : ℕ :=
  let z := (x ^^^ (x >>> 30)) * 0xbf58476d1ce4e5b9 % word
  let z := (z ^^^ (z >>> 27)) * 0x94d049bb133111eb % word
  z ^^^ (z >>> 31)

/-- The word number `i` of the state made by `seed_from_u64`. -/
def seedWord (seed i : ℕ) : ℕ := splitMixOut ((seed + (i + 1) * 0x9e3779b97f4a7c15) % word)

/-- The four words of the state. -/
structure State where
  s0 : ℕ
  s1 : ℕ
  s2 : ℕ
  s3 : ℕ

/-- `rotate_left` of `u64`. -/
def rotl (x k : ℕ) : ℕ := ((x <<< k) % word) ||| (x >>> (64 - k))

/-- State after a call of `next_u64`. -/
def State.next (s : State) : State :=
  let t := (s.s1 <<< 17) % word
  let s2 := s.s2 ^^^ s.s0
  let s3 := s.s3 ^^^ s.s1
  let s1 := s.s1 ^^^ s2
  let s0 := s.s0 ^^^ s3
  ⟨s0, s1, s2 ^^^ t, rotl s3 45⟩

/-- Number returned by `next_u64`. -/
def State.out (s : State) : ℕ := (s.s0 + s.s3) % word

/-- `Xoshiro256Plus::seed_from_u64(seed)`. -/
def xoshiro (seed : ℕ) : Stream := fun i =>
  ((State.next)^[i] ⟨seedWord seed 0, seedWord seed 1, seedWord seed 2, seedWord seed 3⟩).out

/-! ## Sparse experts -/

/-- `let seed = self.rng().r#gen(); expert_params.seed(seed)` (`moe/src/algorithm.rs:331, 334`): `seed` is an
`Option<u64>`, which `rand` draws as a boolean (the highest bit of a number), and then a number if it is true. -/
def optSeed (r : Stream) : Option ℕ := if 2 ^ 63 ≤ r 0 then some (r 1) else none

/-- The inducing points of a sparse expert (`moe/src/algorithm.rs:306-339`, `gp/src/sparse_algorithm.rs:457-464`) of a
mixture with generator `rng`. `shuffle` are the row numbers shuffled with a generator. -/
def expertInducings {α : Type} (gen : ℕ → Stream) (shuffle : Stream → ℕ → List ℕ) (rng entropy : Stream)
    (i : Sparse.Inducings α) (xt : List α) : Except Panic (List α) :=
  Sparse.inducingPoints i xt (shuffle (rngOf gen (optSeed rng) entropy) xt.length)

/-- Those of `SparseGpMix(seed=..)` (`python/src/sparse_gp_mix.rs:164-168, 190-207`). -/
def sparseMixInducings {α : Type} (gen : ℕ → Stream) (shuffle : Stream → ℕ → List ℕ) (seed : Option ℕ)
    (user entropy : Stream) (i : Sparse.Inducings α) (xt : List α) : Except Panic (List α) :=
  expertInducings gen shuffle (rngOf gen seed user) entropy i xt

/-- Those of a sparse GP trained by itself (`gp/src/sparse_algorithm.rs:457-464`). -/
def sparseGpInducings {α : Type} (gen : ℕ → Stream) (shuffle : Stream → ℕ → List ℕ) (seed : Option ℕ)
    (entropy : Stream) (i : Sparse.Inducings α) (xt : List α) : Except Panic (List α) :=
  Sparse.inducingPoints i xt (shuffle (rngOf gen seed entropy) xt.length)

/-! ## Mixtures -/

/-- What training depends on outside of this model, for data of type `D` and clusterings of type `C`: how numbers of
a generator become real numbers and designs, the clustering of the data, the data of each cluster, the likelihood, the
optimizer. -/
structure Learner (D C : Type) where
  toUnit : Stream → ℕ → ℝ
  toFirst : Stream → (ns nx : ℕ) → Doe.Draw ns nx
  toOthers : Stream → (ns nx : ℕ) → List (Doe.Draw ns nx)
  gmm : Stream → ℕ → D → C
  groups : C → D → List D
  nll : D → List ℝ → Flt
  opt : Tuning.Optimizer

/-- What may differ between two executions in the training of an expert: the generator made with `from_entropy`, and
how `rayon` splits the restarts among threads. -/
structure Chance where
  bits : Stream
  split : List (Flt × List ℝ) → Coego.Split (Flt × List ℝ)

/-- All the restarts are done, and kept in order. -/
def Chance.Fair (c : Chance) : Prop := ∀ l, (c.split l).items = l

/-- Options of the training: number of clusters (0 for automatic), of restarts, of evaluations, of hyperparameters,
and the tuning of each expert. -/
structure Options where
  nClusters : ℕ
  nStart : ℕ
  maxEval : ℕ
  dim : ℕ
  tuning : ℕ → Tuning.ThetaTuning

section
variable {D C : Type} (L : Learner D C) (gen : ℕ → Stream)

/-- The generators of `prepare_multistart` (`gp/src/optimization.rs:41-64`): `from_entropy` for one restart, the
seed 42 for several. -/
def startRng (entropy : Stream) : Tuning.Rng where
  unit := L.toUnit entropy
  first := L.toFirst (gen 42)
  others := L.toOthers (gen 42)

/-- Hyperparameters of the expert number `k`, trained on the data of its cluster (`gp/src/algorithm.rs:815-970`). -/
noncomputable def expertTheta (o : Options) (c : Chance) (k : ℕ) (d : D) : Except Panic (List ℝ) :=
  Tuning.fitTheta ⟨L.nll d, L.opt, startRng L gen c.bits, c.split⟩ o.dim o.nStart o.maxEval (o.tuning k)

/-- Clustering and hyperparameters of a mixture of GPs with generator `rng` (`moe/src/algorithm.rs:100-180`):
`given` is the clustering if it is not computed (`gmx` of the parameters). -/
noncomputable def trainMixture (o : Options) (rng : Stream) (chance : ℕ → Chance) (given : Option C) (d : D) :
    Except Panic (C × List (List ℝ)) :=
  let c := given.getD (L.gmm rng o.nClusters d)
  (((L.groups c d).zipIdx).mapM fun p => expertTheta L gen o (chance p.2) p.2 p.1) >>= fun thetas => .ok (c, thetas)

/-- The mixture trained by `GpMix(seed=..)` (`python/src/gp_mix.rs:177-212`). -/
noncomputable def gpMix (o : Options) (seed : Option ℕ) (user : Stream) (chance : ℕ → Chance) (d : D) :
    Except Panic (C × List (List ℝ)) :=
  trainMixture L gen o (rngOf gen seed user) chance none d

/-! ## The optimizer -/

/-- What the optimizer depends on outside of this model, for states of type `σ` (evaluated points, clusterings, last
hyperparameters): the initial design, whether clustering is made again, the data and clustering of each output, and
the points found with the surrogates and two generators (scaling, multistart), after evaluation. -/
structure Search (σ D C : Type) where
  outputs : ℕ
  doe : Stream → σ
  recluster : σ → Bool
  data : σ → ℕ → D
  clustering : σ → ℕ → Option C
  add : σ → List (C × List (List ℝ)) → Stream → Stream → σ

/-- What may differ between two executions of a run, first of all the generators made with `from_entropy`: that of the state when there is no seed
(`egor_solver.rs:186-190`), that of the surrogate builder (`solver_impl.rs:47`, `gpmix/mod.rs:20-25`,
`moe/src/parameters.rs:156`), and what differs in the restarts, for each round, output and
expert. -/
structure RunChance where
  run : Stream
  builder : Stream
  start : ℕ → ℕ → ℕ → Chance

variable {σ : Type} (S : Search σ D C)

/-- One pass of `select_next_points` for one point (`solver_impl.rs:625-755`): train the surrogate of each output with
the builder, draw the two seeds of the generators, search and evaluate. -/
noncomputable def egorRound (o : Options) (e : RunChance) (i : ℕ) (s : σ × Stream) : Except Panic (σ × Stream) :=
  ((List.range S.outputs).mapM fun k =>
    trainMixture L gen o e.builder (e.start i k)
      (if S.recluster s.1 then none else S.clustering s.1 k) (S.data s.1 k)) >>= fun models =>
    .ok (S.add s.1 models (gen (s.2 0)) (gen (s.2 1)), after s.2 2)

/-- State of a run after `n` rounds: the generator of the run is cloned for the initial design
(`egor_solver.rs:186-236`). -/
noncomputable def egorRun (o : Options) (seed : Option ℕ) (e : RunChance) : ℕ → Except Panic (σ × Stream)
  | 0 => .ok (S.doe (rngOf gen seed e.run), rngOf gen seed e.run)
  | n + 1 => egorRun o seed e n >>= egorRound L gen S o e n

end
end Verif.Seeds
