import Verif.Model.Config
import Verif.Model.Doe
import Verif.Model.MixIntModel

/-!
# Python function `sampling`

Model of `/repo/python/src/sampling.rs` and of the samplings made by `MixintContext`
(`/repo/crates/ego/src/gpmix/mixint.rs:802-859`).

Simplifications: exact real numbers; the random generator is given by the choices that a call makes with it.
-/

set_option autoImplicit false

namespace Verif.PySampling

open Verif Doe MixInt

/-- `Sampling` (`sampling.rs:11-19`). -/
inductive Method
  | lhs
  | fullFactorial
  | random
  | lhsClassic
  | lhsCentered
  | lhsMaximin
  | lhsCenteredMaximin
deriving DecidableEq

/-- What a generator gives for a sample of `ns` points in dimension `nx`, whatever the method. -/
structure Draws (ns nx : ℕ) where
  first : Draw ns nx
  others : List (Draw ns nx)
  shuffle : ℕ → Equiv.Perm (Fin ns)
  shuffles : List (ℕ → Equiv.Perm (Fin ns))
  swaps : List (List (EseChoice ns))
  rnd : Design ns nx

/-- Generators: one for each seed, and one from the entropy of the system. -/
abbrev Generator := (ns nx : ℕ) → Draws ns nx

/-- Rows of a design scaled to the limits (`doe/src/traits.rs:40-45`). -/
noncomputable def rowsOf (lim : List (ℝ × ℝ)) {ns : ℕ} (x : Design ns lim.length) : List (List ℝ) :=
  List.ofFn fun i => List.ofFn fun j => sample (fun j => (lim.get j).1) (fun j => (lim.get j).2) x i j

/-- `create_lhs_sampling(kind, seed)` then the continuous sample (`mixint.rs:815-832`). -/
noncomputable def lhsRows (lim : List (ℝ × ℝ)) {ns : ℕ} (call : LhsCall ns lim.length) :
    Except Panic (List (List ℝ)) := do
  let x ← lhsSample call
  .ok (rowsOf lim x)

/-- The continuous sample of each method (`sampling.rs:46-64`, `mixint.rs:815-859`); the default kind of Latin hypercube
is the optimized one (`doe/src/lhs.rs:31-32`). -/
noncomputable def continuousRows (m : Method) (lim : List (ℝ × ℝ)) {ns : ℕ} (d : Draws ns lim.length) :
    Except Panic (List (List ℝ)) :=
  match m with
  | .lhs => lhsRows lim (.optimized d.first d.swaps)
  | .lhsClassic => lhsRows lim (.classic d.first)
  | .lhsMaximin => lhsRows lim (.maximin d.first d.others)
  | .lhsCentered => lhsRows lim (.centered d.shuffle)
  | .lhsCenteredMaximin => lhsRows lim (.centeredMaximin d.shuffle d.shuffles)
  | .fullFactorial => do
    let rows ← fullFactorial ℝ lim.length ns
    .ok (rows.map (sampleRow lim))
  | .random => .ok (rowsOf lim (randomSample d.rnd))

/-- Generator of a call (`mixint.rs:820-824, 849-852`). -/
def generator (gen : ℕ → Generator) (entropy : Generator) : Option ℕ → Generator
  | none => entropy
  | some s => gen s

/-- `sampling` (`sampling.rs:37-66`); the context works in folded space (`mixint.rs:802-807`). -/
noncomputable def sampling (gen : ℕ → Generator) (entropy : Generator) (m : Method) (dom : Config.Domain ℝ) (n : ℕ)
    (seed : Option ℕ) : Except Panic (List (List ℝ)) := do
  let ts ← Config.parse dom
  let lim ← continuousLimits ts
  let rows ← continuousRows m lim (generator gen entropy seed n lim.length)
  mixintSample ts true rows

/-- `lhs` (`sampling.rs:81-88`). -/
noncomputable def lhs (gen : ℕ → Generator) (entropy : Generator) (dom : Config.Domain ℝ) (n : ℕ) (seed : Option ℕ) :
    Except Panic (List (List ℝ)) := sampling gen entropy .lhs dom n seed

end Verif.PySampling
